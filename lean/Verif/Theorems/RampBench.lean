import Verif.Model.RampBench
import Verif.Theorems.RampAccuracy

/-!
# C114: the ramp bench of the examples, from code widths to reported DNL and INL
-/

namespace Verif

open Model

variable {K : Type} [Field K] [LinearOrder K] [IsStrictOrderedRing K] [FloorRing K]

/-! ## Specification -/

/-- Lower edge of code `c` for the given widths, as a share of the range: nothing below code 0, everything from the last code on. -/
def widthLevel (widths : List K) (c : ℤ) : K := (widths.take c.toNat).sum / widths.sum

/-- Sum of the widths of the codes from `a` to `b - 1`. -/
def widthSum (widths : List K) (a b : ℤ) : K := ((widths.take b.toNat).drop a.toNat).sum

omit [FloorRing K] in
private theorem take_mono (widths : List K) (h : ∀ w ∈ widths, 0 ≤ w) {i j : ℕ} (hij : i ≤ j) : (widths.take i).sum ≤ (widths.take j).sum := by
  obtain ⟨d, rfl⟩ := Nat.exists_eq_add_of_le hij
  rw [List.take_add, List.sum_append]
  have : 0 ≤ ((widths.drop i).take d).sum := List.sum_nonneg fun x hx => h x (List.mem_of_mem_drop (List.mem_of_mem_take hx))
  linarith

omit [FloorRing K] in
private theorem take_le (widths : List K) (h : ∀ w ∈ widths, 0 ≤ w) (i : ℕ) : (widths.take i).sum ≤ widths.sum := by
  have := take_mono widths h (le_max_left i widths.length)
  rwa [List.take_of_length_le (le_max_right _ _)] at this

omit [FloorRing K] in
private theorem inner_edges (widths : List K) : (((rampEdges widths).map (· / widths.sum)).drop 1).dropLast =
    (List.range (widths.length - 1)).map fun k => (widths.take (k + 1)).sum / widths.sum := by
  unfold rampEdges
  rw [List.map_map, List.range_succ_eq_map, List.map_cons, List.drop_one, List.tail_cons, List.map_map]
  cases hn : widths.length with
  | zero => simp
  | succ n =>
    rw [List.range_succ, List.map_append, List.map_cons, List.map_nil, List.dropLast_concat, Nat.add_sub_cancel]
    rfl

omit [FloorRing K] in
/-- The number of edges not above `x`. -/
private theorem search_lt (e : ℕ → K) (n : ℕ) (x : K) (hm : ∀ i j, i ≤ j → e i ≤ e j) (c : ℕ) (hc : c ≤ n) :
    ((searchsortedRight ((List.range n).map e) x : ℕ) < c ↔ ∃ k < c, x < e k ∧ ∀ i < k, e i ≤ x) := by
  unfold searchsortedRight
  rw [List.filter_map, List.length_map]
  have key : ∀ m : ℕ, ∃ k ≤ m, (List.range m).filter ((fun e => decide (e ≤ x)) ∘ e) = List.range k ∧ (∀ i < k, e i ≤ x) ∧ (k < m → x < e k) := by
    intro m
    induction m with
    | zero => exact ⟨0, le_rfl, by simp, by simp, by simp⟩
    | succ m ih =>
      obtain ⟨k, hk, h1, h2, h3⟩ := ih
      rw [List.range_succ, List.filter_append, h1]
      by_cases h : e m ≤ x
      · have hkm : k = m := by
          by_contra hne
          have := h3 (by omega)
          have := hm k m hk
          linarith
        refine ⟨m + 1, le_rfl, ?_, ?_, by omega⟩
        · rw [hkm, List.range_succ]
          simp [h]
        · intro i hi
          rcases Nat.lt_succ_iff_lt_or_eq.mp hi with h' | rfl
          · exact h2 i (by omega)
          · exact h
      · refine ⟨k, by omega, ?_, h2, ?_⟩
        · simp [h]
        · intro _
          rcases Nat.lt_or_ge k m with h' | h'
          · exact h3 h'
          · have : k = m := by omega
            rw [this]
            exact not_le.mp h
  obtain ⟨k, hk, h1, h2, h3⟩ := key n
  rw [h1, List.length_range]
  constructor
  · intro h
    exact ⟨k, h, h3 (by omega), h2⟩
  · rintro ⟨i, hi, h4, _⟩
    by_contra hc'
    have := h2 i (by omega)
    linarith

/-- **C114 (the generator is a ramp through a converter).** For non-negative widths with a positive sum, and at least two samples, the codes are those of a
converter whose code `c` starts at the share of the summed widths below it, driven by a uniform ramp. -/
theorem C114_is_ramp_record (widths : List K) (spc : ℕ) (hw : ∀ w ∈ widths, 0 ≤ w) (hs : 0 < widths.sum) (h2 : 2 ≤ widths.length * spc) :
    ∃ z : ℕ → ℤ, simulateRampCodes widths spc = .ok ((List.range (widths.length * spc)).map fun j => (z j).toNat) ∧ (∀ j, 0 ≤ z j) ∧
      IsRampRecord (widthLevel widths) 0 ((1 - 1 / 2 ^ 53) / ((widths.length * spc : ℕ) - 1)) (widths.length * spc) z := by
  set N := widths.length * spc with hN
  refine ⟨fun j => (searchsortedRight ((List.range (widths.length - 1)).map fun k => (widths.take (k + 1)).sum / widths.sum) (linspaceAt (0 : K) (1 - 1 / 2 ^ 53) N j) : ℕ), ?_,
    fun j => Int.natCast_nonneg _, ?_⟩
  · unfold simulateRampCodes
    rw [if_neg (by
      rintro ⟨w, h1, h3⟩
      exact absurd (hw w h1) (not_le.mpr h3))]
    simp only [inner_edges, List.map_map, Int.toNat_natCast]
    rfl
  · intro j hj c
    have hx : linspaceAt (0 : K) (1 - 1 / 2 ^ 53) N j = 0 + j * ((1 - 1 / 2 ^ 53) / ((N : ℕ) - 1)) := by
      unfold linspaceAt
      rw [sub_zero]
    have hNK : (0 : K) < (N : K) - 1 := by
      have : (2 : K) ≤ N := by exact_mod_cast h2
      linarith
    have hu : (0 : K) < 1 - 1 / 2 ^ 53 := by norm_num
    have hu1 : (1 : K) - 1 / 2 ^ 53 < 1 := by norm_num
    have hx0 : 0 ≤ linspaceAt (0 : K) (1 - 1 / 2 ^ 53) N j := by
      rw [hx]
      positivity
    have hx1 : linspaceAt (0 : K) (1 - 1 / 2 ^ 53) N j < 1 := by
      rw [hx, zero_add, mul_div_assoc', div_lt_one hNK]
      have : (j : K) + 1 ≤ N := by exact_mod_cast hj
      have hj0 : (0 : K) ≤ j := by positivity
      nlinarith
    beta_reduce
    rw [← hx]
    generalize linspaceAt (0 : K) (1 - 1 / 2 ^ 53) N j = x at hx0 hx1
    have hmono : ∀ i k : ℕ, i ≤ k → (widths.take (i + 1)).sum / widths.sum ≤ (widths.take (k + 1)).sum / widths.sum :=
      fun i k h => div_le_div_of_nonneg_right (take_mono widths hw (by omega)) hs.le
    have hlen : searchsortedRight ((List.range (widths.length - 1)).map fun k => (widths.take (k + 1)).sum / widths.sum) x ≤ widths.length - 1 := by
      unfold searchsortedRight
      refine (List.length_filter_le _ _).trans ?_
      simp
    have hlpos : 0 < widths.length := by
      rcases Nat.eq_zero_or_pos widths.length with h | h
      · rw [h, zero_mul] at hN
        omega
      · exact h
    rcases le_or_gt c 0 with hc | hc
    · have : c.toNat = 0 := by omega
      unfold widthLevel
      rw [this, List.take_zero, List.sum_nil, zero_div]
      constructor
      · intro h
        omega
      · intro h
        linarith
    · rcases Nat.lt_or_ge (widths.length - 1) c.toNat with hcn | hcn
      · have : widthLevel widths c = 1 := by
          unfold widthLevel
          rw [List.take_of_length_le (by omega), div_self hs.ne']
        rw [this]
        constructor
        · intro _
          exact hx1
        · intro _
          omega
      · have hlt := search_lt (fun k => (widths.take (k + 1)).sum / widths.sum) (widths.length - 1) x hmono c.toNat hcn
        have : ((searchsortedRight ((List.range (widths.length - 1)).map fun k => (widths.take (k + 1)).sum / widths.sum) x : ℕ) : ℤ) < c ↔
            searchsortedRight ((List.range (widths.length - 1)).map fun k => (widths.take (k + 1)).sum / widths.sum) x < c.toNat := by omega
        rw [this, hlt]
        unfold widthLevel
        constructor
        · rintro ⟨k, hk, h3, _⟩
          refine h3.trans_le (div_le_div_of_nonneg_right (take_mono widths hw (by omega)) hs.le)
        · intro h3
          classical
          have hex : ∃ k, x < (widths.take (k + 1)).sum / widths.sum := ⟨c.toNat - 1, by rwa [Nat.sub_add_cancel (by omega)]⟩
          refine ⟨Nat.find hex, ?_, Nat.find_spec hex, fun i hi => not_lt.mp (Nat.find_min hex hi)⟩
          have := Nat.find_min' hex (m := c.toNat - 1) (by rwa [Nat.sub_add_cancel (by omega)])
          omega

/-- **C114 (from widths to DNL and INL).** A simulated ramp of at most `2^53` samples through codes of the given widths, analysed by `compute_inl_from_ramp`: every reported DNL is
within `2 / ideal_count` of the width of its code over the mean width of the analysed codes minus one, and every raw INL within the same of the accumulated widths. The ideal count times the number of
analysed codes is their share of the ramp, to within one sample. -/
theorem C114_dnl_inl (widths : List K) (spc : ℕ) (hw : ∀ w ∈ widths, 0 ≤ w) (h2 : 2 ≤ widths.length * spc) (h53 : widths.length * spc ≤ 2 ^ 53) (codes : List ℕ)
    (hsim : simulateRampCodes widths spc = .ok codes) (numBits : Option ℤ) (codeMax : Option ℤ) (endpoint : Endpoint) (exclude : Bool) (r : RampInl K)
    (h : inlFromRamp (codes.map fun (c : ℕ) => (c : K)) numBits 0 codeMax endpoint exclude = .ok r) (a b : ℤ) (ha : a = firstCode 0 r.codeMax exclude)
    (hb : b = lastCode 0 r.codeMax exclude + 1) (hpos : 0 < widthSum widths a b) :
    (∀ i < r.dnl.length, |r.dnl.getD i 0 - (widths.getD (r.code.getD i 0).toNat 0 / (widthSum widths a b / (b - a)) - 1)| < 2 / r.idealCount) ∧
    (∀ k < r.rawInl.length, |r.rawInl.getD k 0 - (widthSum widths a (r.transitionCode.getD k 0) / (widthSum widths a b / (b - a)) - ((r.transitionCode.getD k 0 : K) - a))| <
      2 / r.idealCount) ∧
    |r.idealCount * (b - a) - widthSum widths a b / widths.sum * (((widths.length * spc : ℕ) : K) - 1) / (1 - 1 / 2 ^ 53)| < 1 := by
  have hs : 0 < widths.sum := by
    refine hpos.trans_le ?_
    unfold widthSum
    have e : widths.sum = (widths.take b.toNat).sum + (widths.drop b.toNat).sum := by rw [← List.sum_append, List.take_append_drop]
    have e2 : (widths.take b.toNat).sum = ((widths.take b.toNat).take a.toNat).sum + ((widths.take b.toNat).drop a.toNat).sum := by rw [← List.sum_append, List.take_append_drop]
    have h3 : 0 ≤ (widths.drop b.toNat).sum := List.sum_nonneg fun x hx => hw x (List.mem_of_mem_drop hx)
    have h4 : 0 ≤ ((widths.take b.toNat).take a.toNat).sum := List.sum_nonneg fun x hx => hw x (List.mem_of_mem_take (List.mem_of_mem_take hx))
    linarith
  obtain ⟨z, hz1, hz0, hz⟩ := C114_is_ramp_record widths spc hw hs h2
  rw [hsim] at hz1
  injection hz1 with hz1
  set N := widths.length * spc with hN
  have hNK : (0 : K) < (N : K) - 1 := by
    have : (2 : K) ≤ N := by exact_mod_cast h2
    linarith
  have hu : (0 : K) < 1 - 1 / 2 ^ 53 := by norm_num
  have hcodes : (codes.map fun (c : ℕ) => (c : K)) = (List.range N).map fun j => (z j : K) := by
    rw [hz1, List.map_map]
    apply List.map_congr_left
    intro j _
    simp only [Function.comp]
    rw [← Int.cast_natCast, Int.toNat_of_nonneg (hz0 j)]
  rw [hcodes] at h
  obtain ⟨a', m, hm, _, ha', hb', hcl, _, hdl, hrl, _, htl, _, _, hcode, _, _, htr, _⟩ := C46_ramp_bookkeeping _ _ _ _ _ _ _ h
  obtain rfl : a' = a := by rw [ha, ha']
  have hbm : b = a' + m := by omega
  have ha0 : 0 ≤ a' := by
    rw [ha]
    unfold firstCode
    split_ifs <;> omega
  have hlev : ∀ c, a' ≤ c → widthLevel widths c - widthLevel widths a' = widthSum widths a' c / widths.sum := by
    intro c hc
    unfold widthLevel widthSum
    have e2 : (widths.take c.toNat).sum = ((widths.take c.toNat).take a'.toNat).sum + ((widths.take c.toNat).drop a'.toNat).sum := by rw [← List.sum_append, List.take_append_drop]
    rw [List.take_take, min_eq_left (by omega)] at e2
    rw [e2]
    ring
  have hstep : ∀ c : ℤ, 0 ≤ c → widthLevel widths (c + 1) - widthLevel widths c = widths.getD c.toNat 0 / widths.sum := by
    intro c hc
    unfold widthLevel
    rw [show (c + 1).toNat = c.toNat + 1 by omega, List.take_succ, List.sum_append]
    have : (widths[c.toNat]?.toList).sum = widths.getD c.toNat 0 := by
      rw [List.getD_eq_getElem?_getD]
      cases widths[c.toNat]? <;> simp
    rw [this]
    ring
  have hlsb : ∀ y : K, y / widths.sum / lsbSize (widthLevel widths) a' b = y / (widthSum widths a' b / (b - a')) := by
    intro y
    unfold lsbSize
    rw [hlev b (by omega)]
    have hba : (b : K) - a' ≠ 0 := by
      rw [hbm]
      push_cast
      rw [add_sub_cancel_left]
      exact_mod_cast hm.ne'
    have := hpos.ne'
    have := hs.ne'
    field_simp
  obtain ⟨k1, k2, k3⟩ := C67_ramp_accuracy (widthLevel widths) 0 _ (div_pos hu hNK) N z hz numBits 0 codeMax endpoint exclude r h a' b ha hb
    (fun c d _ hcd _ => div_le_div_of_nonneg_right (take_mono widths hw (by omega)) hs.le) (by
      have := hlev b (by omega)
      have : 0 < widthSum widths a' b / widths.sum := div_pos hpos hs
      linarith) (by
      unfold widthLevel
      exact div_nonneg (List.sum_nonneg fun x hx => hw x (List.mem_of_mem_take hx)) hs.le) (by
      have h1 : widthLevel widths b ≤ 1 := by
        unfold widthLevel
        rw [div_le_one hs]
        exact take_le widths hw _
      refine h1.trans ?_
      rw [zero_add, mul_div_assoc', le_div_iff₀ hNK]
      have : (N : K) ≤ 2 ^ 53 := by exact_mod_cast h53
      have : (N : K) * (1 / 2 ^ 53) ≤ 1 := by
        rw [mul_one_div, div_le_one (by positivity)]
        exact this
      linarith)
  refine ⟨fun i hi => ?_, fun k hk => ?_, ?_⟩
  · have hc := (hcode i (by omega)).1
    have := k1 i hi
    unfold trueDnl at this
    rw [hstep _ (by rw [hc]; omega), hlsb] at this
    exact this
  · have hc := (htr k (by omega)).1
    have := k2 k hk
    unfold trueInl at this
    rw [hlev _ (by rw [hc]; omega), hlsb] at this
    exact this
  · rw [hlev b (by omega)] at k3
    refine lt_of_eq_of_lt ?_ k3
    congr 2
    rw [div_div_eq_mul_div]

/-- **C114 (missing codes).** An analysed code of width zero is reported as missing; a code at least one ramp step wide is not. -/
theorem C114_missing (widths : List K) (spc : ℕ) (hw : ∀ w ∈ widths, 0 ≤ w) (hs : 0 < widths.sum) (h2 : 2 ≤ widths.length * spc) (h53 : widths.length * spc ≤ 2 ^ 53) (codes : List ℕ)
    (hsim : simulateRampCodes widths spc = .ok codes) (numBits : Option ℤ) (codeMax : Option ℤ) (endpoint : Endpoint) (exclude : Bool) (r : RampInl K)
    (h : inlFromRamp (codes.map fun (c : ℕ) => (c : K)) numBits 0 codeMax endpoint exclude = .ok r) (c : ℕ) (hc1 : firstCode 0 r.codeMax exclude ≤ c)
    (hc2 : (c : ℤ) ≤ lastCode 0 r.codeMax exclude) (hcn : c < widths.length) :
    (widths.getD c 0 = 0 → (c : ℤ) ∈ r.missing) ∧
    ((1 - 1 / 2 ^ 53) / (((widths.length * spc : ℕ) : K) - 1) ≤ widths.getD c 0 / widths.sum → (c : ℤ) ∉ r.missing) := by
  obtain ⟨z, hz1, hz0, hz⟩ := C114_is_ramp_record widths spc hw hs h2
  rw [hsim] at hz1
  injection hz1 with hz1
  set N := widths.length * spc with hN
  have hNK : (0 : K) < (N : K) - 1 := by
    have : (2 : K) ≤ N := by exact_mod_cast h2
    linarith
  have hu : (0 : K) < 1 - 1 / 2 ^ 53 := by norm_num
  have hδ : (0 : K) < (1 - 1 / 2 ^ 53) / ((N : K) - 1) := div_pos hu hNK
  have hNδ : (1 : K) ≤ N * ((1 - 1 / 2 ^ 53) / ((N : K) - 1)) := by
    rw [mul_div_assoc', le_div_iff₀ hNK]
    have : (N : K) ≤ 2 ^ 53 := by exact_mod_cast h53
    have : (N : K) * (1 / 2 ^ 53) ≤ 1 := by
      rw [mul_one_div, div_le_one (by positivity)]
      exact this
    linarith
  generalize (1 - 1 / 2 ^ 53) / ((N : K) - 1) = δ at hz hδ hNδ
  obtain ⟨a, m, hm, _, ha, hb, _, _, _, _, _, _, _, _, _, hmiss, _⟩ := C46_ramp_bookkeeping _ _ _ _ _ _ _ h
  have hmem : ((c : ℤ) : K) ∈ (codes.map fun (c : ℕ) => (c : K)) ↔ ∃ j < N, z j = c := by
    rw [hz1, List.map_map]
    simp only [List.mem_map, List.mem_range, Function.comp]
    constructor
    · rintro ⟨j, hj, e⟩
      refine ⟨j, hj, ?_⟩
      have : (z j).toNat = c := by exact_mod_cast e
      have := hz0 j
      omega
    · rintro ⟨j, hj, e⟩
      exact ⟨j, hj, by rw [e]; simp⟩
  have hin : (c : ℤ) ∈ r.missing ↔ ¬ ∃ j < N, z j = c := by
    rw [hmiss, hmem]
    constructor
    · exact fun h => h.2.2
    · exact fun h => ⟨by omega, by omega, h⟩
  have hstep : widthLevel widths ((c : ℤ) + 1) - widthLevel widths c = widths.getD c 0 / widths.sum := by
    unfold widthLevel
    rw [show ((c : ℤ) + 1).toNat = c + 1 by omega, Int.toNat_natCast, List.take_succ, List.sum_append]
    have : (widths[c]?.toList).sum = widths.getD c 0 := by
      rw [List.getD_eq_getElem?_getD]
      cases widths[c]? <;> simp
    rw [this]
    ring
  constructor
  · intro hw0
    rw [hin]
    rintro ⟨j, hj, e⟩
    have h1 := hz j hj c
    have h3 := hz j hj (c + 1)
    rw [hw0, zero_div] at hstep
    rw [show widthLevel widths ((c : ℤ) + 1) = widthLevel widths c by linarith, ← h1] at h3
    omega
  · intro hwide
    rw [hin, not_not]
    have hl0 : 0 ≤ widthLevel widths c := by
      unfold widthLevel
      exact div_nonneg (List.sum_nonneg fun x hx => hw x (List.mem_of_mem_take hx)) hs.le
    have hl1 : widthLevel widths ((c : ℤ) + 1) ≤ 1 := by
      unfold widthLevel
      rw [div_le_one hs]
      exact take_le widths hw _
    have hq : 0 ≤ widthLevel widths c / δ := div_nonneg hl0 hδ.le
    have hj1 := Nat.le_ceil (widthLevel widths c / δ)
    have hj2 := Nat.ceil_lt_add_one hq
    generalize ⌈widthLevel widths c / δ⌉₊ = j at hj1 hj2
    rw [div_le_iff₀ hδ] at hj1
    have hj3 : (j : K) * δ < widthLevel widths c + δ := by
      have := mul_lt_mul_of_pos_right hj2 hδ
      rwa [add_mul, one_mul, div_mul_cancel₀ _ hδ.ne'] at this
    have hjN : j < N := by
      have : (j : K) * δ < N * δ := by linarith
      exact_mod_cast lt_of_mul_lt_mul_right this hδ.le
    refine ⟨j, hjN, ?_⟩
    have h1 := hz j hjN c
    have h3 := hz j hjN (c + 1)
    rw [zero_add] at h1 h3
    have h4 : ¬ z j < c := by rw [h1]; exact not_lt.mpr hj1
    have h5 : z j < (c : ℤ) + 1 := by rw [h3]; linarith
    omega

/-- **C114 (negative widths).** A negative width is refused with `ValueError`, and nothing else is. -/
theorem C114_refuses (widths : List K) (spc : ℕ) : simulateRampCodes widths spc = .error .valueError ↔ ∃ w ∈ widths, w < 0 := by
  unfold simulateRampCodes
  split_ifs with h
  · simp [h]
  · simp [h]

-- four codes, the second one and a half wide, the third half as wide: eight samples per code
example : simulateRampCodes [1, 3 / 2, 1 / 2, (1 : ℚ)] 8 = .ok [0, 0, 0, 0, 0, 0, 0, 0, 1, 1, 1, 1, 1, 1, 1, 1, 1, 1, 1, 1, 2, 2, 2, 2, 3, 3, 3, 3, 3, 3, 3, 3] := by
  decide +kernel
example : (inlFromRamp ([0, 0, 0, 0, 0, 0, 0, 0, 1, 1, 1, 1, 1, 1, 1, 1, 1, 1, 1, 1, 2, 2, 2, 2, 3, 3, 3, 3, 3, 3, 3, (3 : ℚ)]) (some 2) 0 none .endpoints true).toOption.map
    (fun r => (r.dnl, r.rawInl)) = some ([1 / 2, -1 / 2], [0, 1 / 2, 0]) := by decide +kernel

end Verif
