import Verif.Model.SarBench
import Verif.Theorems.Sar

/-!
# C113: the SAR benches of the examples — what redundancy buys
-/

namespace Verif

open Model Spec

variable {K : Type} [Field K] [LinearOrder K] [IsStrictOrderedRing K]

namespace Spec

/-- Every weight may be too large by the share `t` and all later ones too small by the same share, and the later ones still reach it up to `eps`. -/
def CoveredWithin (t eps : K) : List K → Prop
  | [] => True
  | w :: rest => (1 + t) * w ≤ (1 - t) * rest.sum + eps ∧ CoveredWithin t eps rest

/-- The signed sum `Σ (2 b - 1) w` that a bipolar SAR leaves on its capacitors. -/
def bipolar : List Bool → List K → K
  | b :: bs, w :: ws => (if b then w else -w) + bipolar bs ws
  | _, _ => 0

end Spec

/-! ## The weight lists -/

/-- **C113 (binary list).** Normalising the strict binary list gives the library's `sar_ideal_weights`, the weights `1/2, 1/4, ..., 1/2^n`; without bits both raise `IndexError`. -/
theorem C113_strict_is_ideal (n : ℕ) : normalizeSarWeights (strictBinaryRaw n : List K) = sarIdealWeights n none ∧
    (n ≠ 0 → normalizeSarWeights (strictBinaryRaw n : List K) = .ok ((List.range n).map fun i => 1 / 2 ^ (i + 1))) :=
  ⟨rfl, fun hn => C15_ideal_weights_binary n hn⟩

/-- **C113 (repeated list).** Normalising the list with the third weight repeated gives `sar_ideal_weights(num_bits, redundant_bit=2)`; below three bits both raise `IndexError`. -/
theorem C113_repeat_is_ideal (n : ℕ) : (do let raw ← thirdRepeatRaw (K := K) n; normalizeSarWeights raw) = sarIdealWeights n (some 2) := by
  unfold thirdRepeatRaw normalizeSarWeights sarIdealWeights sarRawWeights strictBinaryRaw
  simp only [bind, Except.bind, pure, Except.pure]
  generalize pyGet ((List.range n).map fun i => (2 : K) ^ (n - 1 - i)) 2 = x
  cases x <;> rfl

private theorem get_last (l : List K) (z : K) : pyGet (l ++ [z]) (-1) = .ok z := by
  rw [pyGet_neg _ _ (by norm_num) (by simp)]
  have : (-1 + ((l ++ [z]).length : ℤ)) = ((l.length : ℕ) : ℤ) := by simp
  rw [this, pyGet_nat _ _ (by simp)]
  simp

private theorem normalize_eq (l : List K) (z : K) : normalizeSarWeights (l ++ [z]) = .ok ((l ++ [z]).map (· / ((l ++ [z]).sum + z))) := by
  unfold normalizeSarWeights
  rw [get_last]
  rfl

private theorem margin_eq (w : K) (l : List K) (z d : K) : firstDecisionMargin (w :: (l ++ [z])) d = .ok ((l ++ [z]).sum + z - w * (1 + d)) := by
  unfold firstDecisionMargin
  have h := get_last (w :: l) z
  rw [List.cons_append] at h
  rw [h]
  have h0 : pyGet (w :: (l ++ [z])) 0 = .ok w := by
    have := pyGet_nat (w :: (l ++ [z])) 0 (by simp)
    simpa using this
  rw [h0]
  rfl

private theorem sum_div (ws : List K) (c : K) : (ws.map (· / c)).sum = ws.sum / c := by
  induction ws with
  | nil => simp
  | cons w ws ih => rw [List.map_cons, List.sum_cons, List.sum_cons, ih, add_div]

private theorem covered_scale (eps c : K) (hc : 0 < c) (ws : List K) (h : Covered eps ws) : Covered (eps / c) (ws.map (· / c)) := by
  induction ws with
  | nil => trivial
  | cons w ws ih =>
    obtain ⟨h1, h2⟩ := h
    refine ⟨?_, ih h2⟩
    rw [sum_div, ← add_div]
    exact div_le_div_of_nonneg_right h1 hc.le

private theorem covered_mono {e1 e2 : K} (h : e1 ≤ e2) (ws : List K) (hc : Covered e1 ws) : Covered e2 ws := by
  induction ws with
  | nil => trivial
  | cons w ws ih => exact ⟨hc.1.trans (by linarith), ih hc.2⟩

private theorem round_trip_eq (v : K) (ws : List K) : sarRoundTrip v ws [0, 1] = .ok (gval v ws) := by
  unfold sarRoundTrip
  rw [convertIdeal_eq v ws 0 1 one_pos]
  simp only [bind, Except.bind]
  rw [reconstruct_eq _ _ _ _ one_pos (by simp [sarLoop_length, quiet])]
  simp only [sub_zero, div_one, mul_one, add_zero]
  rfl

/-! ## What the first-decision margin means -/

/-- **C113 (margin).** Take any weight list whose later weights are covered up to one LSB, normalise it, make the MSB wrong by the share `d ≥ 0`, convert and reconstruct with the
actual weights. If `first_decision_margin_lsb` is not negative, every input of the unit range comes back within one LSB; if it is negative, the worst error is larger than one LSB by the missing
margin: never reached, but approached as closely as one likes. -/
theorem C113_margin (w : K) (l : List K) (z d : K) (hpos : ∀ x ∈ w :: (l ++ [z]), 0 < x) (hc : Covered z (l ++ [z])) (hd : 0 ≤ d) :
    ∃ nominal actual m, normalizeSarWeights (w :: (l ++ [z])) = .ok nominal ∧ withMsbError nominal d = .ok actual ∧ firstDecisionMargin (w :: (l ++ [z])) d = .ok m ∧
      (0 ≤ m → ∀ v, 0 ≤ v → v < 1 → ∃ y, sarRoundTrip v actual [0, 1] = .ok y ∧ 0 ≤ v - y ∧ v - y < z / ((w :: (l ++ [z])).sum + z)) ∧
      (m < 0 → (∀ v, 0 ≤ v → v < 1 → ∃ y, sarRoundTrip v actual [0, 1] = .ok y ∧ 0 ≤ v - y ∧ v - y < (z - m) / ((w :: (l ++ [z])).sum + z)) ∧
        ∀ e, 0 ≤ e → e < (z - m) / ((w :: (l ++ [z])).sum + z) → ∃ v y, 0 ≤ v ∧ v < w * (1 + d) / ((w :: (l ++ [z])).sum + z) ∧ sarRoundTrip v actual [0, 1] = .ok y ∧ e ≤ v - y) := by
  have hn : normalizeSarWeights (w :: (l ++ [z])) = .ok ((w :: (l ++ [z])).map (· / ((w :: (l ++ [z])).sum + z))) := by
    have := normalize_eq (w :: l) z
    rw [List.cons_append] at this
    exact this
  have hw : 0 < w := hpos w (by simp)
  have hz : 0 < z := hpos z (by simp)
  have hrest : 0 ≤ (l ++ [z]).sum := List.sum_nonneg fun x hx => (hpos x (List.mem_cons_of_mem _ hx)).le
  have hS : (w :: (l ++ [z])).sum = w + (l ++ [z]).sum := List.sum_cons
  generalize hSd : (w :: (l ++ [z])).sum + z = S at hn
  have hSpos : 0 < S := by rw [← hSd, hS]; linarith
  refine ⟨_, w / S * (1 + d) :: (l ++ [z]).map (· / S), _, hn, rfl, margin_eq w l z d, ?_, ?_⟩
  all_goals
    have hrs : ((l ++ [z]).map (· / S)).sum = (l ++ [z]).sum / S := sum_div _ _
    have hwd : w / S * (1 + d) = w * (1 + d) / S := by ring
    have hmain : ∀ eps : K, z ≤ eps → w * (1 + d) ≤ (l ++ [z]).sum + eps → ∀ v, 0 ≤ v → v < 1 →
        ∃ y, sarRoundTrip v (w / S * (1 + d) :: (l ++ [z]).map (· / S)) [0, 1] = .ok y ∧ 0 ≤ v - y ∧ v - y < eps / S := by
      intro eps h1 h2 v v0 v1
      have hcov : Covered (eps / S) (w / S * (1 + d) :: (l ++ [z]).map (· / S)) := by
        refine ⟨?_, covered_scale eps S hSpos _ (covered_mono h1 _ hc)⟩
        rw [hrs, hwd, ← add_div]
        exact div_le_div_of_nonneg_right h2 hSpos.le
      have h := C13_redundancy_residue (eps / S) _ hcov 0 1 v one_pos v0 (by
        rw [List.sum_cons, hrs, hwd, ← add_div, ← add_div, sub_zero, mul_one, zero_add, lt_div_iff₀ hSpos]
        have : v * S < S := by nlinarith
        have : 0 ≤ w * d := by positivity
        nlinarith)
      simpa using h
  · intro hm v v0 v1
    exact hmain z le_rfl (by linarith) v v0 v1
  · intro hm
    refine ⟨hmain _ (by linarith) (by linarith), fun e he0 he => ⟨(l ++ [z]).sum / S + e, _, by positivity, ?_, round_trip_eq _ _, ?_⟩⟩
    · have : (l ++ [z]).sum / S + (z - ((l ++ [z]).sum + z - w * (1 + d))) / S = w * (1 + d) / S := by
        rw [← add_div]
        ring
      linarith
    · have hlt : (l ++ [z]).sum / S + e < w / S * (1 + d) := by
        have : (l ++ [z]).sum / S + (z - ((l ++ [z]).sum + z - w * (1 + d))) / S = w * (1 + d) / S := by
          rw [← add_div]
          ring
        rw [hwd]
        linarith
      rw [gval_cons, if_neg (not_le.mpr hlt)]
      have hnn : ∀ x ∈ (l ++ [z]).map (· / S), 0 ≤ x := by
        intro x hx
        obtain ⟨u, hu, rfl⟩ := List.mem_map.mp hx
        exact div_nonneg (hpos u (List.mem_cons_of_mem _ hu)).le hSpos.le
      have : gval ((l ++ [z]).sum / S + e) ((l ++ [z]).map (· / S)) ≤ (l ++ [z]).sum / S := by
        rw [← hrs]
        exact weighted_le_sum _ _ hnn
      linarith

/-! ## The two lists of the script -/

private theorem covered_pow2 (n : ℕ) : Covered 1 (pow2List n : List K) := by
  induction n with
  | zero => trivial
  | succ n ih =>
    refine ⟨?_, ih⟩
    rw [pow2List_sum]
    linarith

private theorem repeat_eq (n : ℕ) : thirdRepeatRaw (K := K) (n + 3) = .ok (2 ^ (n + 2) :: 2 ^ (n + 1) :: 2 ^ n :: 2 ^ n :: pow2List n) := by
  unfold thirdRepeatRaw strictBinaryRaw
  simp only [pow2List_eq, bind, Except.bind, pure, Except.pure]
  have hp : (pow2List (n + 3) : List K) = 2 ^ (n + 2) :: 2 ^ (n + 1) :: 2 ^ n :: pow2List n := rfl
  rw [hp]
  have h2 : pyGet (2 ^ (n + 2) :: 2 ^ (n + 1) :: 2 ^ n :: pow2List n : List K) 2 = .ok (2 ^ n) := by
    have := pyGet_nat (2 ^ (n + 2) :: 2 ^ (n + 1) :: 2 ^ n :: pow2List n : List K) 2 (by simp)
    simpa using this
  rw [h2]
  simp only
  congr 1

private theorem repeat_tail (n : ℕ) : ∃ l : List K, (2 ^ (n + 1) :: 2 ^ n :: 2 ^ n :: pow2List n : List K) = l ++ [1] := by
  cases n with
  | zero => exact ⟨[2, 1], by simp [pow2List]⟩
  | succ n =>
    obtain ⟨l, hl⟩ := pow2List_last (K := K) (n + 1) (by omega)
    exact ⟨2 ^ (n + 1 + 1) :: 2 ^ (n + 1) :: 2 ^ (n + 1) :: l, by rw [hl]; rfl⟩

private theorem repeat_sum (n : ℕ) : (2 ^ (n + 1) :: 2 ^ n :: 2 ^ n :: pow2List n : List K).sum = 2 ^ (n + 2) + 2 ^ n - 1 := by
  simp only [List.sum_cons, pow2List_sum]
  rw [pow_succ, pow_succ]
  ring

/-- **C113 (the two margins).** The strict binary list has the margin `-d·2^(n-1)`, negative for every positive MSB error; the list with the third weight repeated has
`2^(n-3) - d·2^(n-1)`, which stays positive up to an error of one quarter. -/
theorem C113_margins (n : ℕ) (d : K) : (1 ≤ n → firstDecisionMargin (strictBinaryRaw n : List K) d = .ok (-d * 2 ^ (n - 1))) ∧
    (3 ≤ n → ∃ raw, thirdRepeatRaw (K := K) n = .ok raw ∧ firstDecisionMargin raw d = .ok (2 ^ (n - 3) - d * 2 ^ (n - 1))) := by
  constructor
  · intro hn
    obtain ⟨m, rfl⟩ : ∃ m, n = m + 1 := ⟨n - 1, by omega⟩
    unfold strictBinaryRaw
    rw [pow2List_eq]
    rcases Nat.eq_zero_or_pos m with rfl | hm
    · simp [pow2List, firstDecisionMargin, pyGet, bind, Except.bind, pure, Except.pure]
    · obtain ⟨l, hl⟩ := pow2List_last (K := K) m (by omega)
      have : (pow2List (m + 1) : List K) = 2 ^ m :: (l ++ [1]) := by rw [← hl]; rfl
      rw [this, margin_eq, ← hl, pow2List_sum]
      congr 1
      simp only [Nat.add_sub_cancel]
      ring
  · intro hn
    obtain ⟨m, rfl⟩ : ∃ m, n = m + 3 := ⟨n - 3, by omega⟩
    obtain ⟨l, hl⟩ := repeat_tail (K := K) m
    refine ⟨_, repeat_eq m, ?_⟩
    rw [hl, margin_eq, ← hl, repeat_sum]
    congr 1
    simp only [Nat.add_sub_cancel, show m + 3 - 1 = m + 2 by omega]
    ring

/-- **C113 (repeated weight recovers).** With the third weight repeated and an MSB too large by up to one quarter, knowing the actual weights is enough: every input comes back
within one LSB. -/
theorem C113_repeat_recovers (n : ℕ) (hn : 3 ≤ n) (d : K) (h0 : 0 ≤ d) (h1 : d ≤ 1 / 4) : ∃ nominal actual, sarIdealWeights n (some 2) = .ok nominal ∧
    withMsbError nominal d = .ok actual ∧ ∀ v, 0 ≤ v → v < 1 → ∃ y, sarRoundTrip v actual [0, 1] = .ok y ∧ 0 ≤ v - y ∧ v - y < 1 / (2 ^ n + 2 ^ (n - 3)) := by
  obtain ⟨m, rfl⟩ : ∃ m, n = m + 3 := ⟨n - 3, by omega⟩
  obtain ⟨l, hl⟩ := repeat_tail (K := K) m
  have hp : ∀ k : ℕ, (0 : K) < 2 ^ k := fun k => by positivity
  obtain ⟨nominal, actual, g, e1, e2, e3, e4, _⟩ := C113_margin (2 ^ (m + 2)) l 1 d (by
    rw [← hl]
    intro x hx
    simp only [List.mem_cons] at hx
    rcases hx with rfl | rfl | rfl | rfl | hx
    · exact hp _
    · exact hp _
    · exact hp _
    · exact hp _
    · exact pow2List_pos m x hx) (by
    rw [← hl]
    have := hp m
    refine ⟨?_, ?_, ?_, covered_pow2 m⟩
    · rw [pow_succ]
      simp only [List.sum_cons, pow2List_sum]
      linarith
    · simp only [List.sum_cons, pow2List_sum]
      linarith
    · rw [pow2List_sum]
      linarith) h0
  refine ⟨nominal, actual, ?_, e2, ?_⟩
  · rw [← C113_repeat_is_ideal, repeat_eq]
    simp only [bind, Except.bind]
    rw [hl]
    exact e1
  · obtain ⟨raw, hr, hg⟩ := (C113_margins (m + 3) d).2 hn
    rw [repeat_eq] at hr
    injection hr with hr
    rw [← hr, hl, e3] at hg
    injection hg with hg
    have hS : (2 ^ (m + 2) :: (l ++ [1]) : List K).sum + 1 = 2 ^ (m + 3) + 2 ^ (m + 3 - 3) := by
      rw [List.sum_cons, ← hl, repeat_sum]
      simp only [Nat.add_sub_cancel]
      rw [pow_succ 2 (m + 2)]
      ring
    rw [hS] at e4
    refine e4 ?_
    rw [hg]
    simp only [Nat.add_sub_cancel, show m + 3 - 1 = m + 2 by omega]
    have h4 : (2 : K) ^ (m + 2) = 4 * 2 ^ m := by rw [pow_add]; ring
    rw [h4]
    have := hp m
    nlinarith

/-- **C113 (binary loses).** With the strict binary list and any MSB error `d > 0`, even the actual weights do not bring the input back: errors come arbitrarily close to
`1 + d·2^(n-1)` LSB (and do not exceed it in the unit range). At 16 bits and one per cent that is 328.68 LSB. -/
theorem C113_strict_loses (n : ℕ) (hn : 2 ≤ n) (d : K) (hd : 0 < d) : ∃ nominal actual, sarIdealWeights n none = .ok nominal ∧ withMsbError nominal d = .ok actual ∧
    (∀ v, 0 ≤ v → v < 1 → ∃ y, sarRoundTrip v actual [0, 1] = .ok y ∧ 0 ≤ v - y ∧ v - y < (1 + d * 2 ^ (n - 1)) / 2 ^ n) ∧
    ∀ e, 0 ≤ e → e < (1 + d * 2 ^ (n - 1)) / 2 ^ n → ∃ v y, 0 ≤ v ∧ v < (1 + d) / 2 ∧ sarRoundTrip v actual [0, 1] = .ok y ∧ e ≤ v - y := by
  obtain ⟨m, rfl⟩ : ∃ m, n = m + 1 := ⟨n - 1, by omega⟩
  obtain ⟨l, hl⟩ := pow2List_last (K := K) m (by omega)
  have hp : (pow2List (m + 1) : List K) = 2 ^ m :: (l ++ [1]) := by rw [← hl]; rfl
  have h2 : (0 : K) < 2 ^ m := by positivity
  obtain ⟨nominal, actual, g, e1, e2, e3, _, e4⟩ := C113_margin (2 ^ m) l 1 d (by
    rw [← hp]
    exact pow2List_pos (m + 1)) (by
    rw [← hl]
    exact covered_pow2 m) hd.le
  have hS : (2 ^ m :: (l ++ [1]) : List K).sum + 1 = 2 ^ (m + 1) := by
    rw [← hp, pow2List_sum]
    ring
  have hg := (C113_margins (m + 1) d).1 (by omega)
  unfold strictBinaryRaw at hg
  rw [pow2List_eq, hp, e3] at hg
  injection hg with hg
  simp only [Nat.add_sub_cancel] at hg ⊢
  rw [hS, hg] at e4
  obtain ⟨f1, f2⟩ := e4 (by nlinarith)
  refine ⟨nominal, actual, ?_, e2, ?_, ?_⟩
  · rw [← (C113_strict_is_ideal (m + 1)).1]
    unfold strictBinaryRaw
    rw [pow2List_eq, hp]
    exact e1
  · intro v h0 h1
    obtain ⟨y, hy, y0, y1⟩ := f1 v h0 h1
    refine ⟨y, hy, y0, lt_of_lt_of_eq y1 ?_⟩
    ring
  · intro e h0 h1
    obtain ⟨v, y, v0, v1, hy, hy2⟩ := f2 e h0 (lt_of_lt_of_eq h1 (by ring))
    refine ⟨v, y, v0, lt_of_lt_of_eq v1 ?_, hy, hy2⟩
    rw [pow_succ]
    field_simp

/-- **C113 (before calibration).** Reconstructing the bits with the nominal weights is off from the reconstruction with the actual ones by exactly `d` times the MSB weight, for
the inputs whose MSB is set, and not at all for the others. -/
theorem C113_before_calibration (w : K) (rest : List K) (d v : K) : ∃ actual codes y y0, withMsbError (w :: rest) d = .ok actual ∧ sarConvertIdeal v actual [0, 1] = .ok codes ∧
    sarReconstruct codes actual [0, 1] = .ok y ∧ sarReconstruct codes (w :: rest) [0, 1] = .ok y0 ∧ y - y0 = if w * (1 + d) ≤ v then d * w else 0 := by
  refine ⟨_, _, _, _, rfl, convertIdeal_eq v _ 0 1 one_pos, reconstruct_eq _ _ _ _ one_pos (by simp [sarLoop_length, quiet]), reconstruct_eq _ _ _ _ one_pos (by simp [sarLoop_length, quiet]),
    ?_⟩
  simp only [sub_zero, div_one, mul_one, add_zero, quiet, List.map_cons, sarLoop, weighted, zero_add, ge_iff_le]
  by_cases h : w * (1 + d) ≤ v
  · rw [if_pos h]
    simp only [h, decide_true, if_true]
    ring
  · rw [if_neg h]
    simp only [h, decide_false, Bool.false_eq_true, if_false]
    ring

-- 16 bits, one per cent: the margins that the script prints
example : firstDecisionMargin (strictBinaryRaw 16 : List ℚ) (1 / 100) = .ok (-32768 / 100) := by
  rw [(C113_margins 16 (1 / 100)).1 (by norm_num)]
  norm_num
example : ∃ raw, thirdRepeatRaw (K := ℚ) 16 = .ok raw ∧ firstDecisionMargin raw (1 / 100) = .ok (786432 / 100) := by
  obtain ⟨raw, h1, h2⟩ := (C113_margins 16 (1 / 100 : ℚ)).2 (by norm_num)
  refine ⟨raw, h1, ?_⟩
  rw [h2]
  norm_num

/-! ## Weights that are off by a share each -/

private theorem sum_within (t : K) (ws ws' : List K) (h : List.Forall₂ (fun w w' => |w' - w| ≤ t * w) ws ws') : |ws'.sum - ws.sum| ≤ t * ws.sum := by
  induction h with
  | nil => simp
  | cons h _ ih =>
    rw [List.sum_cons, List.sum_cons]
    rw [abs_le] at h ih ⊢
    constructor <;> linarith [h.1, h.2, ih.1, ih.2]

private theorem covered_within (t eps : K) (ws ws' : List K) (h : List.Forall₂ (fun w w' => |w' - w| ≤ t * w) ws ws') (hc : CoveredWithin t eps ws) : Covered eps ws' := by
  induction h with
  | nil => trivial
  | cons h hr ih =>
    obtain ⟨h1, h2⟩ := hc
    have := sum_within t _ _ hr
    refine ⟨?_, ih h2⟩
    rw [abs_le] at h this
    linarith [h.2, this.1]

/-- **C113 (mismatch tolerance).** If every weight may be off by the share `t` without opening a gap beyond `eps`, every such actual array converts and reconstructs, with its own
weights, within `eps` of the input. -/
theorem C113_mismatch_tolerance (t eps : K) (ws ws' : List K) (h : List.Forall₂ (fun w w' => |w' - w| ≤ t * w) ws ws') (hc : CoveredWithin t eps ws) (v : K) (h0 : 0 ≤ v)
    (h1 : v < ws'.sum + eps) : ∃ y, sarRoundTrip v ws' [0, 1] = .ok y ∧ 0 ≤ v - y ∧ v - y < eps := by
  have := C13_redundancy_residue eps ws' (covered_within t eps ws ws' h hc) 0 1 v one_pos h0 (by linarith)
  simpa using this

private theorem radix18_eq : radix18Weights (K := K) = .ok (radix18Raw.map (· / 65536)) := by
  unfold radix18Weights
  have : (radix18Raw : List K) = [29127, 16182, 8990, 4995, 2775, 1542, 856, 476, 264, 147, 82, 45, 25, 14, 8, 4, 2] ++ [1] := rfl
  rw [this, normalize_eq]
  congr 1
  apply List.map_congr_left
  intro x _
  norm_num

private theorem within_scale (t eps c : K) (hc : 0 < c) (ws : List K) (h : CoveredWithin t eps ws) : CoveredWithin t (eps / c) (ws.map (· / c)) := by
  induction ws with
  | nil => trivial
  | cons w ws ih =>
    obtain ⟨h1, h2⟩ := h
    refine ⟨?_, ih h2⟩
    rw [sum_div, ← mul_div_assoc, ← mul_div_assoc, ← add_div]
    exact div_le_div_of_nonneg_right h1 hc.le

/-- **C113 (radix 1.8).** The 18 integer weights of the scripts make a 16-bit converter: every input of the unit range comes back within `2^-16`. If every weight is off by up to one
per cent, the input still comes back within `1.15·2^-16` under the actual weights. -/
theorem C113_radix18 : ∃ ws, radix18Weights (K := K) = .ok ws ∧ ws.length = 18 ∧ (∀ v, 0 ≤ v → v < 1 → ∃ y, sarRoundTrip v ws [0, 1] = .ok y ∧ 0 ≤ v - y ∧ v - y < 1 / 2 ^ 16) ∧
    ∀ ws', List.Forall₂ (fun w w' => |w' - w| ≤ 1 / 100 * w) ws ws' → ∀ v, 0 ≤ v → v < ws'.sum →
      ∃ y, sarRoundTrip v ws' [0, 1] = .ok y ∧ 0 ≤ v - y ∧ v - y < 115 / 100 / 2 ^ 16 := by
  refine ⟨_, radix18_eq, rfl, fun v h0 h1 => ?_, fun ws' h v h0 h1 => ?_⟩
  · have hc : CoveredWithin (0 : K) 1 radix18Raw := by
      unfold radix18Raw
      simp only [CoveredWithin, List.sum_cons, List.sum_nil]
      norm_num
    have hs := within_scale (0 : K) 1 65536 (by norm_num) _ hc
    have hself : List.Forall₂ (fun w w' : K => |w' - w| ≤ 0 * w) (radix18Raw.map (· / 65536)) (radix18Raw.map (· / 65536)) := by
      rw [List.forall₂_same]
      intro x _
      simp
    obtain ⟨y, hy, y0, y1⟩ := C113_mismatch_tolerance 0 _ _ _ hself hs v h0 (by
      rw [sum_div]
      unfold radix18Raw
      simp only [List.sum_cons, List.sum_nil]
      norm_num
      exact h1)
    exact ⟨y, hy, y0, lt_of_lt_of_eq y1 (by norm_num)⟩
  · have hc : CoveredWithin (1 / 100 : K) (115 / 100) radix18Raw := by
      unfold radix18Raw
      simp only [CoveredWithin, List.sum_cons, List.sum_nil]
      norm_num
    have hs := within_scale (1 / 100 : K) (115 / 100) 65536 (by norm_num) _ hc
    obtain ⟨y, hy, y0, y1⟩ := C113_mismatch_tolerance (1 / 100) _ _ ws' h hs v h0 (by
      have : (0 : K) < 115 / 100 / 65536 := by norm_num
      linarith)
    exact ⟨y, hy, y0, lt_of_lt_of_eq y1 (by norm_num)⟩

/-- The binary array has no such tolerance: one of the arrays within one per cent of it, the one with the MSB one per cent too large, leaves errors of 328 LSB. -/
theorem C113_binary_no_tolerance : ∃ nominal actual : List K, sarIdealWeights 16 none = .ok nominal ∧ List.Forall₂ (fun w w' => |w' - w| ≤ 1 / 100 * w) nominal actual ∧
    ∃ v y, 0 ≤ v ∧ v < 1 ∧ sarRoundTrip v actual [0, 1] = .ok y ∧ 328 / 2 ^ 16 ≤ v - y := by
  obtain ⟨nominal, actual, e1, e2, _, e4⟩ := C113_strict_loses (K := K) 16 (by norm_num) (1 / 100) (by norm_num)
  obtain ⟨v, y, v0, v1, hy, he⟩ := e4 (328 / 2 ^ 16) (by norm_num) (by norm_num)
  refine ⟨nominal, actual, e1, ?_, v, y, v0, by linarith [show (1 + 1 / 100 : K) / 2 < 1 by norm_num], hy, he⟩
  have hpos : ∀ w ∈ nominal, 0 ≤ w := by
    rw [C15_ideal_weights_binary 16 (by norm_num)] at e1
    injection e1 with e1
    rw [← e1]
    intro w hw
    obtain ⟨i, _, rfl⟩ := List.mem_map.mp hw
    positivity
  cases nominal with
  | nil => exact absurd e2 (by simp [withMsbError])
  | cons w rest =>
    unfold withMsbError at e2
    injection e2 with e2
    rw [← e2]
    refine List.Forall₂.cons ?_ ?_
    · have := hpos w (by simp)
      rw [show w * (1 + 1 / 100) - w = 1 / 100 * w by ring, abs_of_nonneg (by linarith)]
    · rw [List.forall₂_same]
      intro x hx
      have := hpos x (List.mem_cons_of_mem _ hx)
      rw [sub_self, abs_zero]
      linarith

/-! ## The bit generators of `exp_t04_dout_dashboard_batch.py` -/

/-- **C113 (ideal binary).** The shift-and-mask bits of the dashboard example are the bits of the library's SAR model with ideal weights on the range (0, 1), for every input and
every resolution. -/
theorem C113_ideal_binary [FloorRing K] (s : K) (n : ℕ) (hn : n ≠ 0) : ∃ codes, (do let ws ← sarIdealWeights n none; sarConvertIdeal s ws [0, 1]) = .ok codes ∧
    idealBinaryBits s n = codes.map fun b => if b then 1 else 0 := by
  refine ⟨_, C10_sar_is_floor_quantizer n hn s 0 1 one_pos, ?_⟩
  rw [sub_zero, sub_zero, div_one]
  unfold idealBinaryBits bitsMSB
  simp only [List.map_map]
  apply List.map_congr_left
  intro j _
  have hcode : clip ⌊s * 2 ^ n⌋ 0 (2 ^ n - 1) = ((idealCode n s : ℕ) : ℤ) := by
    unfold clip idealCode
    have : (1 : ℤ) ≤ 2 ^ n := by exact_mod_cast Nat.one_le_two_pow
    omega
  rw [hcode]
  simp only [Function.comp]
  simp only [Nat.testBit_eq_decide_div_mod_eq]
  have h : ((idealCode n s : ℕ) : ℤ) / 2 ^ (n - 1 - j) % 2 = (((idealCode n s) / 2 ^ (n - 1 - j) % 2 : ℕ) : ℤ) := by push_cast; rfl
  rw [h]
  by_cases hb : idealCode n s / 2 ^ (n - 1 - j) % 2 = 1
  · rw [hb]
    simp
  · have h0 : idealCode n s / 2 ^ (n - 1 - j) % 2 = 0 := by omega
    rw [h0]
    simp

/-- **C113 (random LSB).** Overwriting the last bit by a draw of 0 or 1 moves the value of the bits under the ideal weights by at most one LSB, and by exactly one if the draw
differs from the bit. -/
theorem C113_lsb_random [FloorRing K] (s : K) (n : ℕ) (hn : n ≠ 0) (draw : ℤ) (hd : draw = 0 ∨ draw = 1) : ∃ ws bits last, sarIdealWeights (K := K) n none = .ok ws ∧
    lsbRandomBits s n draw = .ok bits ∧ (idealBinaryBits s n).getLast? = some last ∧ (last = 0 ∨ last = 1) ∧ |draw - last| ≤ 1 ∧
    (List.zipWith (fun (b : ℤ) w => (b : K) * w) bits ws).sum - (List.zipWith (fun (b : ℤ) w => (b : K) * w) (idealBinaryBits s n) ws).sum = ((draw - last : ℤ) : K) / 2 ^ n := by
  obtain ⟨m, rfl⟩ : ∃ m, n = m + 1 := ⟨n - 1, by omega⟩
  have hb : ∃ l last, idealBinaryBits s (m + 1) = l ++ [last] ∧ l.length = m ∧ (last = 0 ∨ last = 1) := by
    unfold idealBinaryBits
    simp only [List.range_succ, List.map_append, List.map_cons, List.map_nil]
    refine ⟨_, _, rfl, by simp, ?_⟩
    have := Int.emod_two_eq_zero_or_one (clip ⌊s * 2 ^ (m + 1)⌋ 0 (2 ^ (m + 1) - 1) / 2 ^ (m + 1 - 1 - m))
    exact this
  obtain ⟨l, last, h1, h2, h3⟩ := hb
  refine ⟨_, l ++ [draw], last, C15_ideal_weights_binary (m + 1) hn, ?_, ?_, h3, by rw [abs_le]; omega, ?_⟩
  · unfold lsbRandomBits
    rw [if_neg hn, h1, List.dropLast_concat]
  · rw [h1]
    simp
  · rw [h1, List.range_succ, List.map_append, List.zipWith_append (by simp [h2]), List.zipWith_append (by simp [h2]), List.sum_append, List.sum_append]
    simp only [List.map_cons, List.map_nil, List.zipWith_cons_cons, List.zipWith_nil_left, List.sum_cons, List.sum_nil, add_zero]
    push_cast
    ring

private theorem bipolar_loop (lsb : K) (w : K) (ws : List K) (hc : ∀ a x b, w :: ws = a ++ x :: b → x = b.sum + lsb) (r : K) (hr : |r| ≤ w + ws.sum + lsb) :
    |r - bipolar (bipolarLoop r (w :: ws)) (w :: ws)| ≤ lsb := by
  induction ws generalizing w r with
  | nil =>
    have hw := hc [] w [] rfl
    rw [List.sum_nil] at hw hr
    unfold bipolarLoop
    simp only [bipolar]
    rw [abs_le] at hr ⊢
    by_cases h : r > 0
    · simp only [h, decide_true, if_true]
      constructor <;> linarith [hr.1, hr.2]
    · simp only [h, decide_false, Bool.false_eq_true, if_false]
      constructor <;> linarith [hr.1, hr.2]
  | cons u rest ih =>
    have hw := hc [] w (u :: rest) rfl
    rw [List.sum_cons] at hw hr
    have hc' : ∀ a x b, u :: rest = a ++ x :: b → x = b.sum + lsb := fun a x b h => hc (w :: a) x b (by rw [h]; rfl)
    unfold bipolarLoop
    simp only [bipolar]
    rw [abs_le] at hr
    by_cases h : r > 0
    · simp only [h, decide_true, if_true, bitVal]
      have := ih u hc' (r - (2 * 1 - 1) * w) (by rw [abs_le]; constructor <;> linarith [hr.1, hr.2])
      rw [show r - (w + bipolar (bipolarLoop (r - (2 * 1 - 1) * w) (u :: rest)) (u :: rest)) = r - (2 * 1 - 1) * w - bipolar (bipolarLoop (r - (2 * 1 - 1) * w) (u :: rest)) (u :: rest) by ring]
      exact this
    · simp only [h, decide_false, Bool.false_eq_true, if_false, bitVal]
      have := ih u hc' (r - (2 * 0 - 1) * w) (by rw [abs_le]; constructor <;> linarith [hr.1, hr.2])
      rw [show r - (-w + bipolar (bipolarLoop (r - (2 * 0 - 1) * w) (u :: rest)) (u :: rest)) = r - (2 * 0 - 1) * w - bipolar (bipolarLoop (r - (2 * 0 - 1) * w) (u :: rest)) (u :: rest) by ring]
      exact this

private theorem bipolar_weighted (bs : List Bool) (ws : List K) (h : bs.length = ws.length) : bipolar bs ws = 2 * weighted bs ws - ws.sum := by
  induction bs generalizing ws with
  | nil =>
    cases ws with
    | nil => simp [bipolar, weighted]
    | cons w ws => simp at h
  | cons b bs ih =>
    cases ws with
    | nil => simp at h
    | cons w ws =>
      simp only [List.length_cons, Nat.add_right_cancel_iff] at h
      simp only [bipolar, weighted, List.sum_cons]
      rw [ih ws h]
      cases b <;> simp <;> ring

private theorem bipolarLoop_length (r : K) (ws : List K) : (bipolarLoop r ws).length = ws.length := by
  induction ws generalizing r with
  | nil => rfl
  | cons w ws ih =>
    cases ws with
    | nil => rfl
    | cons u rest =>
      unfold bipolarLoop
      simp only [List.length_cons, ih]

private theorem pow2_split (n : ℕ) : ∀ (a : List K) x b, (pow2List n : List K) = a ++ x :: b → x = b.sum + 1 := by
  induction n with
  | zero =>
    intro a x b h
    simp [pow2List] at h
  | succ n ih =>
    intro a x b h
    cases a with
    | nil =>
      have h' : (2 : K) ^ n :: pow2List n = x :: b := h
      injection h' with h1 h2
      rw [← h1, ← h2, pow2List_sum]
      ring
    | cons y a =>
      have h' : (2 : K) ^ n :: pow2List n = y :: (a ++ x :: b) := h
      injection h' with _ h2
      exact ih a x b h2

/-- **C113 (bipolar SAR).** The SAR of the dashboard example is a rounding quantizer onto the `2^n` evenly spaced levels from -1 to 1: read as a binary number `k`, its bits
satisfy `|s·(2^n - 1) - (2k - (2^n - 1))| ≤ 1` for every signal up to half a step beyond the range. -/
theorem C113_bipolar_sar (n : ℕ) (hn : n ≠ 0) (s : K) (hs : |s| * (2 ^ n - 1) ≤ 2 ^ n) : (bipolarSarBits s n).length = n ∧
    |s * (2 ^ n - 1) - (2 * weighted (bipolarSarBits s n) (strictBinaryRaw n) - (2 ^ n - 1))| ≤ 1 := by
  obtain ⟨m, rfl⟩ : ∃ m, n = m + 1 := ⟨n - 1, by omega⟩
  have hN : (0 : K) < 2 ^ (m + 1) - 1 := by
    have : (1 : K) ≤ 2 ^ m := one_le_pow₀ (by norm_num)
    rw [pow_succ]
    linarith
  unfold bipolarSarBits strictBinaryRaw
  simp only [pow2List_eq, pow2List_sum]
  generalize hNd : (2 : K) ^ (m + 1) - 1 = N at hN hs
  have hlen : (bipolarLoop s ((pow2List (m + 1)).map (· / N))).length = m + 1 := by
    rw [bipolarLoop_length, List.length_map, pow2List_length]
  refine ⟨hlen, ?_⟩
  have key := bipolar_loop (1 / N) (2 ^ m / N) ((pow2List m).map (· / N)) (by
    intro a x b h
    have h' : ((pow2List (m + 1) : List K)).map (· / N) = a ++ x :: b := h
    obtain ⟨a', t, e1, e2, e3⟩ := List.map_eq_append_iff.mp h'
    obtain ⟨x', b', e4, e5, e6⟩ := List.map_eq_cons_iff.mp e3
    rw [e4] at e1
    have := pow2_split (m + 1) a' x' b' e1
    rw [← e5, ← e6, sum_div, this, add_div]) s (by
    rw [sum_div, pow2List_sum, ← add_div, ← add_div, le_div_iff₀ hN]
    refine hs.trans (le_of_eq ?_)
    rw [pow_succ]
    ring)
  have e : (2 ^ m / N :: (pow2List m).map (· / N) : List K) = (pow2List (m + 1)).map (· / N) := rfl
  rw [e, bipolar_weighted _ _ (by rw [hlen, List.length_map, pow2List_length]), weighted_map_div, sum_div, pow2List_sum, hNd, div_self hN.ne'] at key
  rw [le_div_iff₀ hN, ← abs_of_pos hN, ← abs_mul, abs_of_pos hN] at key
  refine le_of_eq_of_le ?_ key
  congr 1
  field_simp

example : bipolarSarBits (3 / 10 : ℚ) 4 = [true, false, true, false] ∧ idealBinaryBits (3 / 10 : ℚ) 4 = [0, 1, 0, 0] := by decide +kernel

end Verif
