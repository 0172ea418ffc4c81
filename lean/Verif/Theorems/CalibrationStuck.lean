import Verif.Theorems.EnobSweep
import Mathlib.Data.List.GetD

/-!
# C40 and stuck bits: constant bits do not disturb the recovery of the others
-/

namespace Verif

open Model Finset

/-- Bit `j` never changes in the record. -/
def Stuck (rows : List (List ℝ)) (j : ℕ) : Prop := ∀ r ∈ rows, ∀ r' ∈ rows, r.getD j 0 = r'.getD j 0

open Classical in
/-- The bits below `k` that toggle, in order. -/
private noncomputable def live (rows : List (List ℝ)) (k : ℕ) : List ℕ := (List.range k).filter fun j => decide (¬ Stuck rows j)

private theorem mem_live (rows : List (List ℝ)) (k j : ℕ) : j ∈ live rows k ↔ j < k ∧ ¬ Stuck rows j := by
  unfold live
  simp [List.mem_filter]

private theorem live_succ (rows : List (List ℝ)) (k : ℕ) (h : ¬ Stuck rows k) : live rows (k + 1) = live rows k ++ [k] := by
  unfold live
  rw [List.range_succ, List.filter_append]
  simp [h]

private theorem live_stuck (rows : List (List ℝ)) (k : ℕ) (h : Stuck rows k) : live rows (k + 1) = live rows k := by
  unfold live
  rw [List.range_succ, List.filter_append]
  simp [h]

private theorem live_nodup (rows : List (List ℝ)) (k : ℕ) : (live rows k).Nodup := List.Nodup.filter _ List.nodup_range

/-- Column `j` of the record. -/
private noncomputable def colOf (rows : List (List ℝ)) (j : ℕ) : ℕ → ℝ := fun n => (rows.getD n []).getD j 0

open Classical in
private noncomputable def linkOf (rows : List (List ℝ)) (k i : ℕ) : ℤ × ℝ :=
  if Stuck rows i then (-1, 0) else (((live rows k).idxOf i : ℤ), 1)

private theorem linkOf_mono (rows : List (List ℝ)) (k i : ℕ) (hi : i < k) : linkOf rows (k + 1) i = linkOf rows k i := by
  unfold linkOf
  by_cases h : Stuck rows i
  · rw [if_pos h, if_pos h]
  · rw [if_neg h, if_neg h]
    by_cases hk : Stuck rows k
    · rw [live_stuck rows k hk]
    · rw [live_succ rows k hk, List.idxOf_append_of_mem ((mem_live rows k i).mpr ⟨hi, h⟩)]

private theorem linkOf_last (rows : List (List ℝ)) (k : ℕ) (h : ¬ Stuck rows k) : linkOf rows (k + 1) k = (((live rows k).length : ℤ), 1) := by
  unfold linkOf
  rw [if_neg h, live_succ rows k h, List.idxOf_append_of_notMem (by rw [mem_live]; omega)]
  simp

private theorem span_combination (rows : List (List ℝ)) (N k : ℕ) (v : Fin N → ℝ) (width : ℕ) (hk : k ≤ width)
    (h : v ∈ Submodule.span ℝ (sampled N '' {c | c ∈ (fun _ => (1 : ℝ)) :: (live rows k).map (colOf rows)})) :
    ∃ (u : ℕ → ℝ) (d : ℝ), (∀ j, Stuck rows j ∨ k ≤ j → u j = 0) ∧ ∀ n : Fin N, v n = ∑ j ∈ range width, u j * colOf rows j n + d := by
  induction h using Submodule.span_induction with
  | mem x hx =>
    obtain ⟨c, hc, rfl⟩ := hx
    simp only [Set.mem_setOf_eq, List.mem_cons, List.mem_map] at hc
    rcases hc with rfl | ⟨i, hi, rfl⟩
    · exact ⟨fun _ => 0, 1, fun _ _ => rfl, fun n => by simp [sampled]⟩
    · obtain ⟨h1, h2⟩ := (mem_live rows k i).mp hi
      refine ⟨fun j => if j = i then 1 else 0, 0, ?_, fun n => ?_⟩
      · rintro j (hj | hj)
        · refine if_neg ?_
          rintro rfl
          exact h2 hj
        · exact if_neg (by omega)
      · have : ∀ j ∈ range width, (if j = i then (1 : ℝ) else 0) * colOf rows j n = if j = i then colOf rows i n else 0 := by
          intro j _
          split_ifs with h
          · rw [h, one_mul]
          · rw [zero_mul]
        rw [sum_congr rfl this, sum_ite_eq', if_pos (mem_range.mpr (by omega)), add_zero]
        rfl
  | zero => exact ⟨fun _ => 0, 0, fun _ _ => rfl, fun n => by simp⟩
  | add x y _ _ hx hy =>
    obtain ⟨u, d, h1, h2⟩ := hx
    obtain ⟨u', d', h1', h2'⟩ := hy
    refine ⟨fun j => u j + u' j, d + d', fun j hj => by simp only [h1 j hj, h1' j hj, add_zero], fun n => ?_⟩
    rw [Pi.add_apply, h2 n, h2' n]
    simp only [add_mul, sum_add_distrib]
    ring
  | smul a x _ hx =>
    obtain ⟨u, d, h1, h2⟩ := hx
    refine ⟨fun j => a * u j, a * d, fun j hj => by simp only [h1 j hj, mul_zero], fun n => ?_⟩
    rw [Pi.smul_apply, h2 n, smul_eq_mul, mul_add, mul_sum]
    simp only [mul_assoc]

/-- **C40 (stuck bits).** In a record of zeros and ones, bits that never toggle do not disturb the calibration: if the toggling bits, weighted with `w`, are exactly an
offset plus `H` harmonics of the known frequency, and no other combination of the toggling bits is one, then `calibrate_weight_sine` returns `w` up to scale and
polarity, with weight zero for every stuck bit, and zero error. -/
theorem C40_stuck_bits (solve : Lstsq) (hs : IsLstsq solve) (est : List ℝ) (segs : List (List (List ℝ))) (f : ℝ) (hf0 : f ≠ 0)
    (hf : f ≤ 1 / 2) (force : Option Bool) (hforce : force ≠ some true) (given : Option (List ℝ)) (H : ℕ) (hH : 0 < H) (lr reltol : ℝ) (maxIter : ℕ)
    (rows : List (List ℝ)) (width : ℕ) (nominal : List ℝ) (hprep : prepareInput segs given = .ok ([rows], width, nominal))
    (hbin : ∀ r ∈ rows, ∀ j, r.getD j 0 = 0 ∨ r.getD j 0 = 1)
    (hlive : ∃ j < width, ¬ Stuck rows j) (w : List ℝ) (hlen : w.length = width) (hw0 : ∀ j, Stuck rows j → w.getD j 0 = 0) (c : ℝ) (a b : ℕ → ℝ)
    (hclean : ∀ n < rows.length, ∑ j ∈ range width, w.getD j 0 * (rows.getD n []).getD j 0 = harmonicSeries f H c a b n)
    (hne : a 0 ≠ 0 ∨ b 0 ≠ 0)
    (honly : ∀ (u : List ℝ) (d : ℝ) (p q : ℕ → ℝ), u.length = width → (∀ j, Stuck rows j → u.getD j 0 = 0) →
      (∀ n < rows.length, ∑ j ∈ range width, u.getD j 0 * (rows.getD n []).getD j 0 = harmonicSeries f H d p q n) →
      ∃ t : ℝ, u = w.map (fun v => t * v) ∧ d = t * c ∧ ∀ h < H, p h = t * a h ∧ q h = t * b h) :
    ∃ r s, calibrate solve est segs (.scalar f) force given H lr reltol maxIter = .ok r ∧ s ^ 2 * (a 0 ^ 2 + b 0 ^ 2) = 1 ∧
      r.weight = w.map (fun v => s * v) ∧ r.offset = s * c ∧ 0 ≤ r.weight.sum ∧ r.resid = [List.replicate rows.length 0] ∧ r.freq = [f] ∧
      r.snr = [200] := by
  set N := rows.length with hN
  set bits : List (ℕ → ℝ) := (List.range width).map fun (j : ℕ) => fun (n : ℕ) => (rows.getD n []).getD j 0 with hbits
  have hbl : bits.length = width := by simp [hbits]
  have hcol : ∀ j < width, bits.getD j 0 = colOf rows j := by
    intro j hj
    rw [hbits, List.getD_eq_getElem?_getD, List.getElem?_map, List.getElem?_range hj]
    rfl
  have hmem : ∀ t < N, rows.getD t [] ∈ rows := by
    intro t ht
    rw [List.getD_eq_getElem _ _ ht]
    exact List.getElem_mem ht
  have hsmall : ∀ j < width, (ptpSmall N (bits.getD j 0) ↔ Stuck rows j) := by
    intro j hj
    rw [hcol j hj]
    constructor
    · intro h r hr r' hr'
      obtain ⟨p, hp, rfl⟩ := List.getElem_of_mem hr
      obtain ⟨q, hq, rfl⟩ := List.getElem_of_mem hr'
      have h1 := h p hp q hq
      have h2 := h q hq p hp
      unfold colOf at h1 h2
      rw [List.getD_eq_getElem rows _ hp, List.getD_eq_getElem rows _ hq] at h1 h2
      rcases hbin _ hr j with e | e <;> rcases hbin _ hr' j with e' | e' <;> rw [e, e'] at h1 h2 ⊢
      · norm_num at h2
      · norm_num at h1
    · intro h p hp q hq
      unfold colOf
      rw [h _ (hmem p hp) _ (hmem q hq), sub_self]
      positivity
  -- independence of the toggling bits
  have hind : ∀ k < width, ¬ Stuck rows k →
      sampled N (bits.getD k 0) ∉ Submodule.span ℝ (sampled N '' {c | c ∈ (fun _ => (1 : ℝ)) :: (live rows k).map (colOf rows)}) := by
    intro k hk hks hin
    obtain ⟨u, d, h1, h2⟩ := span_combination rows N k _ width hk.le hin
    have hg : ∀ j < width, ((List.range width).map fun (j : ℕ) => u j - if j = k then 1 else 0).getD j 0 = u j - if j = k then 1 else 0 := by
      intro j hj
      rw [List.getD_eq_getElem?_getD, List.getElem?_map, List.getElem?_range hj]
      rfl
    obtain ⟨t, ht, _, ht2⟩ := honly ((List.range width).map fun (j : ℕ) => u j - if j = k then 1 else 0) (-d) (fun _ => 0) (fun _ => 0) (by simp) (by
        intro j hj
        by_cases hjw : j < width
        · rw [hg j hjw, h1 j (Or.inl hj), if_neg (by rintro rfl; exact hks hj), sub_zero]
        · rw [List.getD_eq_getElem?_getD, List.getElem?_eq_none (by simpa using hjw)]
          rfl) (by
        intro n hn
        have := h2 ⟨n, hn⟩
        rw [hcol k hk] at this
        simp only [sampled] at this
        have e : ∑ j ∈ range width, ((List.range width).map fun (j : ℕ) => u j - if j = k then 1 else 0).getD j 0 * (rows.getD n []).getD j 0
            = ∑ j ∈ range width, u j * colOf rows j n - ∑ j ∈ range width, (if j = k then colOf rows k n else 0) := by
          rw [← sum_sub_distrib]
          apply sum_congr rfl
          intro j hj
          rw [hg j (mem_range.mp hj)]
          split_ifs with h
          · subst h
            unfold colOf
            ring
          · unfold colOf
            ring
        rw [e, sum_ite_eq', if_pos (mem_range.mpr hk), this]
        unfold harmonicSeries
        simp)
    obtain ⟨h4, h5⟩ := ht2 0 hH
    have ht0 : t = 0 := by
      rcases hne with h | h
      · exact (mul_eq_zero.mp h4.symm).resolve_right h
      · exact (mul_eq_zero.mp h5.symm).resolve_right h
    have := hg k hk
    rw [ht, getD_map_list, ht0, zero_mul, h1 k (Or.inr le_rfl), if_pos rfl] at this
    norm_num at this
  -- what patching returns
  have hP : (patchRank N bits nominal).eff = (live rows width).map (colOf rows) ∧
      (patchRank N bits nominal).links = (List.range width).map (linkOf rows width) := by
    unfold patchRank
    by_cases hr : bits.length + 1 ≤ rankOf N (bits ++ [fun _ => 1])
    · rw [if_pos hr]
      have hns : ∀ j < width, ¬ Stuck rows j := by
        intro j hj hst
        by_cases hN0 : N = 0
        · obtain ⟨n, hn, _⟩ := not_const_of_rank N bits hr j (by omega) 0
          omega
        · obtain ⟨n, hn, hne'⟩ := not_const_of_rank N bits hr j (by omega) ((rows.getD 0 []).getD j 0)
          rw [hcol j hj] at hne'
          exact hne' (hst _ (hmem n hn) _ (hmem 0 (by omega)))
      have hlive : live rows width = List.range width := by
        unfold live
        rw [List.filter_eq_self]
        intro j hj
        simpa using hns j (List.mem_range.mp hj)
      constructor
      · rw [hlive]
        rfl
      · simp only [hbl]
        apply List.map_congr_left
        intro i hi
        unfold linkOf
        rw [if_neg (hns i (List.mem_range.mp hi)), hlive]
        have := List.nodup_range (n := width)
        have h2 := List.Nodup.idxOf_getElem this i (by simpa using hi)
        rw [List.getElem_range] at h2
        rw [h2]
    · rw [if_neg hr, hbl]
      have key : ∀ k ≤ width, ((List.range k).foldl (patchStep N bits nominal) { eff := [], founders := [], links := [] }).eff = (live rows k).map (colOf rows) ∧
          ((List.range k).foldl (patchStep N bits nominal) { eff := [], founders := [], links := [] }).links = (List.range k).map (linkOf rows k) := by
        intro k
        induction k with
        | zero =>
          intro _
          constructor <;> rfl
        | succ k ih =>
          intro hk
          obtain ⟨i1, i2⟩ := ih (by omega)
          rw [List.range_succ, List.foldl_append]
          simp only [List.foldl_cons, List.foldl_nil]
          generalize (List.range k).foldl (patchStep N bits nominal) { eff := [], founders := [], links := [] } = s at i1 i2
          have hmap : (List.range k).map (linkOf rows (k + 1)) = (List.range k).map (linkOf rows k) :=
            List.map_congr_left fun i hi => linkOf_mono rows k i (List.mem_range.mp hi)
          by_cases hst : Stuck rows k
          · have hstep : patchStep N bits nominal s k = { s with links := s.links ++ [(-1, 0)] } := by
              unfold patchStep
              simp only
              rw [if_pos ((hsmall k (by omega)).mpr hst)]
            rw [hstep, live_stuck rows k hst]
            refine ⟨i1, ?_⟩
            simp only [i2, List.map_append, hmap, List.map_cons, List.map_nil]
            unfold linkOf
            rw [if_pos hst]
          · have hA : ¬ ptpSmall N (bits.getD k 0) := fun h => hst ((hsmall k (by omega)).mp h)
            have hrk := (C38_new_column_iff_independent N bits nominal s k hA).mpr (by rw [i1]; exact hind k (by omega) hst)
            have hstep : patchStep N bits nominal s k
                = { eff := s.eff ++ [bits.getD k 0], founders := s.founders ++ [k], links := s.links ++ [((s.eff.length : ℤ), 1)] } := by
              unfold patchStep at hrk ⊢
              simp only at hrk ⊢
              rw [if_neg hA] at hrk ⊢
              split_ifs at hrk ⊢ with hC
              · rfl
              · exfalso
                cases hmt : mergeTarget N (bits.getD k 0) s.eff s.founders.length with
                | none => rw [hmt] at hrk; simp at hrk
                | some j => rw [hmt] at hrk; simp at hrk
            rw [hstep, live_succ rows k hst]
            constructor
            · simp only [i1, List.map_append, List.map_cons, List.map_nil, hcol k (by omega)]
            · simp only [i2, List.map_append, hmap, List.map_cons, List.map_nil, linkOf_last rows k hst, i1, List.length_map]
      exact key width le_rfl
  obtain ⟨hP1, hP2⟩ := hP
  have hrec : ∀ u : List ℝ, u.length = width → (∀ j, Stuck rows j → u.getD j 0 = 0) →
      recoverRank ((live rows width).map fun j => u.getD j 0) (patchRank N bits nominal).links = .ok u := by
    intro u hu hu0
    rw [hP2]
    unfold recoverRank
    rw [if_neg]
    · congr 1
      rw [List.map_map]
      apply list_ext_getD
      · simp [hu]
      · intro j hj
        have hj' : j < width := by simpa using hj
        rw [getD_range_map _ _ _ _ hj']
        simp only [Function.comp]
        by_cases h : Stuck rows j
        · have e : linkOf rows width j = (-1, 0) := if_pos h
          simp only [e]
          rw [if_pos (by norm_num), hu0 j h]
        · have e : linkOf rows width j = (((live rows width).idxOf j : ℤ), 1) := if_neg h
          simp only [e]
          have hm : j ∈ live rows width := (mem_live rows width j).mpr ⟨hj', h⟩
          rw [if_neg (by omega), mul_one, Int.toNat_natCast, List.getD_eq_getElem?_getD, List.getElem?_map,
            List.getElem?_eq_getElem (List.idxOf_lt_length_iff.mpr hm), List.getElem_idxOf]
          rfl
    · rintro ⟨l, hl, h2⟩
      obtain ⟨i, hi, rfl⟩ := List.mem_map.mp hl
      rw [List.mem_range] at hi
      rw [List.length_map] at h2
      unfold linkOf at h2
      by_cases h : Stuck rows i
      · rw [if_pos h] at h2
        simp only at h2
        have hl0 : (live rows width).length = 0 := by
          rw [show (max (-1 : ℤ) 0).toNat = 0 from rfl] at h2
          omega
        obtain ⟨j, hj, hjs⟩ := hlive
        have := List.length_pos_of_mem ((mem_live rows width j).mpr ⟨hj, hjs⟩)
        omega
      · rw [if_neg h] at h2
        simp only at h2
        have := List.idxOf_lt_length_iff.mpr ((mem_live rows width i).mpr ⟨hi, h⟩)
        omega
  have hmv : ∀ (u : List ℝ) (n : ℕ), matVec bits u n = ∑ j ∈ range width, u.getD j 0 * (rows.getD n []).getD j 0 := fun u n => matVec_range _ _ _ _
  refine C40_noise_free solve hs est segs f hf0 hf force hforce given H hH lr reltol maxIter rows width nominal hprep bits rfl _ rfl
    ((live rows width).map fun j => w.getD j 0) w (by rw [hP1]; simp) (hrec w hlen hw0) c a b (fun n hn => by rw [hmv]; exact hclean n hn) hne ?_
  intro u' d p q hu' hfit
  rw [hP1] at hu'
  have hu'l : u'.length = (live rows width).length := by simpa using hu'
  obtain ⟨u, hu⟩ := (C38_recover_succeeds N bits nominal u' (by rw [hP1]; exact hu')).mpr (by
    right
    obtain ⟨j, hj, hjs⟩ := hlive
    rw [hP1]
    intro hnil
    have := List.length_pos_of_mem ((mem_live rows width j).mpr ⟨hj, hjs⟩)
    rw [List.map_eq_nil_iff] at hnil
    rw [hnil] at this
    simp at this)
  obtain ⟨hul, hueq⟩ := C38_patch_recover_exact N bits nominal u' u hu
  have hval : ∀ j < width, u.getD j 0 = if (linkOf rows width j).1 < 0 then 0 else u'.getD (linkOf rows width j).1.toNat 0 * (linkOf rows width j).2 := by
    intro j hj
    rw [hP2] at hu
    unfold recoverRank at hu
    split_ifs at hu
    injection hu with hu
    rw [← hu, List.map_map, getD_range_map _ _ _ _ hj]
    rfl
  obtain ⟨t, h1, h2, h3⟩ := honly u d p q (hul.trans hbl) (by
      intro j hj
      by_cases hjw : j < width
      · have e : linkOf rows width j = (-1, 0) := if_pos hj
        rw [hval j hjw, e]
        simp
      · rw [List.getD_eq_getElem?_getD, List.getElem?_eq_none (by omega)]
        rfl) (by
      intro n hn
      rw [← hmv, ← hueq]
      exact hfit n hn)
  refine ⟨t, ?_, h2, h3⟩
  apply list_ext_getD
  · simp [hu'l]
  · intro i hi
    have hi' : i < (live rows width).length := by omega
    have hj := (mem_live rows width _).mp (List.getElem_mem hi')
    have e1 := hval _ hj.1
    have hlk : linkOf rows width (live rows width)[i] = ((i : ℤ), 1) := by
      unfold linkOf
      rw [if_neg hj.2, List.Nodup.idxOf_getElem (live_nodup rows width) i hi']
    rw [hlk] at e1
    simp only at e1
    rw [if_neg (by omega), Int.toNat_natCast, mul_one, h1, getD_map_list] at e1
    rw [getD_map_list, ← e1]
    congr 1
    rw [List.getD_eq_getElem ((live rows width).map fun j => w.getD j 0) _ (by simpa using hi'), List.getElem_map]

/-- The six codes of `sixthRows` with a bit stuck at 1 between the two. -/
def stuckRows : List (List ℝ) := [[1, 1, 1], [1, 1, 0], [0, 1, 1], [0, 1, 0], [0, 1, 1], [1, 1, 0]]

theorem stuckRows_stuck (j : ℕ) : Stuck stuckRows j ↔ j ≠ 0 ∧ j ≠ 2 := by
  constructor
  · intro h
    constructor
    · rintro rfl
      have := h [1, 1, 1] (by simp [stuckRows]) [0, 1, 1] (by simp [stuckRows])
      norm_num at this
    · rintro rfl
      have := h [1, 1, 1] (by simp [stuckRows]) [1, 1, 0] (by simp [stuckRows])
      norm_num at this
  · rintro ⟨h0, h2⟩
    have key : ∀ r ∈ stuckRows, r.getD j 0 = if j = 1 then 1 else 0 := by
      intro r hr
      obtain rfl | ⟨k, rfl⟩ : j = 1 ∨ ∃ k, j = k + 3 := by
        by_cases h : j = 1
        · exact Or.inl h
        · exact Or.inr ⟨j - 3, by omega⟩
      · simp only [stuckRows, List.mem_cons, List.not_mem_nil, or_false] at hr
        rcases hr with rfl | rfl | rfl | rfl | rfl | rfl <;> rfl
      · simp only [stuckRows, List.mem_cons, List.not_mem_nil, or_false] at hr
        rcases hr with rfl | rfl | rfl | rfl | rfl | rfl <;> simp
    intro r hr r' hr'
    rw [key r hr, key r' hr']

theorem stuckRows_bits : ∀ r ∈ stuckRows, ∀ j, r.getD j 0 = 0 ∨ r.getD j 0 = 1 := by
  intro r hr j
  simp only [stuckRows, List.mem_cons, List.not_mem_nil, or_false] at hr
  rcases hr with rfl | rfl | rfl | rfl | rfl | rfl <;> rcases j with _ | _ | _ | j <;> simp

/-- Calibrating it returns the weights 3/2 and 1/2 of the toggling bits up to the scale, and zero for the stuck one. -/
theorem stuckRows_calibrated (solve : Lstsq) (hs : IsLstsq solve) (est : List ℝ) (lr reltol : ℝ) (maxIter : ℕ) :
    ∃ r s, calibrate solve est [stuckRows] (.scalar (1 / 6)) none none 1 lr reltol maxIter = .ok r ∧ s ^ 2 = 1 ∧ r.weight = [s * (3 / 2), 0, s * (1 / 2)] ∧
      0 ≤ r.weight.sum := by
  have hprep : prepareInput [stuckRows] none = .ok ([stuckRows], 3, [(4 : ℝ), 2, 1]) := by
    simp only [prepareInput, stackSegments, orientSegment, nominalWeights, stuckRows]
    norm_num
    rw [if_neg (by simp)]
    norm_num [List.range_succ]
  obtain ⟨r, s, h1, h2, h3, _, h4, _⟩ := C40_stuck_bits solve hs est [stuckRows] (1 / 6) (by norm_num) (by norm_num) none (by simp) none 1 one_pos lr reltol maxIter
    stuckRows 3 [4, 2, 1] hprep stuckRows_bits ⟨0, by norm_num, by rw [stuckRows_stuck]; simp⟩ [3 / 2, 0, 1 / 2] rfl (by
      intro j hj
      obtain ⟨h0, h2⟩ := (stuckRows_stuck j).mp hj
      rcases j with _ | _ | _ | j
      · exact absurd rfl h0
      · rfl
      · exact absurd rfl h2
      · simp) 1 (fun _ => 1) (fun _ => 0) (by
      intro n hn
      obtain ⟨h0, h1, h2, h3, h4, h5⟩ := sixth_series 1 (fun _ => 1) (fun _ => 0)
      have hn' : n < 6 := by simpa [stuckRows] using hn
      rw [sum_range_succ, sum_range_succ, sum_range_one]
      obtain rfl | rfl | rfl | rfl | rfl | rfl : n = 0 ∨ n = 1 ∨ n = 2 ∨ n = 3 ∨ n = 4 ∨ n = 5 := by omega
      · rw [h0]; norm_num [stuckRows]
      · rw [h1]; norm_num [stuckRows]
      · rw [h2]; norm_num [stuckRows]
      · rw [h3]; norm_num [stuckRows]
      · rw [h4]; norm_num [stuckRows]
      · rw [h5]; norm_num [stuckRows]) (Or.inl (by norm_num)) (by
      intro u d p q hu hu0 h
      obtain ⟨x, z, y, rfl⟩ := List.length_eq_three.mp hu
      have hz : z = 0 := hu0 1 ((stuckRows_stuck 1).mpr (by norm_num))
      subst hz
      obtain ⟨h0, h1, h2, h3, h4, h5⟩ := sixth_series d p q
      have e0 := h 0 (by simp [stuckRows])
      have e1 := h 1 (by simp [stuckRows])
      have e2 := h 2 (by simp [stuckRows])
      have e3 := h 3 (by simp [stuckRows])
      have e4 := h 4 (by simp [stuckRows])
      rw [h0, sum_range_succ, sum_range_succ, sum_range_one] at e0
      rw [h1, sum_range_succ, sum_range_succ, sum_range_one] at e1
      rw [h2, sum_range_succ, sum_range_succ, sum_range_one] at e2
      rw [h3, sum_range_succ, sum_range_succ, sum_range_one] at e3
      rw [h4, sum_range_succ, sum_range_succ, sum_range_one] at e4
      simp [stuckRows] at e0 e1 e2 e3 e4
      have hq : q 0 = 0 := by
        have h3 : (0 : ℝ) < Real.sqrt 3 := Real.sqrt_pos.mpr (by norm_num)
        have : q 0 * Real.sqrt 3 = 0 := by linarith
        exact (mul_eq_zero.mp this).resolve_right h3.ne'
      rw [hq] at e1 e2 e4
      refine ⟨p 0, ?_, by linarith, ?_⟩
      · simp only [List.map_cons, List.map_nil]
        rw [show x = p 0 * (3 / 2) by linarith, show y = p 0 * (1 / 2) by linarith, mul_zero]
      · intro k hk
        have : k = 0 := by omega
        subst this
        exact ⟨by ring, by rw [hq]; ring⟩)
  refine ⟨r, s, h1, by simpa using h2, ?_, h4⟩
  rw [h3]
  simp

end Verif
