import Verif.Model.Dout
import Mathlib.Tactic.Positivity
import Mathlib.Tactic.NormNum
import Mathlib.Tactic.IntervalCases
import Mathlib.Data.List.GetD
import Mathlib.Algebra.Order.Round
import Mathlib.Algebra.Order.BigOperators.Group.List
import Mathlib.Algebra.BigOperators.Group.List.Basic

/-!
# C45: weight radix and effective resolution
-/

namespace Verif

open Model

/-! ## Specification -/

/-- `s` lists the magnitudes of `w` in descending order. -/
def Descending (w s : List ℝ) : Prop := s.Perm (w.map fun x => |x|) ∧ s.Pairwise (· ≥ ·)

/-- Entry `k` of the descending list `s` is the last significant one: neighbours before it differ by less than a factor 3, and after it
either the list ends or there is a drop by a factor of at least 3. -/
def LastSignificant (s : List ℝ) (k : ℕ) : Prop :=
  k < s.length ∧ 0 < s.getD k 0 ∧ (∀ i < k, s.getD i 0 < 3 * s.getD (i + 1) 0) ∧ (k + 1 < s.length → 3 * s.getD (k + 1) 0 ≤ s.getD k 0)

/-- Mean squared distance of the scaled significant weights from the nearest integers. -/
noncomputable def misfit (s : List ℝ) (k : ℕ) (scale : ℝ) : ℝ :=
  (∑ i ∈ Finset.range (k + 1), (s.getD i 0 * scale - round (s.getD i 0 * scale)) ^ 2) / (k + 1)

/-! ## Auxiliary facts -/

theorem radix_sorted_eq (w s : List ℝ) (h : Descending w s) : sortedWeights w = s := by
  unfold sortedWeights
  refine List.Perm.eq_of_pairwise' (r := (· ≥ ·)) (List.pairwise_insertionSort _ _) h.2 ?_
  exact (List.perm_insertionSort _ _).trans h.1.symm

theorem radix_sorted_spec (w : List ℝ) : Descending w (sortedWeights w) :=
  ⟨List.perm_insertionSort _ _, List.pairwise_insertionSort _ _⟩

theorem radix_desc_nonneg (w s : List ℝ) (h : Descending w s) : ∀ x ∈ s, 0 ≤ x := by
  intro x hx
  obtain ⟨y, _, rfl⟩ := List.mem_map.mp (h.1.mem_iff.mp hx)
  exact abs_nonneg y

theorem radix_desc_le (s : List ℝ) (h : s.Pairwise (· ≥ ·)) (i j : ℕ) (hij : i ≤ j) (hj : j < s.length) : s.getD j 0 ≤ s.getD i 0 := by
  rcases hij.eq_or_lt with rfl | hij
  · exact le_rfl
  · rw [List.getD_eq_getElem _ _ hj, List.getD_eq_getElem _ _ (by omega)]
    exact List.pairwise_iff_getElem.mp h i j (by omega) hj hij

private theorem big_iff (a b : ℝ) (ha : 0 < a) (hb : 0 ≤ b) : bigRatio a b = decide (3 * b ≤ a) := by
  unfold bigRatio
  by_cases h0 : b = 0
  · rw [if_pos h0, h0]
    simp [ha, ha.le]
  · rw [if_neg h0]
    have : 0 < b := lt_of_le_of_ne hb (Ne.symm h0)
    exact decide_eq_decide.mpr (le_div_iff₀ this)

/-- The break position found by the code is the last significant entry. -/
theorem break_eq (s : List ℝ) (hn : ∀ x ∈ s, 0 ≤ x) (hs : s.Pairwise (· ≥ ·)) (k : ℕ) (h : LastSignificant s k) : sigBreak s = k := by
  obtain ⟨hk, hpos, hbefore, hafter⟩ := h
  unfold sigBreak
  have hlen : (List.zipWith bigRatio s s.tail).length = s.length - 1 := by simp
  have hget : ∀ (i : ℕ) (hi : i < s.length - 1), i ≤ k → (List.zipWith bigRatio s s.tail)[i]'(by omega) = decide (3 * s.getD (i + 1) 0 ≤ s.getD i 0) := by
    intro i hi hik
    rw [List.getElem_zipWith, List.getElem_tail, List.getD_eq_getElem _ _ (by omega), List.getD_eq_getElem _ _ (by omega)]
    apply big_iff
    · have h1 := radix_desc_le s hs i k hik hk
      rw [List.getD_eq_getElem _ _ (by omega : i < s.length)] at h1
      linarith
    · exact hn _ (List.getElem_mem _)
  by_cases hend : k + 1 < s.length
  · rw [List.findIdx_eq (by omega)]
    refine ⟨?_, ?_⟩
    · rw [hget k (by omega) le_rfl]
      simpa using hafter hend
    · intro j hj
      rw [hget j (by omega) hj.le]
      simpa using hbefore j hj
  · have hks : k = s.length - 1 := by omega
    rw [show k = (List.zipWith bigRatio s s.tail).length by omega, List.findIdx_eq_length]
    intro x hx
    obtain ⟨i, hi, rfl⟩ := List.getElem_of_mem hx
    rw [hget i (by omega) (by omega)]
    simpa using hbefore i (by omega)

/-- Every list with a non-zero weight has a last significant entry. -/
theorem exists_lastSignificant (w s : List ℝ) (h : Descending w s) (hw : ∃ x ∈ w, x ≠ 0) : ∃ k, LastSignificant s k := by
  obtain ⟨x, hx, hx0⟩ := hw
  have hxs : |x| ∈ s := h.1.mem_iff.mpr (List.mem_map_of_mem hx)
  obtain ⟨i0, hi0, hxi⟩ := List.getElem_of_mem hxs
  have h0 : 0 < s.getD 0 0 := by
    have := radix_desc_le s h.2 0 i0 (by omega) hi0
    rw [List.getD_eq_getElem _ _ hi0, hxi] at this
    have := abs_pos.mpr hx0
    linarith
  classical
  let P : ℕ → Prop := fun k => k + 1 < s.length → 3 * s.getD (k + 1) 0 ≤ s.getD k 0
  have hex : ∃ k, P k := ⟨s.length, fun h => by omega⟩
  have hmin : ∀ {m : ℕ}, m < Nat.find hex → ¬ P m := fun h => Nat.find_min hex h
  have hfind := Nat.find_spec hex
  have hle : Nat.find hex ≤ s.length - 1 := Nat.find_le (h := hex) (fun h => by omega)
  refine ⟨Nat.find hex, by omega, ?_, ?_, hfind⟩
  · have hall : ∀ i ≤ Nat.find hex, 0 < s.getD i 0 := by
      intro i
      induction i with
      | zero => intro _; exact h0
      | succ i ih =>
        intro hi
        have h1 := ih (by omega)
        have h2 : ¬ P i := hmin (by omega)
        simp only [P, not_forall, not_le] at h2
        obtain ⟨_, h2⟩ := h2
        linarith
    exact hall _ le_rfl
  · intro i hi
    have h2 : ¬ P i := hmin hi
    simp only [P, not_forall, not_le] at h2
    exact h2.2

theorem radix_sum_take (s : List ℝ) (k : ℕ) (hk : k < s.length) (f : ℝ → ℝ) :
    ((s.take (k + 1)).map f).sum = ∑ i ∈ Finset.range (k + 1), f (s.getD i 0) := by
  induction k with
  | zero =>
    cases s with
    | nil => simp at hk
    | cons a t => simp
  | succ k ih =>
    rw [Finset.sum_range_succ, ← ih (by omega), List.take_add_one, List.map_append, List.sum_append, List.getD_eq_getElem _ _ hk, List.getElem?_eq_getElem hk]
    simp

theorem radix_last_take (s : List ℝ) (k : ℕ) (hk : k < s.length) : (s.take (k + 1)).getLastD 0 = s.getD k 0 := by
  rw [List.take_add_one, List.getElem?_eq_getElem hk, List.getD_eq_getElem _ _ hk, Option.toList_some, List.getLastD_concat]

theorem radix_rint_round (x : ℝ) : (x - (rint x : ℝ)) ^ 2 = (x - round x) ^ 2 := by
  rw [← sq_abs, ← sq_abs (x - (round x : ℝ))]
  have h1 := rint_closest x (round x)
  have h2 := round_le x (rint x)
  rw [le_antisymm h1 h2]

theorem radix_error_eq (s : List ℝ) (k : ℕ) (hk : k < s.length) (scale : ℝ) : scaleError (s.take (k + 1)) scale = Real.sqrt (misfit s k scale) := by
  unfold scaleError misfit
  rw [radix_sum_take s k hk fun w => (w * scale - (rint (w * scale) : ℝ)) ^ 2, List.length_take, min_eq_left (by omega)]
  simp only [radix_rint_round]
  push_cast
  rfl

theorem radix_misfit_nonneg (s : List ℝ) (k : ℕ) (scale : ℝ) : 0 ≤ misfit s k scale := by
  unfold misfit
  apply div_nonneg (Finset.sum_nonneg fun i _ => sq_nonneg _)
  positivity

theorem radix_analyze_eq (w s : List ℝ) (k : ℕ) (h : Descending w s) (hk : LastSignificant s k) :
    analyzeWeightRadix w = .ok
      { radix := radixList w
        wgtsca := ((scaleCandidates (s.getD 0 0) (1 / s.getD k 0)).foldl (scaleStep (s.take (k + 1)) (s.getD 0 0)) (scaleError (s.take (k + 1)) (1 / s.getD k 0), 1 / s.getD k 0)).2
        effres := Real.logb 2 ((∑ i ∈ Finset.range (k + 1), s.getD i 0) / s.getD k 0 + 1) } := by
  have hne : w ≠ [] := by
    rintro rfl
    have h1 := h.1.length_eq
    have h2 := hk.1
    rw [List.map_nil, List.length_nil] at h1
    omega
  have hsig : significant w = s.take (k + 1) := by
    unfold significant
    rw [radix_sorted_eq w s h, break_eq s (radix_desc_nonneg w s h) h.2 k hk]
  have hhead : (sortedWeights w).headD 0 = s.getD 0 0 := by
    rw [radix_sorted_eq w s h]
    cases s <;> rfl
  have hsum : (s.take (k + 1)).sum = ∑ i ∈ Finset.range (k + 1), s.getD i 0 := by
    have := radix_sum_take s k hk.1 id
    simpa using this
  unfold analyzeWeightRadix
  rw [if_neg hne]
  simp only [hsig, radix_last_take s k hk.1, hhead, hsum]
  rw [if_neg hk.2.1.ne']

/-! ## Theorems -/

/-- **C45 (radix).** Every entry after the first is the ratio of the magnitudes of neighbouring weights; the first entry, and entries
below a zero weight, are not finite. -/
theorem C45_radix (w : List ℝ) (r : RadixReport) (hr : analyzeWeightRadix w = .ok r) :
    r.radix.length = w.length ∧ ∀ i < w.length, r.radix.getD i none =
      if i = 0 ∨ w.getD i 0 = 0 then none else some (|w.getD (i - 1) 0| / |w.getD i 0|) := by
  have hrad : r.radix = radixList w := by
    unfold analyzeWeightRadix at hr
    by_cases h1 : w = []
    · rw [if_pos h1] at hr
      cases hr
    · rw [if_neg h1] at hr
      simp only at hr
      by_cases h2 : (significant w).getLastD 0 = 0
      · rw [if_pos h2] at hr
        cases hr
      · rw [if_neg h2] at hr
        injection hr with hr
        rw [← hr]
  rw [hrad]
  unfold radixList
  refine ⟨by simp, ?_⟩
  intro i hi
  rw [List.getD_eq_getElem _ _ (by simpa using hi)]
  simp only [List.getElem_map, List.getElem_range]
  have hmap : ∀ j, (w.map fun x => |x|).getD j 0 = |w.getD j 0| := by
    intro j
    have := List.getD_map (l := w) (d := 0) (n := j) fun x : ℝ => |x|
    simpa using this
  rw [hmap, hmap]
  unfold ratioEntry
  by_cases h0 : i = 0
  · simp [h0]
  · by_cases h1 : w.getD i 0 = 0
    · rw [if_neg h0, if_pos (by rw [h1, abs_zero]), if_pos (Or.inr h1)]
    · rw [if_neg h0, if_neg (by simpa using h1), if_neg (by tauto)]

/-- **C45 (resolution).** The reported resolution is `log2(sum / smallest + 1)` over the significant magnitudes, for any descending
arrangement of the weights. -/
theorem C45_resolution (w s : List ℝ) (k : ℕ) (h : Descending w s) (hk : LastSignificant s k) :
    ∃ r, analyzeWeightRadix w = .ok r ∧ r.effres = Real.logb 2 ((∑ i ∈ Finset.range (k + 1), s.getD i 0) / s.getD k 0 + 1) :=
  ⟨_, radix_analyze_eq w s k h hk, rfl⟩

/-- **C45 (errors).** The report fails exactly for an empty list (`IndexError`) and for weights that are all zero (`ValueError`). -/
theorem C45_errors (w : List ℝ) :
    (analyzeWeightRadix w = .error .indexError ↔ w = []) ∧ (analyzeWeightRadix w = .error .valueError ↔ w ≠ [] ∧ ∀ x ∈ w, x = 0) ∧
    ((∃ r, analyzeWeightRadix w = .ok r) ↔ ∃ x ∈ w, x ≠ 0) := by
  by_cases h1 : w = []
  · subst h1
    simp [analyzeWeightRadix]
  · by_cases h2 : ∃ x ∈ w, x ≠ 0
    · obtain ⟨k, hk⟩ := exists_lastSignificant w _ (radix_sorted_spec w) h2
      rw [radix_analyze_eq w _ k (radix_sorted_spec w) hk]
      refine ⟨by simpa using h1, ?_, by simpa using h2⟩
      simp only [reduceCtorEq, false_iff, not_and, not_forall]
      intro _
      obtain ⟨x, hx, h0⟩ := h2
      exact ⟨x, hx, h0⟩
    · have hz : ∀ x ∈ w, x = 0 := by
        intro x hx
        by_contra h0
        exact h2 ⟨x, hx, h0⟩
      have hsz : ∀ x ∈ sortedWeights w, x = 0 := by
        intro x hx
        obtain ⟨y, hy, rfl⟩ := List.mem_map.mp ((radix_sorted_spec w).1.mem_iff.mp hx)
        rw [hz y hy, abs_zero]
      have hlast : (significant w).getLastD 0 = 0 := by
        rw [List.getLastD_eq_getLast?]
        cases hl : (significant w).getLast? with
        | none => rfl
        | some x =>
          have := List.mem_of_getLast? hl
          exact hsz x (List.mem_of_mem_take this)
      unfold analyzeWeightRadix
      rw [if_neg h1]
      simp only
      rw [if_pos hlast]
      refine ⟨by simpa using h1, by simpa using ⟨h1, hz⟩, by simpa using hz⟩

theorem radix_fold_best (sig : List ℝ) (top : ℝ) (l : List ℤ) (x0 : ℝ) :
    let res := l.foldl (scaleStep sig top) (scaleError sig x0, x0)
    res.1 = scaleError sig res.2 ∧ res.1 ≤ scaleError sig x0 ∧ (∀ m ∈ l, res.1 ≤ scaleError sig ((m : ℝ) / top)) ∧ (res.2 = x0 ∨ ∃ m ∈ l, res.2 = (m : ℝ) / top) := by
  induction l generalizing x0 with
  | nil => simp
  | cons m t ih =>
    simp only [List.foldl_cons]
    by_cases h : scaleError sig ((m : ℝ) / top) < scaleError sig x0
    · have hstep : scaleStep sig top (scaleError sig x0, x0) m = (scaleError sig ((m : ℝ) / top), (m : ℝ) / top) := by
        unfold scaleStep
        simp only
        rw [if_pos h]
      rw [hstep]
      obtain ⟨h1, h2, h3, h4⟩ := ih ((m : ℝ) / top)
      refine ⟨h1, h2.trans h.le, ?_, ?_⟩
      · intro m' hm'
        rcases List.mem_cons.mp hm' with rfl | hm'
        · exact h2
        · exact h3 m' hm'
      · rcases h4 with h4 | ⟨m', hm', h4⟩
        · exact Or.inr ⟨m, by simp, h4⟩
        · exact Or.inr ⟨m', by simp [hm'], h4⟩
    · have hstep : scaleStep sig top (scaleError sig x0, x0) m = (scaleError sig x0, x0) := by
        unfold scaleStep
        simp only
        rw [if_neg h]
      rw [hstep]
      obtain ⟨h1, h2, h3, h4⟩ := ih x0
      refine ⟨h1, h2, ?_, ?_⟩
      · intro m' hm'
        rcases List.mem_cons.mp hm' with rfl | hm'
        · exact h2.trans (not_lt.mp h)
        · exact h3 m' hm'
      · rcases h4 with h4 | ⟨m', hm', h4⟩
        · exact Or.inl h4
        · exact Or.inr ⟨m', by simp [hm'], h4⟩

theorem radix_mem_candidates (top scale : ℝ) (m : ℤ) :
    m ∈ scaleCandidates top scale ↔ max 1 (rint ((rint (top * scale) : ℝ) * (1 / 2))) ≤ m ∧
      m ≤ max (max 1 (rint ((rint (top * scale) : ℝ) * (1 / 2)))) (rint ((rint (top * scale) : ℝ) * (3 / 2))) := by
  unfold scaleCandidates
  simp only [List.mem_map, List.mem_range]
  generalize max 1 (rint ((rint (top * scale) : ℝ) * (1 / 2))) = lo
  generalize rint ((rint (top * scale) : ℝ) * (3 / 2)) = hi
  constructor
  · rintro ⟨i, hi, rfl⟩
    omega
  · rintro ⟨h1, h2⟩
    exact ⟨(m - lo).toNat, by omega, by omega⟩

/-- **C45 (scale).** The reported scale is positive; it is either the one that maps the smallest significant weight to 1 or one that
maps the largest weight to an integer; and no integer target for the largest weight between half and one and a half times its initial
value (rounded), nor the initial scale, gives a smaller misfit. -/
theorem C45_scale_optimal (w s : List ℝ) (k : ℕ) (h : Descending w s) (hk : LastSignificant s k) :
    ∃ r, analyzeWeightRadix w = .ok r ∧ 0 < r.wgtsca ∧ (r.wgtsca = 1 / s.getD k 0 ∨ ∃ m : ℤ, r.wgtsca * s.getD 0 0 = m) ∧
      misfit s k r.wgtsca ≤ misfit s k (1 / s.getD k 0) ∧
      ∀ m : ℤ, 1 ≤ m → rint ((rint (s.getD 0 0 / s.getD k 0) : ℝ) * (1 / 2)) ≤ m → m ≤ rint ((rint (s.getD 0 0 / s.getD k 0) : ℝ) * (3 / 2)) →
        misfit s k r.wgtsca ≤ misfit s k (m / s.getD 0 0) := by
  refine ⟨_, radix_analyze_eq w s k h hk, ?_⟩
  have htop : 0 < s.getD 0 0 := lt_of_lt_of_le hk.2.1 (radix_desc_le s h.2 0 k (by omega) hk.1)
  obtain ⟨h1, h2, h3, h4⟩ := radix_fold_best (s.take (k + 1)) (s.getD 0 0) (scaleCandidates (s.getD 0 0) (1 / s.getD k 0)) (1 / s.getD k 0)
  simp only at h1 h2 h3 h4 ⊢
  generalize (scaleCandidates (s.getD 0 0) (1 / s.getD k 0)).foldl (scaleStep (s.take (k + 1)) (s.getD 0 0)) (scaleError (s.take (k + 1)) (1 / s.getD k 0), 1 / s.getD k 0) = res at *
  rw [h1] at h2 h3
  simp only [radix_error_eq s k hk.1] at h2 h3
  have hsq : ∀ x, Real.sqrt (misfit s k res.2) ≤ Real.sqrt (misfit s k x) → misfit s k res.2 ≤ misfit s k x := by
    intro x hx
    exact (Real.sqrt_le_sqrt_iff (radix_misfit_nonneg s k x)).mp hx
  refine ⟨?_, ?_, hsq _ h2, ?_⟩
  · rcases h4 with h4 | ⟨m, hm, h4⟩
    · rw [h4]
      exact one_div_pos.mpr hk.2.1
    · rw [h4]
      rw [radix_mem_candidates] at hm
      have : (1 : ℤ) ≤ m := le_trans (le_max_left _ _) hm.1
      have : (1 : ℝ) ≤ m := by exact_mod_cast this
      exact div_pos (by linarith) htop
  · rcases h4 with h4 | ⟨m, hm, h4⟩
    · exact Or.inl h4
    · refine Or.inr ⟨m, ?_⟩
      rw [h4]
      field_simp
  · intro m hm1 hm2 hm3
    apply hsq
    apply h3
    rw [radix_mem_candidates, mul_one_div (s.getD 0 0)]
    exact ⟨max_le hm1 hm2, hm3.trans (le_max_right _ _)⟩

/-- **C45 (integer weights).** If every significant weight is an integer multiple of the smallest one, the scale maps that one to 1. -/
theorem C45_integer_weights (w s : List ℝ) (k : ℕ) (h : Descending w s) (hk : LastSignificant s k)
    (hint : ∀ i ≤ k, ∃ z : ℤ, s.getD i 0 = z * s.getD k 0) :
    ∃ r, analyzeWeightRadix w = .ok r ∧ r.wgtsca = 1 / s.getD k 0 := by
  refine ⟨_, radix_analyze_eq w s k h hk, ?_⟩
  have h0 : scaleError (s.take (k + 1)) (1 / s.getD k 0) = 0 := by
    rw [radix_error_eq s k hk.1]
    have : misfit s k (1 / s.getD k 0) = 0 := by
      unfold misfit
      rw [Finset.sum_eq_zero, zero_div]
      intro i hi
      obtain ⟨z, hz⟩ := hint i (by have := Finset.mem_range.mp hi; omega)
      have hne := hk.2.1.ne'
      rw [hz, mul_one_div, mul_div_assoc, div_self hne, mul_one, round_intCast, sub_self]
      norm_num
    rw [this, Real.sqrt_zero]
  have hfix : ∀ l : List ℤ, l.foldl (scaleStep (s.take (k + 1)) (s.getD 0 0)) (0, 1 / s.getD k 0) = (0, 1 / s.getD k 0) := by
    intro l
    induction l with
    | nil => rfl
    | cons m t ih =>
      rw [List.foldl_cons]
      have : scaleStep (s.take (k + 1)) (s.getD 0 0) (0, 1 / s.getD k 0) m = (0, 1 / s.getD k 0) := by
        unfold scaleStep
        simp only
        rw [if_neg (show ¬ scaleError (s.take (k + 1)) ((m : ℝ) / s.getD 0 0) < 0 from not_lt.mpr (Real.sqrt_nonneg _))]
      rw [this, ih]
  simp only [h0, hfix]

/-- **C45 (reordering and signs).** Resolution and scale depend only on the collection of magnitudes. -/
theorem C45_reorder (w w' : List ℝ) (h : (w.map fun x => |x|).Perm (w'.map fun x => |x|)) (r : RadixReport) (hr : analyzeWeightRadix w = .ok r) :
    ∃ r', analyzeWeightRadix w' = .ok r' ∧ r'.wgtsca = r.wgtsca ∧ r'.effres = r.effres := by
  obtain ⟨k, hk⟩ := exists_lastSignificant w _ (radix_sorted_spec w) ((C45_errors w).2.2.mp ⟨r, hr⟩)
  rw [radix_analyze_eq w _ k (radix_sorted_spec w) hk] at hr
  injection hr with hr
  refine ⟨_, radix_analyze_eq w' (sortedWeights w) k ⟨(radix_sorted_spec w).1.trans h, (radix_sorted_spec w).2⟩ hk, ?_, ?_⟩
  · rw [← hr]
  · rw [← hr]

private theorem getD_scale (s : List ℝ) (a : ℝ) (i : ℕ) : (s.map fun x => a * x).getD i 0 = a * s.getD i 0 := by
  have := List.getD_map (l := s) (d := 0) (n := i) fun x : ℝ => a * x
  simpa using this

/-- **C45 (scaling).** Multiplying all weights by a non-zero constant changes neither the radix list nor the resolution; the scale
factor is divided by the magnitude of the constant. Errors are the same. -/
theorem C45_scaling (w : List ℝ) (c : ℝ) (hc : c ≠ 0) :
    analyzeWeightRadix (w.map fun x => c * x) = (analyzeWeightRadix w).map fun r => { r with wgtsca := r.wgtsca / |c| } := by
  have ha : 0 < |c| := abs_pos.mpr hc
  by_cases hw : ∃ x ∈ w, x ≠ 0
  · obtain ⟨k, hk⟩ := exists_lastSignificant w _ (radix_sorted_spec w) hw
    have hs := radix_sorted_spec w
    generalize sortedWeights w = s at hk hs
    have hs' : Descending (w.map fun x => c * x) (s.map fun x => |c| * x) := by
      constructor
      · have := hs.1.map fun x => |c| * x
        refine this.trans (List.Perm.of_eq ?_)
        rw [List.map_map, List.map_map]
        apply List.map_congr_left
        intro x _
        simp [abs_mul]
      · rw [List.pairwise_map]
        exact hs.2.imp fun h => mul_le_mul_of_nonneg_left h ha.le
    have hk' : LastSignificant (s.map fun x => |c| * x) k := by
      obtain ⟨h1, h2, h3, h4⟩ := hk
      refine ⟨by simpa using h1, ?_, ?_, ?_⟩
      · rw [getD_scale]
        positivity
      · intro i hi
        rw [getD_scale, getD_scale]
        have := mul_lt_mul_of_pos_left (h3 i hi) ha
        linarith
      · intro hl
        rw [getD_scale, getD_scale]
        have := mul_le_mul_of_nonneg_left (h4 (by simpa using hl)) ha.le
        linarith
    rw [radix_analyze_eq _ _ k hs' hk', radix_analyze_eq w s k hs hk]
    simp only [Except.map, getD_scale]
    have hradix : radixList (w.map fun x => c * x) = radixList w := by
      unfold radixList
      simp only [List.length_map, List.map_map]
      apply List.map_congr_left
      intro i _
      by_cases h0 : i = 0
      · rw [if_pos h0, if_pos h0]
      · rw [if_neg h0, if_neg h0]
        have hm : ∀ j, (w.map ((fun w => |w|) ∘ fun x => c * x)).getD j 0 = |c| * (w.map fun x => |x|).getD j 0 := by
          intro j
          rw [← getD_scale, List.map_map]
          congr 2
          funext x
          simp [abs_mul]
        rw [hm, hm]
        unfold ratioEntry
        by_cases h1 : (w.map fun x => |x|).getD i 0 = 0
        · rw [if_pos h1, if_pos (by rw [h1, mul_zero])]
        · rw [if_neg h1, if_neg (mul_ne_zero ha.ne' h1), mul_div_mul_left _ _ ha.ne']
    have herr : ∀ x, scaleError ((s.map fun x => |c| * x).take (k + 1)) (x / |c|) = scaleError (s.take (k + 1)) x := by
      intro x
      unfold scaleError
      rw [← List.map_take, List.map_map, List.length_map]
      congr 4
      funext y
      simp only [Function.comp]
      rw [show |c| * y * (x / |c|) = y * x by field_simp]
    have hcand : scaleCandidates (|c| * s.getD 0 0) (1 / (|c| * s.getD k 0)) = scaleCandidates (s.getD 0 0) (1 / s.getD k 0) := by
      unfold scaleCandidates
      rw [show |c| * s.getD 0 0 * (1 / (|c| * s.getD k 0)) = s.getD 0 0 * (1 / s.getD k 0) by
        have := hk.2.1.ne'
        field_simp]
    have hfold : ∀ (l : List ℤ) (e x : ℝ), l.foldl (scaleStep ((s.map fun x => |c| * x).take (k + 1)) (|c| * s.getD 0 0)) (e, x / |c|)
        = ((l.foldl (scaleStep (s.take (k + 1)) (s.getD 0 0)) (e, x)).1, (l.foldl (scaleStep (s.take (k + 1)) (s.getD 0 0)) (e, x)).2 / |c|) := by
      intro l
      induction l with
      | nil => intro e x; rfl
      | cons m t ih =>
        intro e x
        simp only [List.foldl_cons]
        have hm : (m : ℝ) / (|c| * s.getD 0 0) = (m : ℝ) / s.getD 0 0 / |c| := by
          rw [div_div, mul_comm |c|]
        unfold scaleStep
        simp only
        rw [hm, herr]
        by_cases hlt : scaleError (s.take (k + 1)) ((m : ℝ) / s.getD 0 0) < e
        · rw [if_pos hlt, if_pos hlt]
          exact ih _ _
        · rw [if_neg hlt, if_neg hlt]
          exact ih _ _
    congr 2
    · rw [hcand, show (1 : ℝ) / (|c| * s.getD k 0) = 1 / s.getD k 0 / |c| by rw [div_div, mul_comm |c|], herr, hfold]
    · rw [← Finset.mul_sum, mul_div_mul_left _ _ ha.ne']
  · have hz : ∀ x ∈ w, x = 0 := by
      intro x hx
      by_contra h0
      exact hw ⟨x, hx, h0⟩
    have : (w.map fun x => c * x) = w := by
      conv_rhs => rw [← List.map_id w]
      apply List.map_congr_left
      intro x hx
      rw [hz x hx]
      simp
    rw [this]
    by_cases h1 : w = []
    · rw [(C45_errors w).1.mpr h1]
      rfl
    · rw [(C45_errors w).2.1.mpr ⟨h1, hz⟩]
      rfl

/-- Binary weights `2^(n-1), ..., 2, 1`. -/
noncomputable def binaryWeights (n : ℕ) : List ℝ := (List.range n).map fun i => 2 ^ (n - 1 - i)

private theorem binary_get (n i : ℕ) (hi : i < n) : (binaryWeights n).getD i 0 = 2 ^ (n - 1 - i) := by
  unfold binaryWeights
  rw [List.getD_eq_getElem _ _ (by simpa using hi)]
  simp

private theorem binary_desc (n : ℕ) : Descending (binaryWeights n) (binaryWeights n) := by
  constructor
  · apply List.Perm.of_eq
    unfold binaryWeights
    rw [List.map_map]
    apply List.map_congr_left
    intro i _
    simp only [Function.comp]
    rw [abs_of_nonneg (by positivity)]
  · unfold binaryWeights
    rw [List.pairwise_map]
    exact List.pairwise_lt_range.imp fun h => pow_le_pow_right₀ one_le_two (by omega)

private theorem binary_sig (n : ℕ) (hn : n ≠ 0) : LastSignificant (binaryWeights n) (n - 1) := by
  have hl : (binaryWeights n).length = n := by simp [binaryWeights]
  refine ⟨by omega, ?_, ?_, ?_⟩
  · rw [binary_get n _ (by omega)]
    positivity
  · intro i hi
    rw [binary_get n i (by omega), binary_get n (i + 1) (by omega)]
    rw [show n - 1 - i = (n - 1 - (i + 1)) + 1 by omega, pow_succ]
    have : (0 : ℝ) < 2 ^ (n - 1 - (i + 1)) := by positivity
    linarith
  · intro h
    omega

/-- **C45 (binary weights).** Binary weights of any length `n ≥ 1` give radix 2 at every bit after the first, scale 1 and a resolution
of exactly `n` bits. -/
theorem C45_binary (n : ℕ) (hn : n ≠ 0) :
    ∃ r, analyzeWeightRadix (binaryWeights n) = .ok r ∧ (∀ i, 0 < i → i < n → r.radix.getD i none = some 2) ∧ r.wgtsca = 1 ∧ r.effres = n := by
  have hd := binary_desc n
  have hs := binary_sig n hn
  have hl : (binaryWeights n).length = n := by simp [binaryWeights]
  obtain ⟨r, h1, h2⟩ := C45_resolution _ _ _ hd hs
  have hlast : (binaryWeights n).getD (n - 1) 0 = 1 := by
    rw [binary_get n _ (by omega)]
    simp
  refine ⟨r, h1, ?_, ?_, ?_⟩
  · intro i hi hin
    rw [(C45_radix _ r h1).2 i (by omega), binary_get n i hin, binary_get n (i - 1) (by omega)]
    rw [if_neg]
    · rw [abs_of_nonneg (by positivity), abs_of_nonneg (by positivity), show n - 1 - (i - 1) = (n - 1 - i) + 1 by omega, pow_succ]
      field_simp
    · push Not
      exact ⟨by omega, by positivity⟩
  · obtain ⟨r', h3, h4⟩ := C45_integer_weights _ _ _ hd hs (by
      intro i hi
      refine ⟨2 ^ (n - 1 - i), ?_⟩
      rw [binary_get n i (by omega), hlast]
      push_cast
      ring)
    rw [h1] at h3
    injection h3 with h3
    rw [h3, h4, hlast]
    norm_num
  · rw [h2, hlast, div_one]
    have hsum : ∀ m, ∑ i ∈ Finset.range m, (2 : ℝ) ^ (m - 1 - i) + 1 = 2 ^ m := by
      intro m
      rw [Finset.sum_range_reflect (fun i => (2 : ℝ) ^ i) m]
      induction m with
      | zero => norm_num
      | succ m ih =>
        rw [Finset.sum_range_succ, pow_succ]
        linarith
    have : ∑ i ∈ Finset.range (n - 1 + 1), (binaryWeights n).getD i 0 + 1 = 2 ^ n := by
      rw [show n - 1 + 1 = n by omega, ← hsum n]
      congr 1
      apply Finset.sum_congr rfl
      intro i hi
      exact binary_get n i (Finset.mem_range.mp hi)
    rw [this, Real.logb_pow (b := 2), Real.logb_self_eq_one (by norm_num), mul_one]

/-- A sub-binary list with a negligible trim weight: the trim weight is dropped. -/
example : Descending [4, -0.1, 2, 2, 1] [4, 2, 2, 1, 0.1] ∧ LastSignificant [4, 2, 2, 1, 0.1] 3 := by
  refine ⟨⟨?_, ?_⟩, ?_⟩
  · have : ([4, -0.1, 2, 2, 1] : List ℝ).map (fun x => |x|) = [4, 0.1, 2, 2, 1] := by
      simp only [List.map_cons, List.map_nil]
      rw [abs_neg]
      norm_num [abs_of_pos]
    rw [this]
    exact List.Perm.cons _ ((List.perm_middle (l₁ := [2, 2, 1]) (l₂ := ([] : List ℝ)) (a := 0.1)).trans (by simp))
  · simp only [List.pairwise_cons, List.mem_cons, List.not_mem_nil]
    norm_num
  · refine ⟨by simp, by simp, ?_, ?_⟩
    · intro i hi
      interval_cases i <;> simp <;> norm_num
    · intro _
      simp
      norm_num

example : ∃ r, analyzeWeightRadix (binaryWeights 10) = .ok r ∧ r.effres = 10 := by
  obtain ⟨r, h1, _, _, h2⟩ := C45_binary 10 (by norm_num)
  exact ⟨r, h1, by simpa using h2⟩

end Verif
