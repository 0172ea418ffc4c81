import Verif.Model.MatlabRadix
import Verif.Theorems.WeightRadix
import Verif.Theorems.MatlabFilter

/-!
# C130: `analyze_weight_radix` and MATLAB `plotwgt.m`
-/

namespace Verif

open Model

/-! ### The two roundings -/

private theorem round_sq (x : ℝ) : (x - (mlRound x : ℝ)) ^ 2 = (x - (rint x : ℝ)) ^ 2 := by
  by_cases h : ∀ y : ℤ, x ≠ y + 1 / 2
  · rw [(C117_round x 0 le_rfl).1 h]
  · push Not at h
    obtain ⟨y, hy⟩ := h
    have hf : ⌊x⌋ = y := by rw [Int.floor_eq_iff, hy]; constructor <;> linarith
    have h1 : mlRound x = y + 1 ∨ mlRound x = y := by
      unfold mlRound
      split_ifs
      · left
        rw [Int.floor_eq_iff, hy]
        push_cast
        constructor <;> linarith
      · right
        rw [Int.ceil_eq_iff, hy]
        constructor <;> linarith
    have h2 : rint x = y + 1 ∨ rint x = y := by
      unfold rint
      simp only [hf]
      split_ifs <;> simp
    have e1 : ((x - (mlRound x : ℝ)) ^ 2 = 1 / 4) := by
      rcases h1 with h1 | h1 <;> rw [h1, hy] <;> push_cast <;> ring
    have e2 : ((x - (rint x : ℝ)) ^ 2 = 1 / 4) := by
      rcases h2 with h2 | h2 <;> rw [h2, hy] <;> push_cast <;> ring
    rw [e1, e2]

private theorem error_same (sig : List ℝ) (c : ℝ) : mlScaleError sig c = scaleError sig c := by
  unfold mlScaleError scaleError
  simp only [round_sq]

private theorem step_same (sig : List ℝ) (top : ℝ) : mlScaleStep sig top = scaleStep sig top := by
  funext s m
  unfold mlScaleStep scaleStep
  simp only [error_same, gt_iff_lt]

private theorem k_eq (s : List ℝ) : mlSigK s = sigBreak s := by
  have hz : List.zipWith bigRatio s s.tail = (List.range (s.length - 1)).map fun i => bigRatio (s.getD i 0) (s.getD (i + 1) 0) := by
    apply List.ext_getElem
    · simp
    · intro i h1 h2
      have hi : i < s.length - 1 := by simpa using h2
      rw [List.getElem_zipWith, List.getElem_tail, List.getElem_map, List.getElem_range, List.getD_eq_getElem _ _ (show i < s.length by omega),
        List.getD_eq_getElem _ _ (show i + 1 < s.length by omega)]
  unfold mlSigK sigBreak
  rw [hz]
  generalize (fun i => bigRatio (s.getD i 0) (s.getD (i + 1) 0)) = p
  generalize s.length - 1 = n
  cases hf : (List.range n).find? p with
  | none =>
    simp only
    symm
    rw [List.find?_eq_none] at hf
    have hl : ((List.range n).map p).length = n := by simp
    conv_rhs => rw [← hl]
    rw [List.findIdx_eq_length]
    intro x hx
    obtain ⟨i, hi, rfl⟩ := List.mem_map.mp hx
    simpa using hf i hi
  | some i =>
    simp only
    rw [List.find?_range_eq_some] at hf
    obtain ⟨h1, h2, h3⟩ := hf
    have hi : i < n := by simpa using h2
    symm
    rw [List.findIdx_eq (by simpa using hi)]
    refine ⟨by simpa using h1, fun j hj => ?_⟩
    have := h3 j hj
    simpa using this

private theorem ml_eq (w s : List ℝ) (k : ℕ) (h : Descending w s) (hk : LastSignificant s k) :
    mlPlotWgt w = some
      { radix := mlRadixList w
        wgtsca := ((mlScaleCandidates (s.getD 0 0) (1 / s.getD k 0)).foldl (scaleStep (s.take (k + 1)) (s.getD 0 0)) (scaleError (s.take (k + 1)) (1 / s.getD k 0), 1 / s.getD k 0)).2
        effres := Real.logb 2 ((∑ i ∈ Finset.range (k + 1), s.getD i 0) / s.getD k 0 + 1) } := by
  have hne : w ≠ [] := by
    rintro rfl
    have h1 := h.1.length_eq
    have h2 := hk.1
    rw [List.map_nil, List.length_nil] at h1
    omega
  have hK : mlSigK s = k := by rw [k_eq, break_eq s (radix_desc_nonneg w s h) h.2 k hk]
  have hsum : (s.take (k + 1)).sum = ∑ i ∈ Finset.range (k + 1), s.getD i 0 := by
    have := radix_sum_take s k hk.1 id
    simpa using this
  unfold mlPlotWgt
  rw [if_neg hne]
  simp only [radix_sorted_eq w s h, hK]
  rw [if_neg hk.2.1.ne', radix_last_take s k hk.1, hsum, step_same, error_same]

private theorem radix_tail (w : List ℝ) (hw : w ≠ []) : radixList w = none :: mlRadixList w := by
  have hl : 0 < w.length := List.length_pos_iff.mpr hw
  have ha : ∀ i : ℕ, (w.map fun x => |x|).getD i 0 = |w.getD i 0| := by
    intro i
    have := List.getD_map (l := w) (d := 0) (n := i) fun x : ℝ => |x|
    simpa using this
  unfold radixList mlRadixList
  simp only [ha]
  conv_lhs => rw [show w.length = w.length - 1 + 1 by omega, List.range_succ_eq_map]
  simp

/-! ### The comparison -/

/-- Both functions answer for the same lists of weights: those with a weight that is not zero. -/
theorem C130_answers (w : List ℝ) : (mlPlotWgt w).isSome = true ↔ ∃ r, analyzeWeightRadix w = .ok r := by
  rw [(C45_errors w).2.2]
  constructor
  · intro h
    by_contra hz
    push Not at hz
    unfold mlPlotWgt at h
    by_cases h1 : w = []
    · rw [if_pos h1] at h
      cases h
    · rw [if_neg h1] at h
      have hall : ∀ i : ℕ, (sortedWeights w).getD i 0 = 0 := by
        intro i
        rcases lt_or_ge i (sortedWeights w).length with hi | hi
        · rw [List.getD_eq_getElem _ _ hi]
          obtain ⟨y, hy, he⟩ := List.mem_map.mp ((radix_sorted_spec w).1.mem_iff.mp (List.getElem_mem hi))
          rw [← he, hz y hy, abs_zero]
        · rw [List.getD_eq_default _ _ hi]
      simp only [hall, if_true] at h
      cases h
  · intro h
    obtain ⟨k, hk⟩ := exists_lastSignificant w _ (radix_sorted_spec w) h
    rw [ml_eq w _ k (radix_sorted_spec w) hk]
    rfl

private theorem half_even (z : ℤ) (h : Even z) : mlRound ((z : ℝ) * (1 / 2)) = rint ((z : ℝ) * (1 / 2)) ∧ mlRound ((z : ℝ) * (3 / 2)) = rint ((z : ℝ) * (3 / 2)) := by
  obtain ⟨j, rfl⟩ := h
  constructor
  · refine (C117_round _ 0 le_rfl).1 fun y hy => ?_
    have : 2 * j = 2 * y + 1 := by
      have : (2 : ℝ) * j = 2 * y + 1 := by push_cast at hy; linarith
      exact_mod_cast this
    omega
  · refine (C117_round _ 0 le_rfl).1 fun y hy => ?_
    have : 6 * j = 2 * y + 1 := by
      have : (6 : ℝ) * j = 2 * y + 1 := by push_cast at hy; linarith
      exact_mod_cast this
    omega

private theorem half_odd (j : ℤ) (hj : 0 ≤ j) :
    mlRound (((2 * j + 1 : ℤ) : ℝ) * (1 / 2)) = j + 1 ∧ mlRound (((2 * j + 1 : ℤ) : ℝ) * (3 / 2)) = 3 * j + 2 ∧
    rint (((2 * j + 1 : ℤ) : ℝ) * (1 / 2)) = (if j % 2 = 1 then j + 1 else j) ∧
    rint (((2 * j + 1 : ℤ) : ℝ) * (3 / 2)) = (if j % 2 = 1 then 3 * j + 1 else 3 * j + 2) := by
  have e1 : ((2 * j + 1 : ℤ) : ℝ) * (1 / 2) = ((j : ℤ) : ℝ) + 1 / 2 := by push_cast; ring
  have e2 : ((2 * j + 1 : ℤ) : ℝ) * (3 / 2) = ((3 * j + 1 : ℤ) : ℝ) + 1 / 2 := by push_cast; ring
  have hr : ∀ z : ℤ, rint ((z : ℝ) + 1 / 2) = if z % 2 = 1 then z + 1 else z := by
    intro z
    have hf : ⌊(z : ℝ) + 1 / 2⌋ = z := by rw [Int.floor_eq_iff]; constructor <;> linarith
    unfold rint
    simp only [hf]
    rw [if_neg (by linarith), if_neg (by linarith)]
    split_ifs <;> omega
  rw [e1, e2, hr, hr, (C117_round (0 : ℝ) j hj).2.1, (C117_round (0 : ℝ) (3 * j + 1) (by omega)).2.1]
  refine ⟨rfl, by ring, rfl, ?_⟩
  split_ifs <;> omega

/-- **C130 (same report).** For every list of weights with a weight that is not zero, both functions report the same ratios (Python with a
NaN in front) and the same effective resolution. The scales are the same when the largest weight, in units of the smallest significant one,
is not half-way between two integers and rounds to one or to an even number; and also when all significant weights are whole multiples of the smallest. -/
theorem C130_same (w s : List ℝ) (k : ℕ) (h : Descending w s) (hk : LastSignificant s k) :
    ∃ r m, analyzeWeightRadix w = .ok r ∧ mlPlotWgt w = some m ∧ r.radix = none :: m.radix ∧ r.effres = m.effres ∧
      ((∀ y : ℤ, s.getD 0 0 / s.getD k 0 ≠ y + 1 / 2) → rint (s.getD 0 0 / s.getD k 0) = 1 ∨ Even (rint (s.getD 0 0 / s.getD k 0)) → r.wgtsca = m.wgtsca) ∧
      ((∀ i ≤ k, ∃ z : ℤ, s.getD i 0 = z * s.getD k 0) → r.wgtsca = m.wgtsca) := by
  refine ⟨_, _, radix_analyze_eq w s k h hk, ml_eq w s k h hk, ?_, rfl, ?_, ?_⟩
  · apply radix_tail
    rintro rfl
    have h1 := h.1.length_eq
    have h2 := hk.1
    rw [List.map_nil, List.length_nil] at h1
    omega
  · intro hhalf hev
    simp only
    have hc : mlScaleCandidates (s.getD 0 0) (1 / s.getD k 0) = scaleCandidates (s.getD 0 0) (1 / s.getD k 0) := by
      unfold mlScaleCandidates scaleCandidates
      have e : s.getD 0 0 * (1 / s.getD k 0) = s.getD 0 0 / s.getD k 0 := mul_one_div _ _
      simp only [e, (C117_round _ 0 le_rfl).1 hhalf]
      rcases hev with h1 | h1
      · rw [h1]
        obtain ⟨a1, a2, a3, a4⟩ := half_odd 0 le_rfl
        simp only [mul_zero, zero_add] at a1 a2 a3 a4
        rw [a1, a2, a3, a4]
        rfl
      · rw [(half_even _ h1).1, (half_even _ h1).2]
    rw [hc]
  · intro hint
    simp only
    have h0 : scaleError (s.take (k + 1)) (1 / s.getD k 0) = 0 := by
      rw [radix_error_eq s k hk.1]
      have : misfit s k (1 / s.getD k 0) = 0 := by
        unfold misfit
        rw [Finset.sum_eq_zero, zero_div]
        intro i hi
        obtain ⟨z, hz⟩ := hint i (by have := Finset.mem_range.mp hi; omega)
        have hp := hk.2.1.ne'
        rw [hz, mul_assoc, mul_one_div_cancel hp, mul_one, round_intCast, sub_self]
        ring
      rw [this, Real.sqrt_zero]
    have hstay : ∀ l : List ℤ, (l.foldl (scaleStep (s.take (k + 1)) (s.getD 0 0)) (0, 1 / s.getD k 0)) = (0, 1 / s.getD k 0) := by
      intro l
      induction l with
      | nil => rfl
      | cons a t ih =>
        rw [List.foldl_cons]
        have : scaleStep (s.take (k + 1)) (s.getD 0 0) (0, 1 / s.getD k 0) a = (0, 1 / s.getD k 0) := by
          unfold scaleStep
          simp only
          exact if_neg (not_lt.mpr (Real.sqrt_nonneg _))
        rw [this, ih]
    rw [h0, hstay, hstay]

private theorem fold_sub (s : List ℝ) (k : ℕ) (hk : k < s.length) (x0 : ℝ) (l l' : List ℤ) (hl : ∀ m ∈ l, m ∈ l') :
    misfit s k (l'.foldl (scaleStep (s.take (k + 1)) (s.getD 0 0)) (scaleError (s.take (k + 1)) x0, x0)).2
      ≤ misfit s k (l.foldl (scaleStep (s.take (k + 1)) (s.getD 0 0)) (scaleError (s.take (k + 1)) x0, x0)).2 := by
  obtain ⟨a1, -, -, a4⟩ := radix_fold_best (s.take (k + 1)) (s.getD 0 0) l x0
  obtain ⟨b1, b2, b3, -⟩ := radix_fold_best (s.take (k + 1)) (s.getD 0 0) l' x0
  generalize (l.foldl (scaleStep (s.take (k + 1)) (s.getD 0 0)) (scaleError (s.take (k + 1)) x0, x0)) = ra at *
  generalize (l'.foldl (scaleStep (s.take (k + 1)) (s.getD 0 0)) (scaleError (s.take (k + 1)) x0, x0)) = rb at *
  rw [← Real.sqrt_le_sqrt_iff (radix_misfit_nonneg s k _), ← radix_error_eq s k hk, ← radix_error_eq s k hk, ← b1]
  rcases a4 with a4 | ⟨m, hm, a4⟩
  · rw [a4]; exact b2
  · rw [a4]; exact b3 m (hl m hm)

private theorem ml_mem_candidates (top scale : ℝ) (m : ℤ) :
    m ∈ mlScaleCandidates top scale ↔ max 1 (mlRound ((mlRound (top * scale) : ℝ) * (1 / 2))) ≤ m ∧
      m ≤ max (max 1 (mlRound ((mlRound (top * scale) : ℝ) * (1 / 2)))) (mlRound ((mlRound (top * scale) : ℝ) * (3 / 2))) := by
  unfold mlScaleCandidates
  simp only [List.mem_map, List.mem_range]
  generalize max 1 (mlRound ((mlRound (top * scale) : ℝ) * (1 / 2))) = lo
  generalize mlRound ((mlRound (top * scale) : ℝ) * (3 / 2)) = hi
  constructor
  · rintro ⟨i, hi, rfl⟩
    omega
  · rintro ⟨h1, h2⟩
    exact ⟨(m - lo).toNat, by omega, by omega⟩

/-- **C130 (odd top weight).** When the largest weight, in units of the smallest significant one, rounds to an odd number `2j+1` from three
up, the scale of `plotwgt.m` fits the integers at least as well for odd `j`, and that of `analyze_weight_radix` at least as well for even `j`. -/
theorem C130_odd (w s : List ℝ) (k : ℕ) (h : Descending w s) (hk : LastSignificant s k) (hhalf : ∀ y : ℤ, s.getD 0 0 / s.getD k 0 ≠ y + 1 / 2)
    (j : ℤ) (hj : 1 ≤ j) (hodd : rint (s.getD 0 0 / s.getD k 0) = 2 * j + 1) :
    ∃ r m, analyzeWeightRadix w = .ok r ∧ mlPlotWgt w = some m ∧
      (j % 2 = 1 → misfit s k m.wgtsca ≤ misfit s k r.wgtsca) ∧ (j % 2 = 0 → misfit s k r.wgtsca ≤ misfit s k m.wgtsca) := by
  have e : s.getD 0 0 * (1 / s.getD k 0) = s.getD 0 0 / s.getD k 0 := mul_one_div _ _
  obtain ⟨a1, a2, a3, a4⟩ := half_odd j (by omega)
  have hml := (C117_round _ 0 le_rfl).1 hhalf
  refine ⟨_, _, radix_analyze_eq w s k h hk, ml_eq w s k h hk, fun hm => fold_sub s k hk.1 _ _ _ fun m hmem => ?_, fun hm => fold_sub s k hk.1 _ _ _ fun m hmem => ?_⟩
  · rw [radix_mem_candidates, e, hodd, a3, a4, if_pos hm, if_pos hm] at hmem
    rw [ml_mem_candidates, e, hml, hodd, a1, a2]
    omega
  · rw [ml_mem_candidates, e, hml, hodd, a1, a2] at hmem
    rw [radix_mem_candidates, e, hodd, a3, a4, if_neg (by omega), if_neg (by omega)]
    omega

private theorem two_desc (a b : ℝ) (hb : 0 < b) (hab : b ≤ a) : Descending [a, b] [a, b] := by
  refine ⟨?_, by simp [hab]⟩
  simp [abs_of_pos hb, abs_of_pos (lt_of_lt_of_le hb hab)]

private theorem two_sig (a b : ℝ) (hb : 0 < b) (hab : a < 3 * b) : LastSignificant [a, b] 1 := by
  refine ⟨by simp, by simpa using hb, ?_, by simp⟩
  intro i hi
  obtain rfl : i = 0 := by omega
  simpa using hab

private theorem two_misfit (a b c : ℝ) : misfit [a, b] 1 c = ((a * c - round (a * c)) ^ 2 + (b * c - round (b * c)) ^ 2) / 2 := by
  unfold misfit
  rw [Finset.sum_range_succ, Finset.sum_range_one]
  norm_num

private theorem far (x : ℝ) (z : ℤ) (d : ℝ) (hd : 0 ≤ d) (h1 : z + d ≤ x) (h2 : x ≤ z + 1 - d) : d ^ 2 ≤ (x - round x) ^ 2 := by
  rw [← sq_abs (x - _)]
  apply pow_le_pow_left₀ hd
  rcases le_or_gt (round x) z with hr | hr
  · have : ((round x : ℤ) : ℝ) ≤ z := by exact_mod_cast hr
    exact le_trans (by linarith) (le_abs_self _)
  · have : ((z : ℤ) : ℝ) + 1 ≤ round x := by exact_mod_cast hr
    exact le_trans (by linarith) (neg_le_abs _)

/-- **C130 (refuted: same scale).** For the weights 5 and 2 `plotwgt.m` finds the scale one, which leaves both whole; `analyze_weight_radix`
rounds 2.5 to 2, looks only at scales up to 3/5 and reports one of those. For 13 and 5, where nothing is half-way, `plotwgt.m` reports 5/13 and
Python a scale of at most 4/13. -/
theorem C130_differs :
    (∃ r m, analyzeWeightRadix [5, 2] = .ok r ∧ mlPlotWgt [5, 2] = some m ∧ m.wgtsca = 1 ∧ r.wgtsca ≤ 3 / 5) ∧
    (∃ r m, analyzeWeightRadix [13, 5] = .ok r ∧ mlPlotWgt [13, 5] = some m ∧ m.wgtsca = 5 / 13 ∧ r.wgtsca ≤ 4 / 13) := by
  constructor
  · have h := two_desc 5 2 (by norm_num) (by norm_num)
    have hk := two_sig 5 2 (by norm_num) (by norm_num)
    refine ⟨_, _, radix_analyze_eq _ _ 1 h hk, ml_eq _ _ 1 h hk, ?_, ?_⟩
    · obtain ⟨a1, a2, a3, a4⟩ := radix_fold_best ([5, 2].take (1 + 1)) (([5, 2] : List ℝ).getD 0 0) (mlScaleCandidates (([5, 2] : List ℝ).getD 0 0) (1 / ([5, 2] : List ℝ).getD 1 0)) (1 / ([5, 2] : List ℝ).getD 1 0)
      simp only at a1 a3 a4 ⊢
      generalize (List.foldl (scaleStep ([5, 2].take (1 + 1)) (([5, 2] : List ℝ).getD 0 0)) _ _) = res at *
      have hr : mlRound ((5 : ℝ) * (1 / 2)) = 3 := by
        have := (C117_round (0 : ℝ) 2 (by norm_num)).2.1
        rw [show (5 : ℝ) * (1 / 2) = ((2 : ℤ) : ℝ) + 1 / 2 by norm_num, this]
        rfl
      obtain ⟨b1, b2, -, -⟩ := half_odd 1 (by norm_num)
      have hmem : ∀ m : ℤ, m ∈ mlScaleCandidates (([5, 2] : List ℝ).getD 0 0) (1 / ([5, 2] : List ℝ).getD 1 0) ↔ 2 ≤ m ∧ m ≤ 5 := by
        intro m
        rw [ml_mem_candidates]
        simp only [List.getD_cons_zero, List.getD_cons_succ]
        rw [hr, show (3 : ℤ) = 2 * 1 + 1 by norm_num, b1, b2]
        norm_num
      have h5 := a3 5 ((hmem 5).mpr (by norm_num))
      rw [a1, radix_error_eq _ 1 (by simp), radix_error_eq _ 1 (by simp), Real.sqrt_le_sqrt_iff (radix_misfit_nonneg _ _ _), two_misfit, two_misfit] at h5
      have e5 : (5 : ℝ) * (((5 : ℤ) : ℝ) / ([5, 2] : List ℝ).getD 0 0) = ((5 : ℤ) : ℝ) := by simp
      have e2 : (2 : ℝ) * (((5 : ℤ) : ℝ) / ([5, 2] : List ℝ).getD 0 0) = ((2 : ℤ) : ℝ) := by simp
      rw [e5, e2, round_intCast, round_intCast, sub_self, sub_self] at h5
      have hA := sq_nonneg (5 * res.2 - round (5 * res.2))
      have hB := sq_nonneg (2 * res.2 - round (2 * res.2))
      rcases a4 with a4 | ⟨m, hm, a4⟩
      · exfalso
        have := far (5 * res.2) 2 (1 / 2) (by norm_num) (by rw [a4]; norm_num) (by rw [a4]; norm_num)
        linarith
      · rw [hmem] at hm
        simp only [List.getD_cons_zero] at a4
        obtain ⟨m1, m2⟩ := hm
        interval_cases m
        · exfalso
          have := far (2 * res.2) 0 (1 / 5) (by norm_num) (by rw [a4]; norm_num) (by rw [a4]; norm_num)
          linarith
        · exfalso
          have := far (2 * res.2) 1 (1 / 5) (by norm_num) (by rw [a4]; norm_num) (by rw [a4]; norm_num)
          linarith
        · exfalso
          have := far (2 * res.2) 1 (2 / 5) (by norm_num) (by rw [a4]; norm_num) (by rw [a4]; norm_num)
          linarith
        · rw [a4]; norm_num
    · obtain ⟨-, -, -, a4⟩ := radix_fold_best ([5, 2].take (1 + 1)) (([5, 2] : List ℝ).getD 0 0) (scaleCandidates (([5, 2] : List ℝ).getD 0 0) (1 / ([5, 2] : List ℝ).getD 1 0)) (1 / ([5, 2] : List ℝ).getD 1 0)
      simp only at a4 ⊢
      generalize (List.foldl (scaleStep ([5, 2].take (1 + 1)) (([5, 2] : List ℝ).getD 0 0)) _ _) = res at *
      have hr : rint ((5 : ℝ) * (1 / 2)) = 2 := by
        have hf : ⌊(5 : ℝ) * (1 / 2)⌋ = 2 := by rw [Int.floor_eq_iff]; norm_num
        unfold rint
        simp only [hf]
        norm_num
      rcases a4 with a4 | ⟨m, hm, a4⟩
      · rw [a4]; norm_num
      · rw [radix_mem_candidates] at hm
        simp only [List.getD_cons_zero, List.getD_cons_succ] at hm a4
        rw [hr, show ((2 : ℤ) : ℝ) * (1 / 2) = ((1 : ℤ) : ℝ) by norm_num, show ((2 : ℤ) : ℝ) * (3 / 2) = ((3 : ℤ) : ℝ) by norm_num, rint_intCast, rint_intCast] at hm
        have : (m : ℝ) ≤ 3 := by exact_mod_cast (by omega : m ≤ 3)
        rw [a4]
        linarith
  · have h := two_desc 13 5 (by norm_num) (by norm_num)
    have hk := two_sig 13 5 (by norm_num) (by norm_num)
    have hr : rint ((13 : ℝ) * (1 / 5)) = 3 := rint_unique (by push_cast; rw [abs_lt]; constructor <;> norm_num)
    have hr' : mlRound ((13 : ℝ) * (1 / 5)) = 3 := by
      unfold mlRound
      rw [if_pos (by norm_num), Int.floor_eq_iff]
      norm_num
    obtain ⟨b1, b2, b3, b4⟩ := half_odd 1 (by norm_num)
    refine ⟨_, _, radix_analyze_eq _ _ 1 h hk, ml_eq _ _ 1 h hk, ?_, ?_⟩
    · obtain ⟨a1, a2, a3, a4⟩ := radix_fold_best ([13, 5].take (1 + 1)) (([13, 5] : List ℝ).getD 0 0) (mlScaleCandidates (([13, 5] : List ℝ).getD 0 0) (1 / ([13, 5] : List ℝ).getD 1 0)) (1 / ([13, 5] : List ℝ).getD 1 0)
      simp only at a1 a3 a4 ⊢
      generalize (List.foldl (scaleStep ([13, 5].take (1 + 1)) (([13, 5] : List ℝ).getD 0 0)) _ _) = res at *
      have hmem : ∀ m : ℤ, m ∈ mlScaleCandidates (([13, 5] : List ℝ).getD 0 0) (1 / ([13, 5] : List ℝ).getD 1 0) ↔ 2 ≤ m ∧ m ≤ 5 := by
        intro m
        rw [ml_mem_candidates]
        simp only [List.getD_cons_zero, List.getD_cons_succ]
        rw [hr', show (3 : ℤ) = 2 * 1 + 1 by norm_num, b1, b2]
        norm_num
      have h5 := a3 5 ((hmem 5).mpr (by norm_num))
      rw [a1, radix_error_eq _ 1 (by simp), radix_error_eq _ 1 (by simp), Real.sqrt_le_sqrt_iff (radix_misfit_nonneg _ _ _), two_misfit, two_misfit] at h5
      have e5 : (13 : ℝ) * (((5 : ℤ) : ℝ) / ([13, 5] : List ℝ).getD 0 0) = ((5 : ℤ) : ℝ) := by norm_num
      have e2 : (5 : ℝ) * (((5 : ℤ) : ℝ) / ([13, 5] : List ℝ).getD 0 0) = 25 / 13 := by norm_num
      have e3 : round (25 / 13 : ℝ) = 2 := by rw [round_eq, Int.floor_eq_iff]; norm_num
      rw [e5, e2, e3, round_intCast, sub_self] at h5
      have hA := sq_nonneg (13 * res.2 - round (13 * res.2))
      have hB := sq_nonneg (5 * res.2 - round (5 * res.2))
      norm_num at h5
      rcases a4 with a4 | ⟨m, hm, a4⟩
      · exfalso
        have := far (13 * res.2) 2 (2 / 5) (by norm_num) (by rw [a4]; norm_num) (by rw [a4]; norm_num)
        linarith
      · rw [hmem] at hm
        simp only [List.getD_cons_zero] at a4
        obtain ⟨m1, m2⟩ := hm
        interval_cases m
        · exfalso
          have := far (5 * res.2) 0 (3 / 13) (by norm_num) (by rw [a4]; norm_num) (by rw [a4]; norm_num)
          linarith
        · exfalso
          have := far (5 * res.2) 1 (2 / 13) (by norm_num) (by rw [a4]; norm_num) (by rw [a4]; norm_num)
          linarith
        · exfalso
          have := far (5 * res.2) 1 (6 / 13) (by norm_num) (by rw [a4]; norm_num) (by rw [a4]; norm_num)
          linarith
        · rw [a4]; norm_num
    · obtain ⟨-, -, -, a4⟩ := radix_fold_best ([13, 5].take (1 + 1)) (([13, 5] : List ℝ).getD 0 0) (scaleCandidates (([13, 5] : List ℝ).getD 0 0) (1 / ([13, 5] : List ℝ).getD 1 0)) (1 / ([13, 5] : List ℝ).getD 1 0)
      simp only at a4 ⊢
      generalize (List.foldl (scaleStep ([13, 5].take (1 + 1)) (([13, 5] : List ℝ).getD 0 0)) _ _) = res at *
      rcases a4 with a4 | ⟨m, hm, a4⟩
      · rw [a4]; norm_num
      · rw [radix_mem_candidates] at hm
        simp only [List.getD_cons_zero, List.getD_cons_succ] at hm a4
        rw [hr, show (3 : ℤ) = 2 * 1 + 1 by norm_num, b3, b4] at hm
        have hm4 : m ≤ 4 := by
          have := hm.2
          norm_num at this
          omega
        have : (m : ℝ) ≤ 4 := by exact_mod_cast hm4
        rw [a4]
        linarith

/-- Non-vacuity of `C130_same`: the weights 4 and 2, whose quotient is the even number two. -/
example : Descending [4, 2] [4, 2] ∧ LastSignificant [4, 2] 1 := ⟨two_desc 4 2 (by norm_num) (by norm_num), two_sig 4 2 (by norm_num) (by norm_num)⟩

end Verif
