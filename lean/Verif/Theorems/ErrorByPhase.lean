import Verif.Proofs.Bins
import Verif.Proofs.Lstsq
import Verif.Theorems.SineFit
import Mathlib.Analysis.SpecialFunctions.Trigonometric.Basic

/-!
# C50: AM/PM separation by phase
-/

namespace Verif

open Model Finset

/-- Variance of the AM/PM/base noise model at phase `φ` (specification). -/
noncomputable def noiseCurve (am pm base φ : ℝ) : ℝ := am * Real.cos φ ^ 2 + pm * Real.sin φ ^ 2 + base

theorem phase_ok (solve : Lstsq) (n : ℕ) (x : ℕ → ℝ) (freq : Option ℝ) (nBins : ℤ) (base : Bool) (maxIter : ℤ) (tol : ℝ) (r : PhaseBins)
    (h : rearrangeByPhase solve n x freq nBins base maxIter tol = .ok r) : 0 < nBins ∧ ∃ idx : ℕ → ℕ,
      (∀ t, idx t = phaseIndex nBins.toNat (pmod (r.phase t) (2 * Real.pi))) ∧ (∀ t, r.err t + r.fitted t = x t) ∧
      r.coeffs = phaseVars solve n (fun t => r.err t ^ 2) (fun t => pmod (r.phase t) (2 * Real.pi)) base ∧
      r.amRms = Real.sqrt r.coeffs.1 ∧ r.pmRms = Real.sqrt r.coeffs.2.1 ∧ r.baseRms = Real.sqrt r.coeffs.2.2 ∧
      r.amRelative = (if 1 / 10 ^ 10 < r.amplitude then r.amRms / r.amplitude else 0) ∧ r.pmRad = (if 1 / 10 ^ 10 < r.amplitude then r.pmRms / r.amplitude else 0) ∧
      r.totalRms = Real.sqrt (colMean n fun t => r.err t ^ 2) ∧
      r.r2Raw = (fitErrorPhase solve n (fun t => r.err t ^ 2) (fun t => pmod (r.phase t) (2 * Real.pi)) base).2 ∧
      r.r2Binned = rSquaredBinned nBins.toNat r.count r.rms r.coeffs ∧
      r.count = binCount n idx (fun _ => true) ∧ r.mean = binMean n idx (fun _ => true) r.err ∧ r.rms = binRms n idx (fun _ => true) r.err ∧
      r.centers = phaseCenter nBins.toNat := by
  unfold rearrangeByPhase at h
  cases hf : fitCore solve n x freq maxIter tol with
  | error e => rw [hf] at h; cases h
  | ok fit =>
    rw [hf] at h
    simp only at h
    by_cases h0 : nBins = 0
    · rw [if_pos h0] at h; cases h
    rw [if_neg h0] at h
    by_cases h1 : nBins < 0
    · rw [if_pos h1] at h; cases h
    rw [if_neg h1] at h
    injection h with h
    subst h
    refine ⟨by omega, _, fun t => rfl, fun t => by simp, rfl, rfl, rfl, rfl, ?_, ?_, rfl, rfl, rfl, rfl, rfl, rfl, rfl⟩ <;>
    · simp only [decide_eq_true_eq]

private theorem split_nonneg (A B : ℝ) : 0 ≤ (splitVar A B).1 ∧ 0 ≤ (splitVar A B).2.1 ∧ 0 ≤ (splitVar A B).2.2 ∧ ((splitVar A B).1 = 0 ∨ (splitVar A B).2.1 = 0) := by
  unfold splitVar
  by_cases h : 0 < A
  · rw [if_pos h]
    exact ⟨le_max_left _ _, le_rfl, le_max_left _ _, Or.inr rfl⟩
  · rw [if_neg h]
    by_cases h2 : A < 0
    · rw [if_pos h2]
      exact ⟨le_rfl, le_max_left _ _, le_max_left _ _, Or.inl rfl⟩
    · rw [if_neg h2]
      exact ⟨le_rfl, le_rfl, le_max_left _ _, Or.inl rfl⟩

private theorem split_curve (A B φ : ℝ) :
    noiseCurve (splitVar A B).1 (splitVar A B).2.1 (splitVar A B).2.2 φ = A * Real.cos (2 * φ) + B + max 0 (|A| - B) := by
  have hc := Real.cos_sq φ
  have hs := Real.sin_sq_add_cos_sq φ
  have hmax : ∀ u : ℝ, max 0 u = u + max 0 (-u) := by
    intro u
    rcases le_total 0 u with h | h
    · rw [max_eq_right h, max_eq_left (by linarith)]; ring
    · rw [max_eq_left h, max_eq_right (by linarith)]; ring
  unfold noiseCurve splitVar
  by_cases h : 0 < A
  · rw [if_pos h]
    simp only
    rw [abs_of_pos h, max_eq_right (by linarith : (0:ℝ) ≤ 2 * A), hmax (B - A), neg_sub, hc]
    ring
  · rw [if_neg h]
    by_cases h2 : A < 0
    · rw [if_pos h2]
      simp only
      rw [abs_of_neg h2, max_eq_right (by linarith : (0:ℝ) ≤ -2 * A), hmax (B + A), show -(B + A) = -A - B by ring, show Real.sin φ ^ 2 = 1 - Real.cos φ ^ 2 by linarith, hc]
      ring
    · rw [if_neg h2]
      have : A = 0 := by linarith
      subst this
      simp only [abs_zero, zero_sub]
      rw [hmax B]
      ring

private theorem cols2 (phi : ℕ → ℝ) (x : List ℝ) (t : ℕ) :
    matVec [fun t => Real.cos (2 * phi t), fun _ => 1] x t = x.getD 0 0 * Real.cos (2 * phi t) + x.getD 1 0 := by
  unfold matVec
  simp [sum_range_succ]

private theorem cols2' (phi : ℕ → ℝ) (x : List ℝ) (t : ℕ) :
    matVec [fun t => Real.cos (phi t) ^ 2, fun t => Real.sin (phi t) ^ 2] x t = x.getD 0 0 * Real.cos (phi t) ^ 2 + x.getD 1 0 * Real.sin (phi t) ^ 2 := by
  unfold matVec
  simp [sum_range_succ]

private theorem pmod_cos2 (φ : ℝ) : Real.cos (2 * pmod φ (2 * Real.pi)) = Real.cos (2 * φ) := by
  unfold pmod
  rw [show 2 * (φ - 2 * Real.pi * (⌊φ / (2 * Real.pi)⌋ : ℝ)) = 2 * φ - ((2 * ⌊φ / (2 * Real.pi)⌋ : ℤ) : ℝ) * (2 * Real.pi) by push_cast; ring,
    Real.cos_sub_int_mul_two_pi]

private theorem pmod_cos (φ : ℝ) : Real.cos (pmod φ (2 * Real.pi)) = Real.cos φ := by
  unfold pmod
  rw [mul_comm (2 * Real.pi), Real.cos_sub_int_mul_two_pi]

private theorem pmod_sin (φ : ℝ) : Real.sin (pmod φ (2 * Real.pi)) = Real.sin φ := by
  unfold pmod
  rw [mul_comm (2 * Real.pi), Real.sin_sub_int_mul_two_pi]

private theorem curve_cos2 (a p c φ : ℝ) : noiseCurve a p c φ = (a - p) / 2 * Real.cos (2 * φ) + ((a + p) / 2 + c) := by
  unfold noiseCurve
  have hs := Real.sin_sq_add_cos_sq φ
  rw [show Real.sin φ ^ 2 = 1 - Real.cos φ ^ 2 by linarith, Real.cos_sq φ]
  ring

/-- **C50 (variances).** The three reported variances are non-negative, the reported RMS values are their square roots, the PM value in radians
is the PM RMS over the amplitude; with base noise at most one of AM and PM is non-zero, without it the base is zero. -/
theorem C50_variances (solve : Lstsq) (n : ℕ) (x : ℕ → ℝ) (freq : Option ℝ) (nBins : ℤ) (base : Bool) (maxIter : ℤ) (tol : ℝ) (r : PhaseBins)
    (h : rearrangeByPhase solve n x freq nBins base maxIter tol = .ok r) :
    (0 ≤ r.amRms ∧ r.amRms ^ 2 = r.coeffs.1) ∧ (0 ≤ r.pmRms ∧ r.pmRms ^ 2 = r.coeffs.2.1) ∧ (0 ≤ r.baseRms ∧ r.baseRms ^ 2 = r.coeffs.2.2) ∧
    (base = true → r.amRms = 0 ∨ r.pmRms = 0) ∧ (base = false → r.baseRms = 0) ∧
    (1 / 10 ^ 10 < r.amplitude → r.pmRad * r.amplitude = r.pmRms ∧ r.amRelative * r.amplitude = r.amRms) := by
  obtain ⟨_, idx, _, _, hv, ha, hp, hb, har, hpr, _⟩ := phase_ok solve n x freq nBins base maxIter tol r h
  have hnn : 0 ≤ r.coeffs.1 ∧ 0 ≤ r.coeffs.2.1 ∧ 0 ≤ r.coeffs.2.2 ∧ (base = true → r.coeffs.1 = 0 ∨ r.coeffs.2.1 = 0) ∧ (base = false → r.coeffs.2.2 = 0) := by
    rw [hv]
    unfold phaseVars
    cases base with
    | true =>
      rw [if_pos rfl]
      obtain ⟨h1, h2, h3, h4⟩ := split_nonneg ((solve n [fun t => Real.cos (2 * pmod (r.phase t) (2 * Real.pi)), fun _ => 1] fun t => r.err t ^ 2).getD 0 0)
        ((solve n [fun t => Real.cos (2 * pmod (r.phase t) (2 * Real.pi)), fun _ => 1] fun t => r.err t ^ 2).getD 1 0)
      exact ⟨h1, h2, h3, fun _ => h4, fun h => by cases h⟩
    | false =>
      rw [if_neg (by simp)]
      exact ⟨le_max_left _ _, le_max_left _ _, le_rfl, fun h => (by cases h), fun _ => rfl⟩
  obtain ⟨h1, h2, h3, h4, h5⟩ := hnn
  rw [ha, hp, hb] at *
  refine ⟨⟨Real.sqrt_nonneg _, Real.sq_sqrt h1⟩, ⟨Real.sqrt_nonneg _, Real.sq_sqrt h2⟩, ⟨Real.sqrt_nonneg _, Real.sq_sqrt h3⟩, ?_, ?_, ?_⟩
  · intro hbase
    rcases h4 hbase with h | h
    · left; rw [h, Real.sqrt_zero]
    · right; rw [h, Real.sqrt_zero]
  · intro hbase
    rw [h5 hbase, Real.sqrt_zero]
  · intro hbig
    have : r.amplitude ≠ 0 := by
      have : (0 : ℝ) < 1 / 10 ^ 10 := by norm_num
      linarith
    rw [hpr, har, if_pos hbig, if_pos hbig]
    exact ⟨div_mul_cancel₀ _ this, div_mul_cancel₀ _ this⟩

/-- **C50 (the fitted curve).** With base noise there is a curve `A cos 2φ + B` that fits the squared error at least as well as every
AM/PM/base model, and the reported model is that curve plus the clipping of a negative base. If the base is not clipped (`|A| ≤ B`) the two
are equal at every phase, so the reported model is itself a best fit, and its average over the samples is the total error power. -/
theorem C50_curve (solve : Lstsq) (hs : IsLstsq solve) (n : ℕ) (x : ℕ → ℝ) (freq : Option ℝ) (nBins : ℤ) (maxIter : ℤ) (tol : ℝ) (r : PhaseBins)
    (h : rearrangeByPhase solve n x freq nBins true maxIter tol = .ok r) : ∃ A B : ℝ,
      (∀ a p c : ℝ, ∑ t ∈ range n, (r.err t ^ 2 - (A * Real.cos (2 * r.phase t) + B)) ^ 2 ≤ ∑ t ∈ range n, (r.err t ^ 2 - noiseCurve a p c (r.phase t)) ^ 2) ∧
      (∀ φ, noiseCurve r.coeffs.1 r.coeffs.2.1 r.coeffs.2.2 φ = A * Real.cos (2 * φ) + B + max 0 (|A| - B)) ∧
      (|A| ≤ B → (∀ φ, noiseCurve r.coeffs.1 r.coeffs.2.1 r.coeffs.2.2 φ = A * Real.cos (2 * φ) + B) ∧
        (0 < n → r.totalRms ^ 2 * n = ∑ t ∈ range n, noiseCurve r.coeffs.1 r.coeffs.2.1 r.coeffs.2.2 (r.phase t))) := by
  obtain ⟨_, idx, _, _, hv, _, _, _, _, _, htot, _⟩ := phase_ok solve n x freq nBins true maxIter tol r h
  set cols : List (ℕ → ℝ) := [fun t => Real.cos (2 * pmod (r.phase t) (2 * Real.pi)), fun _ => 1] with hcols
  set z := solve n cols (fun t => r.err t ^ 2) with hz
  have hmv : ∀ (w : List ℝ) (t : ℕ), matVec cols w t = w.getD 0 0 * Real.cos (2 * r.phase t) + w.getD 1 0 := by
    intro w t
    rw [hcols, cols2 (fun t => pmod (r.phase t) (2 * Real.pi)), pmod_cos2]
  have hcoef : r.coeffs = splitVar (z.getD 0 0) (z.getD 1 0) := by
    rw [hv]
    unfold phaseVars
    rw [if_pos rfl]
  have hcurve : ∀ φ, noiseCurve r.coeffs.1 r.coeffs.2.1 r.coeffs.2.2 φ = z.getD 0 0 * Real.cos (2 * φ) + z.getD 1 0 + max 0 (|z.getD 0 0| - z.getD 1 0) := by
    intro φ
    rw [hcoef]
    exact split_curve _ _ φ
  refine ⟨z.getD 0 0, z.getD 1 0, ?_, hcurve, ?_⟩
  · intro a p c
    have := lstsq_min solve hs n cols (fun t => r.err t ^ 2) [(a - p) / 2, (a + p) / 2 + c]
    simp only [← hz, hmv] at this
    refine le_trans this (le_of_eq ?_)
    apply sum_congr rfl
    intro t _
    rw [curve_cos2]
    simp
  · intro hAB
    have hc0 : ∀ φ, noiseCurve r.coeffs.1 r.coeffs.2.1 r.coeffs.2.2 φ = z.getD 0 0 * Real.cos (2 * φ) + z.getD 1 0 := by
      intro φ
      rw [hcurve, max_eq_left (by linarith), add_zero]
    refine ⟨hc0, fun hn => ?_⟩
    have hnR : (0 : ℝ) < n := by exact_mod_cast hn
    have := lstsq_orthogonal solve hs n cols (fun t => r.err t ^ 2) [0, 1] (by rw [hcols]; rfl)
    simp only [← hz, hmv] at this
    simp only [List.getD_cons_zero, List.getD_cons_succ, zero_mul, zero_add, mul_one, sum_sub_distrib] at this
    rw [htot, Real.sq_sqrt (by unfold colMean; exact div_nonneg (sum_nonneg fun t _ => sq_nonneg _) hnR.le)]
    unfold colMean
    rw [div_mul_cancel₀ _ hnR.ne', sum_congr rfl fun t _ => hc0 (r.phase t)]
    exact sub_eq_zero.mp this

/-- **C50 (recovery).** If the squared error follows an AM/PM/base model exactly and the samples see at least two different values of
`cos 2φ`, the part of AM and PM that they have in common is reported as base and the excess is reported as AM or PM. -/
theorem C50_recovery (solve : Lstsq) (hs : IsLstsq solve) (n : ℕ) (x : ℕ → ℝ) (freq : Option ℝ) (nBins : ℤ) (maxIter : ℤ) (tol : ℝ) (r : PhaseBins)
    (h : rearrangeByPhase solve n x freq nBins true maxIter tol = .ok r) (am pm c : ℝ) (ha : 0 ≤ am) (hp : 0 ≤ pm) (hc : 0 ≤ c)
    (hmodel : ∀ t < n, r.err t ^ 2 = noiseCurve am pm c (r.phase t)) (i j : ℕ) (hi : i < n) (hj : j < n)
    (hij : Real.cos (2 * r.phase i) ≠ Real.cos (2 * r.phase j)) :
    r.coeffs = (am - min am pm, pm - min am pm, c + min am pm) := by
  obtain ⟨_, idx, _, _, hv, _⟩ := phase_ok solve n x freq nBins true maxIter tol r h
  set cols : List (ℕ → ℝ) := [fun t => Real.cos (2 * pmod (r.phase t) (2 * Real.pi)), fun _ => 1] with hcols
  have hmv : ∀ (w : List ℝ) (t : ℕ), matVec cols w t = w.getD 0 0 * Real.cos (2 * r.phase t) + w.getD 1 0 := by
    intro w t
    rw [hcols, cols2 (fun t => pmod (r.phase t) (2 * Real.pi)), pmod_cos2]
  have huniq := lstsq_unique solve hs n cols (fun t => r.err t ^ 2) [(am - pm) / 2, (am + pm) / 2 + c]
    (by
      intro t ht
      rw [hmv, hmodel t ht, curve_cos2]
      simp)
    (by
      intro v hvz
      have e : ∀ t < n, v 0 * Real.cos (2 * r.phase t) + v 1 = 0 := by
        intro t ht
        have := hvz t ht
        rw [hcols] at this
        simp only [List.length_cons, List.length_nil, sum_range_succ, sum_range_zero, List.getD_cons_zero, List.getD_cons_succ, mul_one, zero_add] at this
        rwa [pmod_cos2] at this
      have e1 := e i hi
      have e2 := e j hj
      have h0 : v 0 = 0 := by
        have : v 0 * (Real.cos (2 * r.phase i) - Real.cos (2 * r.phase j)) = 0 := by linarith
        exact (mul_eq_zero.mp this).resolve_right (sub_ne_zero.mpr hij)
      have h1 : v 1 = 0 := by rw [h0] at e1; linarith
      intro k hk
      rw [hcols] at hk
      simp only [List.length_cons, List.length_nil] at hk
      interval_cases k
      · exact h0
      · exact h1)
  have z0 := huniq 0 (by rw [hcols]; simp)
  have z1 := huniq 1 (by rw [hcols]; simp)
  simp only [List.getD_cons_zero, List.getD_cons_succ] at z0 z1
  rw [hv]
  unfold phaseVars
  rw [if_pos rfl]
  simp only
  rw [← hcols, z0, z1]
  unfold splitVar
  by_cases hlt : pm < am
  · rw [if_pos (by linarith), min_eq_right hlt.le, max_eq_right (by linarith), max_eq_right (by linarith)]
    refine Prod.ext ?_ (Prod.ext ?_ ?_) <;> simp only <;> ring
  · rw [if_neg (by linarith)]
    by_cases hlt2 : am < pm
    · rw [if_pos (by linarith), min_eq_left hlt2.le, max_eq_right (by linarith), max_eq_right (by linarith)]
      refine Prod.ext ?_ (Prod.ext ?_ ?_) <;> simp only <;> ring
    · have : am = pm := by linarith
      subst this
      rw [if_neg (by linarith), min_self, max_eq_right (by linarith)]
      refine Prod.ext ?_ (Prod.ext ?_ ?_) <;> simp only <;> ring

/-- **C50 (no base noise).** Without the base term AM and PM are recovered exactly under the same condition. -/
theorem C50_recovery_no_base (solve : Lstsq) (hs : IsLstsq solve) (n : ℕ) (x : ℕ → ℝ) (freq : Option ℝ) (nBins : ℤ) (maxIter : ℤ) (tol : ℝ) (r : PhaseBins)
    (h : rearrangeByPhase solve n x freq nBins false maxIter tol = .ok r) (am pm : ℝ) (ha : 0 ≤ am) (hp : 0 ≤ pm)
    (hmodel : ∀ t < n, r.err t ^ 2 = noiseCurve am pm 0 (r.phase t)) (i j : ℕ) (hi : i < n) (hj : j < n)
    (hij : Real.cos (2 * r.phase i) ≠ Real.cos (2 * r.phase j)) :
    r.coeffs = (am, pm, 0) := by
  obtain ⟨_, idx, _, _, hv, _⟩ := phase_ok solve n x freq nBins false maxIter tol r h
  have hn2 : ¬ n < 2 := by
    intro hn
    have : i = j := by omega
    exact hij (by rw [this])
  set cols : List (ℕ → ℝ) := [fun t => Real.cos (pmod (r.phase t) (2 * Real.pi)) ^ 2, fun t => Real.sin (pmod (r.phase t) (2 * Real.pi)) ^ 2] with hcols
  have hmv : ∀ (w : List ℝ) (t : ℕ), matVec cols w t = w.getD 0 0 * Real.cos (r.phase t) ^ 2 + w.getD 1 0 * Real.sin (r.phase t) ^ 2 := by
    intro w t
    rw [hcols, cols2' (fun t => pmod (r.phase t) (2 * Real.pi)), pmod_cos, pmod_sin]
  have huniq := lstsq_unique solve hs n cols (fun t => r.err t ^ 2) [am, pm]
    (by
      intro t ht
      rw [hmv, hmodel t ht]
      unfold noiseCurve
      simp)
    (by
      intro v hvz
      have e : ∀ t < n, (v 0 - v 1) / 2 * Real.cos (2 * r.phase t) + (v 0 + v 1) / 2 = 0 := by
        intro t ht
        have := hvz t ht
        rw [hcols] at this
        simp only [List.length_cons, List.length_nil, sum_range_succ, sum_range_zero, List.getD_cons_zero, List.getD_cons_succ, zero_add] at this
        rw [pmod_cos, pmod_sin] at this
        have e2 := curve_cos2 (v 0) (v 1) 0 (r.phase t)
        unfold noiseCurve at e2
        linarith
      have e1 := e i hi
      have e2 := e j hj
      have h0 : (v 0 - v 1) / 2 = 0 := by
        have : (v 0 - v 1) / 2 * (Real.cos (2 * r.phase i) - Real.cos (2 * r.phase j)) = 0 := by linarith
        exact (mul_eq_zero.mp this).resolve_right (sub_ne_zero.mpr hij)
      have h1 : (v 0 + v 1) / 2 = 0 := by rw [h0] at e1; linarith
      intro k hk
      rw [hcols] at hk
      simp only [List.length_cons, List.length_nil] at hk
      interval_cases k <;> linarith)
  have z0 := huniq 0 (by rw [hcols]; simp)
  have z1 := huniq 1 (by rw [hcols]; simp)
  simp only [List.getD_cons_zero, List.getD_cons_succ] at z0 z1
  rw [hv]
  unfold phaseVars fitErrorPhase phaseCols
  rw [if_neg (by simp), if_neg hn2]
  simp only [Bool.false_eq_true, if_false, List.append_nil]
  rw [← hcols, z0, z1, max_eq_right ha, max_eq_right hp, max_eq_right ha, max_eq_right hp]

/-- **C50 (phase bins).** Every sample is counted in one of the `n_bins` phase bins and its wrapped phase is within half a bin of the bin's
centre; the per-bin statistics are conservative. -/
theorem C50_bins (solve : Lstsq) (n : ℕ) (x : ℕ → ℝ) (freq : Option ℝ) (nBins : ℤ) (base : Bool) (maxIter : ℤ) (tol : ℝ) (r : PhaseBins)
    (h : rearrangeByPhase solve n x freq nBins base maxIter tol = .ok r) :
    Conserves n nBins.toNat (fun _ => True) r.err r.count r.mean r.rms ∧ ∑ b ∈ range nBins.toNat, r.count b = n ∧
    (∀ t < n, ∃ b < nBins.toNat, 0 < r.count b ∧ ∃ k : ℤ, |r.phase t - k * (2 * Real.pi) - r.centers b| ≤ Real.pi / nBins) := by
  obtain ⟨hb, idx, hidx, _, _, _, _, _, _, _, _, _, _, hcnt, hmean, hrms, hcen⟩ := phase_ok solve n x freq nBins base maxIter tol r h
  obtain ⟨m, hm⟩ : ∃ m : ℕ, nBins = m + 1 := ⟨(nBins - 1).toNat, by omega⟩
  subst hm
  have hnb : ((m : ℤ) + 1).toNat = m + 1 := by omega
  simp only [hnb] at hidx hcen ⊢
  have hlt : ∀ t, idx t < m + 1 := by
    intro t
    rw [hidx]
    unfold phaseIndex
    have := clip_mem (x := ⌊pmod (r.phase t) (2 * Real.pi) / (2 * Real.pi / (m + 1 : ℕ))⌋) (lo := 0) (hi := (((m + 1 : ℕ) : ℤ) - 1)) (by push_cast; omega)
    omega
  have hbc := bins_conserve n (m + 1) idx (fun _ => true) r.err (fun t _ _ => hlt t)
  have hcons : Conserves n (m + 1) (fun _ => True) r.err r.count r.mean r.rms := by
    rw [hcnt, hmean, hrms]
    have hf : (range n).filter (fun _ => True) = (range n).filter fun t => (fun _ => true) t = true := by simp
    refine ⟨?_, ?_, ?_, hbc.nan, hbc.le⟩
    · rw [hf]; exact hbc.total
    · rw [hf]; exact hbc.sum
    · rw [hf]; exact hbc.sumSq
  refine ⟨hcons, ?_, ?_⟩
  · rw [hcons.total]
    simp
  · intro t ht
    refine ⟨idx t, hlt t, ?_, ⌊r.phase t / (2 * Real.pi)⌋, ?_⟩
    · rw [hcnt]
      unfold binCount
      rw [card_pos]
      exact ⟨t, by simp [ht]⟩
    · have hpi := Real.pi_pos
      set φ := pmod (r.phase t) (2 * Real.pi) with hφ
      have hφ0 : 0 ≤ φ := pmod_nonneg _ (by positivity)
      have hφ1 : φ < 2 * Real.pi := pmod_lt _ (by positivity)
      have hφe : r.phase t - (⌊r.phase t / (2 * Real.pi)⌋ : ℝ) * (2 * Real.pi) = φ := by rw [hφ]; unfold pmod; ring
      set w := 2 * Real.pi / ((m + 1 : ℕ) : ℝ) with hw
      have hm1 : (0 : ℝ) < ((m + 1 : ℕ) : ℝ) := by positivity
      have hw0 : 0 < w := by positivity
      have hfl0 : 0 ≤ ⌊φ / w⌋ := Int.floor_nonneg.mpr (by positivity)
      have hfl1 : ⌊φ / w⌋ < ((m + 1 : ℕ) : ℤ) := by
        rw [Int.floor_lt, div_lt_iff₀ hw0, hw]
        push_cast
        push_cast at hm1
        rw [mul_div_cancel₀ _ hm1.ne']
        exact hφ1
      have hix : ((idx t : ℕ) : ℝ) = (⌊φ / w⌋ : ℝ) := by
        rw [hidx]
        unfold phaseIndex
        rw [← hφ, ← hw, clip_of_mem hfl0 (by omega)]
        exact_mod_cast Int.toNat_of_nonneg hfl0
      have e1 := Int.floor_le (φ / w)
      have e2 := Int.lt_floor_add_one (φ / w)
      rw [le_div_iff₀ hw0] at e1
      rw [div_lt_iff₀ hw0] at e2
      rw [hφe, hcen]
      unfold phaseCenter
      rw [← hw, hix]
      have hhalf : Real.pi / (((m : ℤ) + 1 : ℤ) : ℝ) = w / 2 := by rw [hw]; push_cast; ring
      rw [hhalf, abs_le]
      constructor <;> nlinarith

/-- Phase `φ` lies in slot `b` of `nb` equal slots of the circle (specification). -/
def InSlot (nb b : ℕ) (φ : ℝ) : Prop := ∃ k : ℤ, (b : ℝ) * (2 * Real.pi / nb) ≤ φ - k * (2 * Real.pi) ∧ φ - k * (2 * Real.pi) < ((b : ℝ) + 1) * (2 * Real.pi / nb)

theorem slot_iff (nb b : ℕ) (hb : b < nb) (φ : ℝ) : phaseIndex nb (pmod φ (2 * Real.pi)) = b ↔ InSlot nb b φ := by
  have hpi := Real.pi_pos
  have hnb : (0 : ℝ) < nb := by exact_mod_cast (by omega : 0 < nb)
  set w := 2 * Real.pi / (nb : ℝ) with hw
  have hw0 : 0 < w := by positivity
  have hwn : nb * w = 2 * Real.pi := by rw [hw]; field_simp
  have hφ0 : 0 ≤ pmod φ (2 * Real.pi) := pmod_nonneg _ (by positivity)
  have hφ1 : pmod φ (2 * Real.pi) < 2 * Real.pi := pmod_lt _ (by positivity)
  have hfl0 : 0 ≤ ⌊pmod φ (2 * Real.pi) / w⌋ := Int.floor_nonneg.mpr (by positivity)
  have hfl1 : ⌊pmod φ (2 * Real.pi) / w⌋ < (nb : ℤ) := by
    rw [Int.floor_lt, div_lt_iff₀ hw0]
    push_cast
    rw [hwn]
    exact hφ1
  have hidx : phaseIndex nb (pmod φ (2 * Real.pi)) = b ↔ ⌊pmod φ (2 * Real.pi) / w⌋ = b := by
    unfold phaseIndex
    rw [← hw, clip_of_mem hfl0 (by omega)]
    omega
  rw [hidx, Int.floor_eq_iff, le_div_iff₀ hw0, div_lt_iff₀ hw0]
  unfold InSlot
  rw [← hw]
  push_cast
  have hpm : pmod φ (2 * Real.pi) = φ - (⌊φ / (2 * Real.pi)⌋ : ℝ) * (2 * Real.pi) := by unfold pmod; ring
  constructor
  · rintro ⟨h1, h2⟩
    exact ⟨_, by rw [← hpm]; exact h1, by rw [← hpm]; exact h2⟩
  · rintro ⟨k, h1, h2⟩
    have hb1 : ((b : ℝ) + 1) ≤ nb := by exact_mod_cast hb
    have h3 : 0 ≤ φ - k * (2 * Real.pi) := le_trans (by positivity) h1
    have h4 : φ - k * (2 * Real.pi) < 2 * Real.pi := lt_of_lt_of_le h2 (by rw [← hwn]; exact mul_le_mul_of_nonneg_right hb1 hw0.le)
    have hk : ⌊φ / (2 * Real.pi)⌋ = k := by
      rw [Int.floor_eq_iff, le_div_iff₀ (by positivity), div_lt_iff₀ (by positivity)]
      constructor <;> linarith
    rw [hpm, hk]
    exact ⟨h1, h2⟩

open Classical in
/-- **C50 (members of a bin).** The statistics of a bin are those of exactly the samples whose phase, up to whole turns, lies in the bin's slot: their number, the mean and the
root mean square of their errors, and nothing (NaN) when there are none. -/
theorem C50_bin_members (solve : Lstsq) (n : ℕ) (x : ℕ → ℝ) (freq : Option ℝ) (nBins : ℕ) (base : Bool) (maxIter : ℤ) (tol : ℝ) (r : PhaseBins)
    (h : rearrangeByPhase solve n x freq nBins base maxIter tol = .ok r) (b : ℕ) (hb : b < nBins) :
    r.count b = ((range n).filter fun t => InSlot nBins b (r.phase t)).card ∧
    (((range n).filter fun t => InSlot nBins b (r.phase t)).Nonempty →
      r.mean b = some ((∑ t ∈ (range n).filter fun t => InSlot nBins b (r.phase t), r.err t) / ((range n).filter fun t => InSlot nBins b (r.phase t)).card) ∧
      r.rms b = some (Real.sqrt ((∑ t ∈ (range n).filter fun t => InSlot nBins b (r.phase t), r.err t ^ 2) / ((range n).filter fun t => InSlot nBins b (r.phase t)).card))) ∧
    ((range n).filter (fun t => InSlot nBins b (r.phase t)) = ∅ → r.mean b = none ∧ r.rms b = none) := by
  obtain ⟨_, idx, hidx, _, _, _, _, _, _, _, _, _, _, hcnt, hmean, hrms, _⟩ := phase_ok solve n x freq nBins base maxIter tol r h
  rw [Int.toNat_natCast] at hidx
  have hS : ((range n).filter fun t => (fun _ : ℕ => true) t = true ∧ idx t = b) = (range n).filter fun t => InSlot nBins b (r.phase t) := by
    apply filter_congr
    intro t _
    rw [hidx, slot_iff nBins b hb]
    simp
  rw [hcnt, hmean, hrms]
  unfold binMean binRms binSum binCount
  rw [hS]
  generalize (range n).filter (fun t => InSlot nBins b (r.phase t)) = S
  refine ⟨rfl, ?_, ?_⟩
  · intro hne
    rw [if_pos (card_pos.mpr hne), if_pos (card_pos.mpr hne)]
    exact ⟨rfl, rfl⟩
  · rintro rfl
    simp

example : InSlot 4 1 (2 + 2 * Real.pi) := by
  refine ⟨1, ?_, ?_⟩
  · have := Real.pi_lt_d2
    norm_num
    linarith
  · have := Real.pi_gt_three
    norm_num
    linarith

/-- **C50 (goodness of fit).** Both coefficients of determination are at most one; with base noise the raw one is also non-negative. -/
theorem C50_r_squared (solve : Lstsq) (hs : IsLstsq solve) (n : ℕ) (x : ℕ → ℝ) (freq : Option ℝ) (nBins : ℤ) (base : Bool) (maxIter : ℤ) (tol : ℝ) (r : PhaseBins)
    (h : rearrangeByPhase solve n x freq nBins base maxIter tol = .ok r) : r.r2Raw ≤ 1 ∧ r.r2Binned ≤ 1 ∧ (base = true → 0 ≤ r.r2Raw) := by
  obtain ⟨_, idx, _, _, _, _, _, _, _, _, _, hraw, hbin, _⟩ := phase_ok solve n x freq nBins base maxIter tol r h
  refine ⟨?_, ?_, ?_⟩
  · rw [hraw]
    unfold fitErrorPhase
    by_cases hn : n < 2
    · rw [if_pos hn]; exact zero_le_one
    rw [if_neg hn]
    simp only
    unfold rSquared
    split_ifs with ht
    · have : 0 ≤ (∑ t ∈ range n, (r.err t ^ 2 - matVec (phaseCols (fun t => pmod (r.phase t) (2 * Real.pi)) base)
          (solve n (phaseCols (fun t => pmod (r.phase t) (2 * Real.pi)) base) fun t => r.err t ^ 2) t) ^ 2) / ∑ t ∈ range n, (r.err t ^ 2 - colMean n fun t => r.err t ^ 2) ^ 2 :=
        div_nonneg (sum_nonneg fun t _ => sq_nonneg _) (sum_nonneg fun t _ => sq_nonneg _)
      linarith
    · exact zero_le_one
  · rw [hbin]
    unfold rSquaredBinned
    simp only
    split_ifs with h1 h2
    · have : ∀ a b : ℝ, 0 ≤ a → 0 ≤ b → 1 - a / b ≤ 1 := fun a b ha hb => by have := div_nonneg ha hb; linarith
      exact this _ _ (sum_nonneg fun t _ => sq_nonneg _) (sum_nonneg fun t _ => sq_nonneg _)
    · exact max_le zero_le_one (by have := sq_nonneg (Real.sqrt ((∑ b ∈ (range nBins.toNat).filter fun b => 0 < r.count b,
        (((r.rms b).getD 0) ^ 2 - (r.coeffs.1 * Real.cos (phaseCenter nBins.toNat b) ^ 2 + r.coeffs.2.1 * Real.sin (phaseCenter nBins.toNat b) ^ 2 + r.coeffs.2.2)) ^ 2) /
          ((range nBins.toNat).filter fun b => 0 < r.count b).card) / ((∑ b ∈ (range nBins.toNat).filter fun b => 0 < r.count b, ((r.rms b).getD 0) ^ 2) /
          ((range nBins.toNat).filter fun b => 0 < r.count b).card)); linarith)
    · norm_num
    · exact zero_le_one
  · rintro rfl
    rw [hraw]
    unfold fitErrorPhase
    by_cases hn : n < 2
    · rw [if_pos hn]
    rw [if_neg hn]
    simp only
    unfold rSquared
    split_ifs with ht
    · have hpos : 0 < ∑ t ∈ range n, (r.err t ^ 2 - colMean n fun t => r.err t ^ 2) ^ 2 := lt_trans (by norm_num) ht
      rw [sub_nonneg, div_le_one hpos]
      have := lstsq_min solve hs n (phaseCols (fun t => pmod (r.phase t) (2 * Real.pi)) true) (fun t => r.err t ^ 2) [0, 0, colMean n fun t => r.err t ^ 2]
      refine le_trans this (le_of_eq ?_)
      apply sum_congr rfl
      intro t _
      congr 2
      unfold matVec phaseCols
      simp [sum_range_succ]
    · exact le_rfl

/-- **C50 (errors).** Zero bins raise `ZeroDivisionError`, a negative number `ValueError`; with a frequency and at least one bin the call
succeeds. -/
theorem C50_errors (solve : Lstsq) (n : ℕ) (x : ℕ → ℝ) (f : ℝ) (nBins : ℤ) (base : Bool) (maxIter : ℤ) (tol : ℝ) :
    (nBins = 0 → rearrangeByPhase solve n x (some f) nBins base maxIter tol = .error .zeroDivision) ∧
    (nBins < 0 → rearrangeByPhase solve n x (some f) nBins base maxIter tol = .error .valueError) ∧
    (0 < nBins → ∃ r, rearrangeByPhase solve n x (some f) nBins base maxIter tol = .ok r) := by
  unfold rearrangeByPhase fitCore
  refine ⟨fun h => ?_, fun h => ?_, fun h => ?_⟩
  · simp only [h, if_true]
  · simp only [h, if_true]
    rw [if_neg (by omega)]
  · simp only
    rw [if_neg (by omega), if_neg (by omega)]
    exact ⟨_, rfl⟩

/-- **C50 (phase reference).** The phase by which the samples are sorted is the phase of the fitted sine itself: the fitted record is the
offset plus the amplitude times its cosine, the phase advances by the same amount from sample to sample, and fitted record and error add up
to the input. So phase zero is the crest, where amplitude noise shows, and a quarter turn is the zero crossing, where phase noise shows. -/
theorem C50_phase_reference (solve : Lstsq) (n : ℕ) (x : ℕ → ℝ) (freq : Option ℝ) (nBins : ℤ) (base : Bool) (maxIter : ℤ) (tol : ℝ) (r : PhaseBins)
    (h : rearrangeByPhase solve n x freq nBins base maxIter tol = .ok r) :
    (∀ t, r.fitted t = r.dcOffset + r.amplitude * Real.cos (r.phase t)) ∧ 0 ≤ r.amplitude ∧ (∀ t, r.err t + r.fitted t = x t) ∧
    -Real.pi < r.phase 0 ∧ r.phase 0 ≤ Real.pi ∧ ∀ t, r.phase (t + 1) - r.phase t = r.phase 1 - r.phase 0 := by
  unfold rearrangeByPhase at h
  cases hf : fitCore solve n x freq maxIter tol with
  | error e => rw [hf] at h; cases h
  | ok fit =>
    rw [hf] at h
    simp only at h
    by_cases h0 : nBins = 0
    · rw [if_pos h0] at h; cases h
    rw [if_neg h0] at h
    by_cases h1 : nBins < 0
    · rw [if_pos h1] at h; cases h
    rw [if_neg h1] at h
    injection h with h
    subst h
    obtain ⟨_, hfit, hA, hp0, hp1, _⟩ := C58_decomposition solve n x freq maxIter tol fit hf
    refine ⟨fun t => ?_, hA, fun t => by simp, by simpa using hp0, by simpa using hp1, fun t => by simp only; push_cast; ring⟩
    simp only
    rw [hfit t]
    unfold sineAt
    ring

/-- **C50 (one tone).** For a pure tone at the given frequency the phases are those of the tone, the amplitude and offset are its own, and
the error and its RMS value are zero. -/
theorem C50_pure_tone (solve : Lstsq) (hs : IsLstsq solve) (n : ℕ) (hn : 5 ≤ n) (A f θ C : ℝ) (hA : 0 < A)
    (h0 : 1 / 10 ^ 10 ≤ f) (h1 : f ≤ 1 / 2 - 1 / 10 ^ 10) (ht0 : -Real.pi < θ) (ht1 : θ ≤ Real.pi) (x : ℕ → ℝ) (hx : ∀ t < n, x t = sineAt A f θ C t)
    (nBins : ℤ) (hb : 0 < nBins) (base : Bool) (maxIter : ℕ) (tol : ℝ) :
    ∃ r, rearrangeByPhase solve n x (some f) nBins base maxIter tol = .ok r ∧ r.amplitude = A ∧ r.dcOffset = C ∧
      (∀ t : ℕ, r.phase t = 2 * Real.pi * f * t + θ) ∧ (∀ t < n, r.err t = 0) ∧ r.totalRms = 0 := by
  obtain ⟨fit, hf, e1, e2, e3, e4, _, e5, _⟩ := C58_exact_recovery solve hs n hn A f θ C hA h0 h1 ht0 ht1 maxIter tol x hx
  unfold rearrangeByPhase
  rw [hf]
  simp only
  rw [if_neg (by omega), if_neg (by omega)]
  refine ⟨_, rfl, e2, e4, fun t => by simp only; rw [e1, e3], fun t ht => by simp only; rw [(e5 t ht).1, sub_self], ?_⟩
  simp only
  have : (colMean n fun t => (x t - fit.fitted t) ^ 2) = 0 := by
    unfold colMean
    rw [sum_eq_zero fun t ht => by rw [(e5 t (mem_range.mp ht)).1]; ring, zero_div]
  rw [this, Real.sqrt_zero]

/-- A tone with phase 1: the sort phase of sample 2 is `π/2 + 1`. -/
example (solve : Lstsq) (hs : IsLstsq solve) : ∃ r, rearrangeByPhase solve 16 (sineAt 3 (1 / 8) 1 2) (some (1 / 8)) 4 true (1 : ℕ) (1 / 10 ^ 9) = .ok r ∧
    r.amplitude = 3 ∧ r.phase 2 = Real.pi / 2 + 1 ∧ r.totalRms = 0 := by
  obtain ⟨r, hr, h1, _, h3, _, h5⟩ := C50_pure_tone solve hs 16 (by norm_num) 3 (1 / 8) 1 2 (by norm_num) (by norm_num) (by norm_num)
    (by linarith [Real.two_le_pi]) (by linarith [Real.two_le_pi]) (sineAt 3 (1 / 8) 1 2) (fun _ _ => rfl) 4 (by norm_num) true 1 (1 / 10 ^ 9)
  refine ⟨r, hr, h1, ?_, h5⟩
  rw [h3]
  push_cast
  ring

/-- **C50 (sine plus noise).** The same stated on the record itself: a sine plus an error that the sine fit cannot absorb and whose square
follows an AM/PM/base model is split into the sine and the error, and the parts of the model are recovered. -/
theorem C50_sine_plus_noise (solve : Lstsq) (hs : IsLstsq solve) (n : ℕ) (hn : 5 ≤ n) (A f θ C : ℝ) (hA : 0 < A)
    (h0 : 1 / 10 ^ 10 ≤ f) (h1 : f ≤ 1 / 2 - 1 / 10 ^ 10) (ht0 : -Real.pi < θ) (ht1 : θ ≤ Real.pi) (x e : ℕ → ℝ) (hx : ∀ t < n, x t = sineAt A f θ C t + e t)
    (maxIter : ℕ) (tol : ℝ) (e0 : ∑ t ∈ range n, e t = 0) (e1 : ∑ t ∈ range n, e t * Real.cos (2 * Real.pi * f * t) = 0)
    (e2 : ∑ t ∈ range n, e t * Real.sin (2 * Real.pi * f * t) = 0) (he : 0 < maxIter → Spec.Unfittable n f e)
    (am pm c : ℝ) (ha : 0 ≤ am) (hp : 0 ≤ pm) (hc : 0 ≤ c) (hmodel : ∀ t < n, e t ^ 2 = noiseCurve am pm c (2 * Real.pi * f * t + θ))
    (i j : ℕ) (hi : i < n) (hj : j < n) (hij : Real.cos (2 * (2 * Real.pi * f * i + θ)) ≠ Real.cos (2 * (2 * Real.pi * f * j + θ)))
    (nBins : ℤ) (hb : 0 < nBins) :
    (∃ r, rearrangeByPhase solve n x (some f) nBins true maxIter tol = .ok r ∧ r.amplitude = A ∧ r.dcOffset = C ∧
      (∀ t : ℕ, r.phase t = 2 * Real.pi * f * t + θ) ∧ (∀ t < n, r.err t = e t) ∧
      r.coeffs = (am - min am pm, pm - min am pm, c + min am pm)) ∧
    (c = 0 → ∃ r, rearrangeByPhase solve n x (some f) nBins false maxIter tol = .ok r ∧ r.amplitude = A ∧ r.dcOffset = C ∧
      (∀ t : ℕ, r.phase t = 2 * Real.pi * f * t + θ) ∧ (∀ t < n, r.err t = e t) ∧ r.coeffs = (am, pm, 0)) := by
  obtain ⟨fit, hf, f1, f2, f3, f4, f5, _⟩ := C58_sine_plus_error solve hs n hn A f θ C hA h0 h1 ht0 ht1 maxIter tol x e hx e0 e1 e2 he
  have key : ∀ base, ∃ r, rearrangeByPhase solve n x (some f) nBins base maxIter tol = .ok r ∧ r.amplitude = A ∧ r.dcOffset = C ∧
      (∀ t : ℕ, r.phase t = 2 * Real.pi * f * t + θ) ∧ (∀ t < n, r.err t = e t) := by
    intro base
    unfold rearrangeByPhase
    rw [hf]
    simp only
    rw [if_neg (by omega), if_neg (by omega)]
    refine ⟨_, rfl, f2, f4, fun t => by simp only; rw [f1, f3], fun t ht => ?_⟩
    simp only
    rw [(f5 t ht).1, hx t ht, add_sub_cancel_left]
  constructor
  · obtain ⟨r, hr, r1, r2, r3, r4⟩ := key true
    refine ⟨r, hr, r1, r2, r3, r4, C50_recovery solve hs n x _ nBins _ tol r hr am pm c ha hp hc ?_ i j hi hj ?_⟩
    · intro t ht
      rw [r4 t ht, r3, hmodel t ht]
    · rw [r3, r3]
      exact hij
  · rintro rfl
    obtain ⟨r, hr, r1, r2, r3, r4⟩ := key false
    refine ⟨r, hr, r1, r2, r3, r4, C50_recovery_no_base solve hs n x _ nBins _ tol r hr am pm ha hp ?_ i j hi hj ?_⟩
    · intro t ht
      rw [r4 t ht, r3, hmodel t ht]
    · rw [r3, r3]
      exact hij

/-- An amplitude error on the even samples, with signs that a sine of a quarter of the sample rate cannot follow. -/
def amError (ε : ℝ) (t : ℕ) : ℝ := if t % 8 = 0 ∨ t % 8 = 2 then ε else if t % 8 = 4 ∨ t % 8 = 6 then -ε else 0

private theorem quarter_cos (m : ℕ) : Real.cos (2 * Real.pi * (1 / 4) * ((2 * m : ℕ) : ℝ)) = (-1) ^ m := by
  rw [← Real.cos_nat_mul_pi]
  congr 1
  push_cast
  ring

private theorem quarter_sin (m : ℕ) : Real.sin (2 * Real.pi * (1 / 4) * ((2 * m : ℕ) : ℝ)) = 0 := by
  rw [← Real.sin_nat_mul_pi m]
  congr 1
  push_cast
  ring

private theorem quarter_cos_odd (m : ℕ) : Real.cos (2 * Real.pi * (1 / 4) * ((2 * m + 1 : ℕ) : ℝ)) = 0 := by
  rw [Real.cos_eq_zero_iff]
  exact ⟨m, by push_cast; ring⟩

/-- The amplitude error is invisible to the sine fit and follows the AM curve. -/
theorem am_error_facts (ε : ℝ) : ∑ t ∈ range 16, amError ε t = 0 ∧ ∑ t ∈ range 16, amError ε t * Real.cos (2 * Real.pi * (1 / 4) * t) = 0 ∧
    ∑ t ∈ range 16, amError ε t * Real.sin (2 * Real.pi * (1 / 4) * t) = 0 ∧
    ∀ t < 16, amError ε t ^ 2 = noiseCurve (ε ^ 2) 0 0 (2 * Real.pi * (1 / 4) * t + 0) := by
  refine ⟨?_, ?_, ?_, ?_⟩
  · simp [sum_range_succ, amError]
  · have h := fun m => quarter_cos m
    have a0 := h 0
    have a1 := h 1
    have a2 := h 2
    have a3 := h 3
    have a4 := h 4
    have a5 := h 5
    have a6 := h 6
    have a7 := h 7
    norm_num only [] at a0 a1 a2 a3 a4 a5 a6 a7
    simp only [sum_range_succ, sum_range_zero, amError]
    norm_num
    norm_num at a0 a1 a2 a3 a4 a5 a6 a7
    simp only [a0, a1, a2, a3, a4, a5, a6, a7]
    ring
  · apply sum_eq_zero
    intro t _
    rcases Nat.even_or_odd' t with ⟨m, rfl | rfl⟩
    · rw [quarter_sin, mul_zero]
    · have : amError ε (2 * m + 1) = 0 := by
        unfold amError
        rw [if_neg (by omega), if_neg (by omega)]
      rw [this, zero_mul]
  · intro t _
    unfold noiseCurve
    simp only [add_zero]
    rcases Nat.even_or_odd' t with ⟨m, rfl | rfl⟩
    · rw [quarter_cos, ← pow_mul, mul_comm m 2, pow_mul]
      unfold amError
      rcases (by omega : (2 * m % 8 = 0 ∨ 2 * m % 8 = 2) ∨ (2 * m % 8 = 4 ∨ 2 * m % 8 = 6)) with h | h
      · rw [if_pos h]; norm_num
      · rw [if_neg (by omega), if_pos h]; norm_num
    · rw [quarter_cos_odd]
      have : amError ε (2 * m + 1) = 0 := by
        unfold amError
        rw [if_neg (by omega), if_neg (by omega)]
      rw [this]
      ring

/-- A carrier of amplitude 1 with an amplitude error of 1/10: the AM part is 1/100, the rest is zero. -/
theorem am_record (solve : Lstsq) (hs : IsLstsq solve) : ∃ r, rearrangeByPhase solve 16 (fun t => sineAt 1 (1 / 4) 0 0 t + amError (1 / 10) t) (some (1 / 4)) 8 true (0 : ℕ) 0 = .ok r ∧
    r.amplitude = 1 ∧ (∀ t : ℕ, r.phase t = 2 * Real.pi * (1 / 4) * t + 0) ∧ (∀ t < 16, r.err t = amError (1 / 10) t) ∧ r.coeffs = ((1 / 10) ^ 2, 0, 0) := by
  obtain ⟨a0, a1, a2, a3⟩ := am_error_facts (1 / 10)
  obtain ⟨r, hr, r1, _, r3, r4, r5⟩ := (C50_sine_plus_noise solve hs 16 (by norm_num) 1 (1 / 4) 0 0 (by norm_num) (by norm_num) (by norm_num)
    (by linarith [Real.two_le_pi]) (by linarith [Real.two_le_pi]) _ (amError (1 / 10)) (fun _ _ => rfl) 0 0 a0 a1 a2 (fun h => absurd h (by omega))
    ((1 / 10) ^ 2) 0 0 (by norm_num) le_rfl le_rfl a3 0 1 (by norm_num) (by norm_num)
    (by
      have e1 : (2 * (2 * Real.pi * (1 / 4) * ((0 : ℕ) : ℝ) + 0)) = 0 := by norm_num
      have e2 : (2 * (2 * Real.pi * (1 / 4) * ((1 : ℕ) : ℝ) + 0)) = Real.pi := by push_cast; ring
      rw [e1, e2, Real.cos_zero, Real.cos_pi]
      norm_num) 8 (by norm_num)).1
  refine ⟨r, hr, r1, r3, r4, ?_⟩
  rw [r5, min_eq_right (by norm_num)]
  norm_num

/-- A call that succeeds. -/
example (solve : Lstsq) (hs : IsLstsq solve) (x : ℕ → ℝ) : ∃ r, rearrangeByPhase solve 8 x (some (1 / 8)) 4 true 1 (1 / 10 ^ 9) = .ok r ∧
    ∑ b ∈ range 4, r.count b = 8 ∧ 0 ≤ r.r2Raw := by
  obtain ⟨r, hr⟩ := (C50_errors solve 8 x (1 / 8) 4 true 1 (1 / 10 ^ 9)).2.2 (by norm_num)
  exact ⟨r, hr, (C50_bins _ _ _ _ _ _ _ _ _ hr).2.1, (C50_r_squared _ hs _ _ _ _ _ _ _ _ hr).2.2 rfl⟩

end Verif
