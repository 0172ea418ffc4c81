import Verif.Model.ErrorPdf
import Verif.Theorems.SineFit
import Mathlib.Probability.Distributions.Gaussian.Real

/-!
# C79: error distribution
-/

namespace Verif

open Model Finset ProbabilityTheory

namespace Spec

/-- Mean of the normal densities with variance `w` around `e 0, …, e (n-1)`. -/
noncomputable def mixture (n : ℕ) (e : ℕ → ℝ) (w : NNReal) (v : ℝ) : ℝ := (∑ t ∈ range n, gaussianPDFReal (e t) w v) / n

end Spec

theorem sampleStd_nonneg (n : ℕ) (e : ℕ → ℝ) : 0 ≤ sampleStd n e := Real.sqrt_nonneg _

theorem gauss_eq (mu s v : ℝ) (hs : 0 < s) : gaussAt mu s v = gaussianPDFReal mu (Real.toNNReal (s ^ 2)) v := by
  unfold gaussAt gaussianPDFReal
  rw [Real.coe_toNNReal _ (sq_nonneg s)]
  rw [show 2 * Real.pi * s ^ 2 = s ^ 2 * (2 * Real.pi) by ring, Real.sqrt_mul (sq_nonneg s), Real.sqrt_sq hs.le, one_div]

theorem kde_eq (n : ℕ) (e : ℕ → ℝ) (h v : ℝ) (hh : 0 < h) : kdeAt n e h v = Spec.mixture n e (Real.toNNReal (h ^ 2)) v := by
  unfold kdeAt Spec.mixture
  have : ∀ t, gaussianPDFReal (e t) (Real.toNNReal (h ^ 2)) v = Real.exp (-(1 / 2) * ((v - e t) / h) ^ 2) * (1 / (h * Real.sqrt (2 * Real.pi))) := by
    intro t
    rw [← gauss_eq _ _ _ hh]
    unfold gaussAt
    rw [mul_comm]
    congr 2
    rw [div_pow]
    field_simp
  simp only [this]
  rw [← sum_mul]
  ring

theorem analyzeErrorPdf_ok (solve : Lstsq) (n : ℕ) (y : ℕ → ℝ) (res : ℕ) (fs freq : Option ℝ) (maxIter : ℤ) (tol : ℝ) (r : ErrorPdf)
    (h : analyzeErrorPdf solve n y res fs freq maxIter tol = .ok r) :
    ∃ fit, fitCore solve n y freq maxIter tol = .ok fit ∧
      r = errorPdfCore n fun t => (y t - fit.fitted t) / (fs.getD (recMax n y - recMin n y) / 2 ^ res) := by
  unfold analyzeErrorPdf at h
  cases hf : fitCore solve n y freq maxIter tol with
  | error e => rw [hf] at h; cases h
  | ok fit =>
    rw [hf] at h
    injection h with h
    exact ⟨fit, rfl, h.symm⟩

/-- **C79 (LSB units).** The reported error times the LSB size is the deviation from the fitted sine, and `mu` and `sigma` are its mean and sample standard
deviation. -/
theorem C79_units (solve : Lstsq) (n : ℕ) (y : ℕ → ℝ) (res : ℕ) (fs : ℝ) (hfs : fs ≠ 0) (freq : Option ℝ) (maxIter : ℤ) (tol : ℝ) (r : ErrorPdf)
    (h : analyzeErrorPdf solve n y res (some fs) freq maxIter tol = .ok r) :
    (∃ fit, fitCore solve n y freq maxIter tol = .ok fit ∧ ∀ t, r.errLsb t * (fs / 2 ^ res) = y t - fit.fitted t) ∧
    (0 < n → n * r.mu = ∑ t ∈ range n, r.errLsb t) ∧ (2 ≤ n → ((n : ℝ) - 1) * r.sigma ^ 2 = ∑ t ∈ range n, (r.errLsb t - r.mu) ^ 2) ∧ 0 ≤ r.sigma := by
  obtain ⟨fit, hf, rfl⟩ := analyzeErrorPdf_ok solve n y res (some fs) freq maxIter tol r h
  refine ⟨⟨fit, hf, fun t => ?_⟩, fun hn => ?_, fun hn => ?_, sampleStd_nonneg _ _⟩
  · simp only [errorPdfCore, Option.getD_some]
    have : (2 : ℝ) ^ res ≠ 0 := by positivity
    field_simp
  · have : (n : ℝ) ≠ 0 := by exact_mod_cast hn.ne'
    simp only [errorPdfCore, colMean]
    exact mul_div_cancel₀ _ this
  · have : (0 : ℝ) < (n : ℝ) - 1 := by
      have : (2 : ℝ) ≤ n := by exact_mod_cast hn
      linarith
    simp only [errorPdfCore, sampleStd]
    rw [Real.sq_sqrt (div_nonneg (sum_nonneg fun t _ => sq_nonneg _) this.le)]
    exact mul_div_cancel₀ _ this.ne'

/-- **C79 (resolution).** One more bit of resolution doubles the error in LSB, its mean and its spread; the record is otherwise treated the same. -/
theorem C79_resolution (solve : Lstsq) (n : ℕ) (y : ℕ → ℝ) (res : ℕ) (fs freq : Option ℝ) (maxIter : ℤ) (tol : ℝ) (r r' : ErrorPdf)
    (h : analyzeErrorPdf solve n y res fs freq maxIter tol = .ok r) (h' : analyzeErrorPdf solve n y (res + 1) fs freq maxIter tol = .ok r') :
    (∀ t, r'.errLsb t = 2 * r.errLsb t) ∧ r'.mu = 2 * r.mu ∧ r'.sigma = 2 * r.sigma := by
  obtain ⟨fit, hf, rfl⟩ := analyzeErrorPdf_ok _ _ _ _ _ _ _ _ _ h
  obtain ⟨fit', hf', rfl⟩ := analyzeErrorPdf_ok _ _ _ _ _ _ _ _ _ h'
  rw [hf] at hf'
  injection hf' with hf'
  subst hf'
  set F := fs.getD (recMax n y - recMin n y)
  have he : (fun t => (y t - fit.fitted t) / (F / 2 ^ (res + 1))) = fun t => 2 * ((y t - fit.fitted t) / (F / 2 ^ res)) := by
    funext t
    rw [pow_succ, div_div_eq_mul_div, div_div_eq_mul_div]
    ring
  set e := fun t => (y t - fit.fitted t) / (F / 2 ^ res)
  have hm : colMean n (fun t => 2 * e t) = 2 * colMean n e := by
    unfold colMean
    rw [← mul_sum]
    ring
  rw [he]
  refine ⟨fun t => rfl, hm, ?_⟩
  simp only [errorPdfCore, sampleStd]
  rw [hm]
  have : ∑ t ∈ range n, (2 * e t - 2 * colMean n e) ^ 2 = 2 ^ 2 * ∑ t ∈ range n, (e t - colMean n e) ^ 2 := by
    rw [mul_sum]
    apply sum_congr rfl
    intro t _
    ring
  rw [this, mul_div_assoc, Real.sqrt_mul (by positivity), Real.sqrt_sq (by norm_num)]

/-- **C79 (densities).** When the error has any spread, the returned values are samples of genuine probability densities: the estimate is the equal mixture of
normal densities around the errors with Silverman's width, the reference is the normal density with the reported mean and deviation; both integrate to one. -/
theorem C79_densities (solve : Lstsq) (n : ℕ) (hn : 0 < n) (y : ℕ → ℝ) (res : ℕ) (fs freq : Option ℝ) (maxIter : ℤ) (tol : ℝ) (r : ErrorPdf)
    (h : analyzeErrorPdf solve n y res fs freq maxIter tol = .ok r) (hs : r.sigma ≠ 0) :
    ∃ w u : NNReal, w ≠ 0 ∧ u ≠ 0 ∧ (u : ℝ) = r.sigma ^ 2 ∧ (w : ℝ) = (106 / 100 * r.sigma * (n : ℝ) ^ (-(1 : ℝ) / 5)) ^ 2 ∧
      (∀ i, r.pdf i = some (Spec.mixture n r.errLsb w (r.x i)) ∧ 0 < Spec.mixture n r.errLsb w (r.x i)) ∧
      (∀ i, r.gauss i = some (gaussianPDFReal r.mu u (r.x i))) ∧
      ∫ v, Spec.mixture n r.errLsb w v = 1 ∧ ∫ v, gaussianPDFReal r.mu u v = 1 := by
  obtain ⟨fit, hf, rfl⟩ := analyzeErrorPdf_ok _ _ _ _ _ _ _ _ _ h
  set e := fun t => (y t - fit.fitted t) / (fs.getD (recMax n y - recMin n y) / 2 ^ res)
  have hs' : 0 < sampleStd n e := lt_of_le_of_ne (sampleStd_nonneg n e) (Ne.symm hs)
  have hnr : (0 : ℝ) < n := by exact_mod_cast hn
  have hh : 0 < silverman n e := by
    unfold silverman
    have := Real.rpow_pos_of_pos hnr (-(1 : ℝ) / 5)
    positivity
  have hw : Real.toNNReal (silverman n e ^ 2) ≠ 0 := (Real.toNNReal_pos.mpr (pow_pos hh 2)).ne'
  have hu : Real.toNNReal (sampleStd n e ^ 2) ≠ 0 := (Real.toNNReal_pos.mpr (pow_pos hs' 2)).ne'
  refine ⟨Real.toNNReal (silverman n e ^ 2), Real.toNNReal (sampleStd n e ^ 2), hw, hu, Real.coe_toNNReal _ (sq_nonneg _), Real.coe_toNNReal _ (sq_nonneg _), fun i => ⟨?_, ?_⟩, fun i => ?_, ?_, integral_gaussianPDFReal_eq_one _ hu⟩
  · simp only [errorPdfCore]
    rw [if_neg hs'.ne', kde_eq n e _ _ hh]
  · unfold Spec.mixture
    apply div_pos _ hnr
    apply sum_pos (fun t _ => gaussianPDFReal_pos _ _ _ hw) ⟨0, mem_range.mpr hn⟩
  · simp only [errorPdfCore]
    rw [if_neg hs'.ne', gauss_eq _ _ _ hs']
  · unfold Spec.mixture
    rw [MeasureTheory.integral_div, MeasureTheory.integral_finset_sum _ fun t _ => integrable_gaussianPDFReal _ _]
    simp only [integral_gaussianPDFReal_eq_one _ hw, sum_const, card_range, nsmul_eq_mul, mul_one]
    exact div_self hnr.ne'

/-- **C79 (grid).** The 200 abscissas run from minus to plus the largest error (at least half an LSB), so every error lies inside the grid. -/
theorem C79_grid (solve : Lstsq) (n : ℕ) (y : ℕ → ℝ) (res : ℕ) (fs freq : Option ℝ) (maxIter : ℤ) (tol : ℝ) (r : ErrorPdf)
    (h : analyzeErrorPdf solve n y res fs freq maxIter tol = .ok r) :
    r.x 0 = -r.x 199 ∧ 1 / 2 ≤ r.x 199 ∧ (∀ i, r.x i < r.x (i + 1)) ∧ (∀ t < n, r.x 0 ≤ r.errLsb t ∧ r.errLsb t ≤ r.x 199) := by
  obtain ⟨fit, hf, rfl⟩ := analyzeErrorPdf_ok _ _ _ _ _ _ _ _ _ h
  set e := fun t => (y t - fit.fitted t) / (fs.getD (recMax n y - recMin n y) / 2 ^ res)
  simp only [errorPdfCore]
  set M := maxOf |e 0| ((List.range n).map fun (t : ℕ) => |e t|) with hM
  have hL : 1 / 2 ≤ max (1 / 2) M := le_max_left _ _
  refine ⟨by push_cast; ring, ?_, fun i => ?_, fun t ht => ?_⟩
  · have : -max (1 / 2) M + ((199 : ℕ) : ℝ) * ((max (1 / 2) M - -max (1 / 2) M) / 199) = max (1 / 2) M := by push_cast; ring
    rw [this]; exact hL
  · push_cast
    have : 0 < (max (1 / 2) M - -max (1 / 2) M) / 199 := by
      apply div_pos _ (by norm_num)
      linarith
    linarith
  · have h1 : |e t| ≤ max (1 / 2) M := by
      refine le_trans ?_ (le_max_right _ _)
      exact le_maxOf _ _ _ (List.mem_cons_of_mem _ (List.mem_map.mpr ⟨t, List.mem_range.mpr ht, rfl⟩))
    have h2 := abs_le.mp h1
    constructor
    · push_cast; linarith [h2.1]
    · have : -max (1 / 2) M + ((199 : ℕ) : ℝ) * ((max (1 / 2) M - -max (1 / 2) M) / 199) = max (1 / 2) M := by push_cast; ring
      rw [this]; exact h2.2

/-- **C79 (KL lower bound).** The reported divergence is never below the difference of the two Riemann sums; it can be negative only when the fitted normal
density has more mass on the grid than the estimate. -/
theorem C79_kl_bound (solve : Lstsq) (n : ℕ) (hn : 0 < n) (y : ℕ → ℝ) (res : ℕ) (fs freq : Option ℝ) (maxIter : ℤ) (tol : ℝ) (r : ErrorPdf)
    (h : analyzeErrorPdf solve n y res fs freq maxIter tol = .ok r) (kl : ℝ) (hk : r.kl = some kl) :
    (∑ i ∈ range 200, ((r.pdf i).getD 0 - (r.gauss i).getD 0)) * (r.x 1 - r.x 0) ≤ kl := by
  have hg := (C79_grid solve n y res fs freq maxIter tol r h).2.2.1 0
  obtain ⟨fit, hf, rfl⟩ := analyzeErrorPdf_ok _ _ _ _ _ _ _ _ _ h
  set e := fun t => (y t - fit.fitted t) / (fs.getD (recMax n y - recMin n y) / 2 ^ res)
  by_cases hs : sampleStd n e = 0
  · simp only [errorPdfCore, if_pos hs] at hk
    cases hk
  have hs' : 0 < sampleStd n e := lt_of_le_of_ne (sampleStd_nonneg n e) (Ne.symm hs)
  have hnr : (0 : ℝ) < n := by exact_mod_cast hn
  have hh : 0 < silverman n e := by
    unfold silverman
    have := Real.rpow_pos_of_pos hnr (-(1 : ℝ) / 5)
    positivity
  simp only [errorPdfCore, if_neg hs, Option.some.injEq] at hk hg
  simp only [errorPdfCore, if_neg hs, Option.getD_some]
  rw [← hk]
  apply mul_le_mul_of_nonneg_right _ (by linarith)
  apply sum_le_sum
  intro i _
  have key : ∀ p q : ℝ, 0 < p → 0 < q → p - q ≤ p * Real.log (p / q) := by
    intro p q hp hq
    have := Real.one_sub_inv_le_log_of_pos (div_pos hp hq)
    have h2 := mul_le_mul_of_nonneg_left this hp.le
    have e : p * (1 - (p / q)⁻¹) = p - q := by
      rw [inv_div]
      field_simp
    linarith
  set v := -max (1 / 2) (maxOf |e 0| ((List.range n).map fun (t : ℕ) => |e t|)) + (i : ℝ) * ((max (1 / 2) (maxOf |e 0| ((List.range n).map fun (t : ℕ) => |e t|)) - -max (1 / 2) (maxOf |e 0| ((List.range n).map fun (t : ℕ) => |e t|))) / 199)
  have hp : 0 < kdeAt n e (silverman n e) v + 1 / 2 ^ 52 := by
    unfold kdeAt
    have : 0 ≤ ∑ t ∈ range n, Real.exp (-(1 / 2) * ((v - e t) / silverman n e) ^ 2) := sum_nonneg fun t _ => (Real.exp_pos _).le
    positivity
  have hq : 0 < gaussAt (colMean n e) (sampleStd n e) v + 1 / 2 ^ 52 := by
    unfold gaussAt
    positivity
  have := key _ _ hp hq
  linarith

/-- **C79 (noise-free record).** For an exact coherent sine every density value and the divergence are NaN. -/
theorem C79_noise_free_is_nan (solve : Lstsq) (hs : IsLstsq solve) (n k : ℕ) (hn : 5 ≤ n) (hbig : n ≤ 10 ^ 9) (hk : 0 < k) (hlast : k < n / 2) (A θ C : ℝ) (hA : 0 < A)
    (ht0 : -Real.pi < θ) (ht1 : θ ≤ Real.pi) (maxIter : ℕ) (tol : ℝ) (y : ℕ → ℝ) (hy : ∀ t < n, y t = sineAt A ((k : ℝ) / n) θ C t) (res : ℕ) (fs : Option ℝ) :
    ∃ r, analyzeErrorPdf solve n y res fs none maxIter tol = .ok r ∧ r.mu = 0 ∧ r.sigma = 0 ∧ (∀ i, r.pdf i = none) ∧ r.kl = none := by
  obtain ⟨fit, hf, -, -, -, -, hfy, -⟩ := C58_coherent_recovery solve hs n k hn hbig hk hlast A θ C hA ht0 ht1 maxIter tol y hy
  set e := fun t => (y t - fit.fitted t) / (fs.getD (recMax n y - recMin n y) / 2 ^ res) with he
  have he0 : ∀ t < n, e t = 0 := fun t ht => by simp only [he]; rw [(hfy t ht).1, sub_self, zero_div]
  have hm : colMean n e = 0 := by
    unfold colMean
    rw [sum_eq_zero fun t ht => he0 t (mem_range.mp ht), zero_div]
  have hsg : sampleStd n e = 0 := by
    unfold sampleStd
    rw [sum_eq_zero fun t ht => by rw [he0 t (mem_range.mp ht), hm]; ring, zero_div, Real.sqrt_zero]
  refine ⟨errorPdfCore n e, ?_, hm, hsg, fun i => ?_, ?_⟩
  · unfold analyzeErrorPdf
    rw [hf]
  · simp only [errorPdfCore, if_pos hsg]
  · simp only [errorPdfCore, if_pos hsg]

/-- With a given frequency the analysis always succeeds. -/
example (solve : Lstsq) (y : ℕ → ℝ) : ∃ r, analyzeErrorPdf solve 8 y 12 (some 2) (some (1 / 8)) 1 (1 / 10 ^ 9) = .ok r := ⟨_, rfl⟩

/-- An impulse of eight samples fitted at a quarter of the sample rate has spread whatever the solver returns: the fitted sine repeats after four samples and
the impulse does not. -/
example (solve : Lstsq) : ∃ r, analyzeErrorPdf solve 8 (fun t => if t = 0 then 1 else 0) 12 (some 2) (some (1 / 4)) 0 (1 / 10 ^ 9) = .ok r ∧ r.sigma ≠ 0 := by
  refine ⟨_, rfl, ?_⟩
  set e : ℕ → ℝ := fun t => ((if t = 0 then (1 : ℝ) else 0) - (fitResult 8 (fun t => if t = 0 then 1 else 0) (1 / 4) 0 _).fitted t) / ((some 2).getD _ / 2 ^ 12) with he
  have hc : fitCos (1 / 4) 4 = fitCos (1 / 4) 0 := by
    unfold fitCos
    rw [show 2 * Real.pi * (1 / 4) * ((4 : ℕ) : ℝ) = 2 * Real.pi by push_cast; ring]
    simp
  have hs : fitSin (1 / 4) 4 = fitSin (1 / 4) 0 := by
    unfold fitSin
    rw [show 2 * Real.pi * (1 / 4) * ((4 : ℕ) : ℝ) = 2 * Real.pi by push_cast; ring]
    simp
  have h4 : e 0 - e 4 = 2 ^ 11 := by
    simp only [he, fitResult]
    have hf : ∀ s : FitState, s.freq = 1 / 4 → s.a * fitCos s.freq 4 + s.b * fitSin s.freq 4 + s.c = s.a * fitCos s.freq 0 + s.b * fitSin s.freq 0 + s.c := by
      intro s hs'
      rw [hs', hc, hs]
    rw [hf _ rfl]
    simp only [if_true, Option.getD_some]
    norm_num
    ring
  change sampleStd 8 e ≠ 0
  intro h0
  unfold sampleStd at h0
  have hnn : 0 ≤ ∑ t ∈ range 8, (e t - colMean 8 e) ^ 2 := sum_nonneg fun t _ => sq_nonneg _
  rw [Real.sqrt_eq_zero (by positivity)] at h0
  have h1 : ∑ t ∈ range 8, (e t - colMean 8 e) ^ 2 = 0 := by
    rcases div_eq_zero_iff.mp h0 with h | h
    · exact h
    · norm_num at h
  rw [sum_eq_zero_iff_of_nonneg fun t _ => sq_nonneg _] at h1
  have a0 := pow_eq_zero_iff (two_ne_zero) |>.mp (h1 0 (by simp))
  have a4 := pow_eq_zero_iff (two_ne_zero) |>.mp (h1 4 (by simp))
  have : e 0 - e 4 = 0 := by linarith
  rw [this] at h4
  norm_num at h4

end Verif
