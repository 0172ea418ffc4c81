import Verif.Model.MatlabErrpdf
import Verif.Theorems.ErrorPdf
import Verif.Theorems.Mismatch

/-! # C169: the error density of the MATLAB library and of the Python library -/

namespace Verif

open Model Finset

private theorem std_scale (n : ℕ) (v : ℕ → ℝ) (c : ℝ) (hc : 0 ≤ c) : mlMean n (fun t => c * v t) = c * mlMean n v ∧ mlStd n (fun t => c * v t) = c * mlStd n v := by
  have hm : mlMean n (fun t => c * v t) = c * mlMean n v := by
    unfold mlMean
    rw [← mul_sum, mul_div_assoc]
  refine ⟨hm, ?_⟩
  unfold mlStd
  rw [hm]
  have : ∀ t ∈ range n, (c * v t - c * mlMean n v) ^ 2 = c ^ 2 * (v t - mlMean n v) ^ 2 := fun t _ => by ring
  rw [sum_congr rfl this, ← mul_sum, mul_div_assoc, Real.sqrt_mul (sq_nonneg c), Real.sqrt_sq hc]

/-- **C169 (same numbers).** Given the error of the Python fit and the same full scale, `errpdf` returns what `analyze_error_pdf` returns, all seven outputs. -/
theorem C169_same (solve : Lstsq) (n : ℕ) (y : ℕ → ℝ) (res : ℕ) (fs freq : Option ℝ) (maxIter : ℤ) (tol : ℝ) (r : ErrorPdf)
    (h : analyzeErrorPdf solve n y res fs freq maxIter tol = .ok r) :
    ∃ fit, fitCore solve n y freq maxIter tol = .ok fit ∧ ∀ m, m = mlErrpdf n (fun t => y t - fit.fitted t) res (fs.getD (recMax n y - recMin n y)) →
      m.noiseLsb = r.errLsb ∧ m.mu = r.mu ∧ m.sigma = r.sigma ∧ m.x = r.x ∧ m.fx = r.pdf ∧ m.gauss = r.gauss ∧ m.kl = r.kl := by
  obtain ⟨fit, hf, rfl⟩ := analyzeErrorPdf_ok solve n y res fs freq maxIter tol r h
  refine ⟨fit, hf, ?_⟩
  rintro m rfl
  simp only [mlErrpdf, errorPdfCore, mul_div_assoc]
  refine ⟨?_, ?_, ?_, ?_, ?_, ?_, ?_⟩ <;> first | trivial | rfl

/-- **C169 (default full scale).** With the defaults they do not: `errpdf` takes a full scale of 1, `analyze_error_pdf` the range of the signal, so mean and spread differ by the
factor `max - min`. -/
theorem C169_default (solve : Lstsq) (n : ℕ) (y : ℕ → ℝ) (res : ℕ) (freq : Option ℝ) (maxIter : ℤ) (tol : ℝ) (r : ErrorPdf) (hrange : recMin n y < recMax n y)
    (h : analyzeErrorPdf solve n y res none freq maxIter tol = .ok r) :
    ∃ fit, fitCore solve n y freq maxIter tol = .ok fit ∧ ∀ m, m = mlErrpdf n (fun t => y t - fit.fitted t) res mlErrpdfFullScale →
      m.mu = (recMax n y - recMin n y) * r.mu ∧ m.sigma = (recMax n y - recMin n y) * r.sigma := by
  obtain ⟨fit, hf, rfl⟩ := analyzeErrorPdf_ok solve n y res none freq maxIter tol r h
  refine ⟨fit, hf, ?_⟩
  rintro m rfl
  have hd : 0 < recMax n y - recMin n y := sub_pos.mpr hrange
  obtain ⟨a, b⟩ := std_scale n (fun t => (y t - fit.fitted t) / ((recMax n y - recMin n y) / 2 ^ res)) _ hd.le
  have e : (fun t => (y t - fit.fitted t) / (mlErrpdfFullScale / 2 ^ res)) = fun t => (recMax n y - recMin n y) * ((y t - fit.fitted t) / ((recMax n y - recMin n y) / 2 ^ res)) := by
    funext t
    unfold mlErrpdfFullScale
    field_simp
  constructor
  · show mlMean n (fun t => (y t - fit.fitted t) / (mlErrpdfFullScale / 2 ^ res)) = _
    rw [e, a]
    rfl
  · show mlStd n (fun t => (y t - fit.fitted t) / (mlErrpdfFullScale / 2 ^ res)) = _
    rw [e, b]
    rfl

/-- **C169 (raw signal).** `errpdf` fits no sine: of a clean coherent sine it reports the spread of the sine itself, `A 2^res / full_scale · sqrt(n / (2 (n - 1)))`, where
`analyze_error_pdf` reports zero. -/
theorem C169_raw (solve : Lstsq) (hs : IsLstsq solve) (n k : ℕ) (hn : 5 ≤ n) (hbig : n ≤ 10 ^ 9) (hk : 0 < k) (hlast : k < n / 2) (A θ C : ℝ) (hA : 0 < A)
    (ht0 : -Real.pi < θ) (ht1 : θ ≤ Real.pi) (maxIter : ℕ) (tol : ℝ) (res : ℕ) (fs : ℝ) (hfs : 0 < fs) :
    (mlErrpdf n (sineAt A ((k : ℝ) / n) θ C) res fs).mu = C / (fs / 2 ^ res) ∧
    (mlErrpdf n (sineAt A ((k : ℝ) / n) θ C) res fs).sigma = A / (fs / 2 ^ res) * Real.sqrt (n / (2 * ((n : ℝ) - 1))) ∧
    ∃ r, analyzeErrorPdf solve n (sineAt A ((k : ℝ) / n) θ C) res (some fs) none maxIter tol = .ok r ∧ r.mu = 0 ∧ r.sigma = 0 := by
  have hnR : (5 : ℝ) ≤ n := by exact_mod_cast hn
  have hn0 : (n : ℝ) ≠ 0 := by linarith
  have hl : 0 < fs / 2 ^ res := by positivity
  have hdvd : ∀ j : ℕ, 0 < j → j < n → ¬ (n : ℤ) ∣ (j : ℤ) := by
    intro j h0 h1 h
    have h' : n ∣ j := by exact_mod_cast h
    have := Nat.le_of_dvd h0 h'
    omega
  have z1 := sum_cos_zero n (by omega) (k : ℤ) (hdvd k hk (by omega)) θ
  have z2 := sum_cos_zero n (by omega) ((2 * k : ℕ) : ℤ) (hdvd _ (by omega) (by omega)) (2 * θ)
  have hsine : ∀ t, sineAt A ((k : ℝ) / n) θ C t = A * Real.cos (2 * Real.pi * (((k : ℤ) : ℝ) * t / n) + θ) + C := by
    intro t
    unfold sineAt
    congr 3
    push_cast
    ring
  have hmean : mlMean n (fun t => sineAt A ((k : ℝ) / n) θ C t / (fs / 2 ^ res)) = C / (fs / 2 ^ res) := by
    unfold mlMean
    rw [← sum_div]
    simp only [hsine]
    rw [sum_add_distrib, ← mul_sum, z1]
    simp only [sum_const, card_range, nsmul_eq_mul]
    field_simp
    ring
  refine ⟨hmean, ?_, ?_⟩
  · show mlStd n (fun t => sineAt A ((k : ℝ) / n) θ C t / (fs / 2 ^ res)) = _
    unfold mlStd
    rw [hmean]
    have : ∀ t ∈ range n, (sineAt A ((k : ℝ) / n) θ C t / (fs / 2 ^ res) - C / (fs / 2 ^ res)) ^ 2 =
        (A / (fs / 2 ^ res)) ^ 2 * (1 / 2 + 1 / 2 * Real.cos (2 * Real.pi * ((((2 * k : ℕ) : ℤ) : ℝ) * t / n) + 2 * θ)) := by
      intro t _
      have e : 2 * Real.pi * ((((2 * k : ℕ) : ℤ) : ℝ) * t / n) + 2 * θ = 2 * (2 * Real.pi * (((k : ℤ) : ℝ) * t / n) + θ) := by push_cast; ring
      rw [hsine, e, Real.cos_two_mul]
      ring
    rw [sum_congr rfl this, ← mul_sum, sum_add_distrib, ← mul_sum, z2]
    simp only [sum_const, card_range, nsmul_eq_mul, mul_zero, add_zero]
    rw [mul_div_assoc, Real.sqrt_mul (sq_nonneg _), Real.sqrt_sq (by positivity)]
    congr 2
    have : (n : ℝ) - 1 ≠ 0 := by linarith
    field_simp
  · obtain ⟨r, h1, h2, h3, -⟩ := C79_noise_free_is_nan solve hs n k hn hbig hk hlast A θ C hA ht0 ht1 maxIter tol _ (fun t _ => rfl) res (some fs)
    exact ⟨r, h1, h2, h3⟩

/-! ## Examples -/

/-- A given frequency: the Python side succeeds, whatever the solver. -/
example (solve : Lstsq) (y : ℕ → ℝ) : ∃ (r : ErrorPdf) (fit : ℕ → ℝ), analyzeErrorPdf solve 8 y 12 (some 2) (some (1 / 8)) 1 (1 / 10 ^ 9) = .ok r ∧
    (mlErrpdf 8 (fun t => y t - fit t) 12 2).sigma = r.sigma := by
  obtain ⟨r, hr⟩ : ∃ r, analyzeErrorPdf solve 8 y 12 (some 2) (some (1 / 8)) 1 (1 / 10 ^ 9) = .ok r := ⟨_, rfl⟩
  obtain ⟨fit, -, h⟩ := C169_same solve 8 y 12 (some 2) (some (1 / 8)) 1 (1 / 10 ^ 9) r hr
  exact ⟨r, fit.fitted, hr, (h _ rfl).2.2.1⟩

/-- A pulse of height 3: the two default reports differ by the factor 3. -/
example (solve : Lstsq) : ∃ (r : ErrorPdf) (fit : ℕ → ℝ), analyzeErrorPdf solve 8 (fun t => if t = 0 then 3 else 0) 12 none (some (1 / 4)) 0 (1 / 10 ^ 9) = .ok r ∧
    (mlErrpdf 8 (fun t => (if t = 0 then 3 else 0) - fit t) 12 mlErrpdfFullScale).sigma = 3 * r.sigma := by
  have h1 : recMax 8 (fun t => if t = 0 then (3 : ℝ) else 0) = 3 := by simp [recMax, maxOf, List.range_succ_eq_map]
  have h0 : recMin 8 (fun t => if t = 0 then (3 : ℝ) else 0) = 0 := by simp [recMin, minOf, List.range_succ_eq_map]
  obtain ⟨r, hr⟩ : ∃ r, analyzeErrorPdf solve 8 (fun t => if t = 0 then 3 else 0) 12 none (some (1 / 4)) 0 (1 / 10 ^ 9) = .ok r := ⟨_, rfl⟩
  obtain ⟨fit, -, h⟩ := C169_default solve 8 _ 12 (some (1 / 4)) 0 (1 / 10 ^ 9) r (by rw [h0, h1]; norm_num) hr
  refine ⟨r, fit.fitted, hr, ?_⟩
  rw [(h _ rfl).2, h0, h1, sub_zero]

/-- Bin 3 of 16 samples, amplitude 1/2, full scale 1, 12 bits: `errpdf` reports `2048 sqrt(8/15)` LSB. -/
example (solve : Lstsq) (hs : IsLstsq solve) : (mlErrpdf 16 (sineAt (1 / 2) ((3 : ℕ) / (16 : ℕ)) 0 0) 12 1).sigma = 2048 * Real.sqrt (8 / 15) := by
  have h := (C169_raw solve hs 16 3 (by norm_num) (by norm_num) (by norm_num) (by norm_num) (1 / 2) 0 0 (by norm_num) (by linarith [Real.pi_pos]) Real.pi_pos.le 1 0 12 1 (by norm_num)).2.1
  rw [h]
  norm_num

end Verif
