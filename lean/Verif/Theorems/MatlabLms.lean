import Verif.Model.MatlabLms
import Verif.Theorems.HarmonicSplit
import Verif.Theorems.MatlabFit
import Verif.Theorems.Mismatch

/-!
# C134: `analyze_decomposition_polar` and the LMS mode of MATLAB `plotphase.m`
-/

namespace Verif

open Model Finset

private theorem lmsCols_length (f : ℝ) (H : ℕ) : (mlLmsCols f H).length = H + H := by simp [mlLmsCols]

private theorem lmsCols_cos (f : ℝ) (H h t : ℕ) (hh : h < H) : ((mlLmsCols f H).getD h 0) t = Real.cos (((h : ℝ) + 1) * (2 * Real.pi * f * t)) := by
  have : (mlLmsCols f H).getD h 0 = fun (t : ℕ) => Real.cos (t * f * ((h : ℝ) + 1) * 2 * Real.pi) := by
    unfold mlLmsCols
    rw [List.getD_append _ _ _ _ (by simpa using hh), List.getD_eq_getElem _ _ (by simpa using hh)]
    simp
  rw [this]
  simp only
  rw [show (t : ℝ) * f * ((h : ℝ) + 1) * 2 * Real.pi = ((h : ℝ) + 1) * (2 * Real.pi * f * t) by ring]

private theorem lmsCols_sin (f : ℝ) (H h t : ℕ) (hh : h < H) : ((mlLmsCols f H).getD (H + h) 0) t = Real.sin (((h : ℝ) + 1) * (2 * Real.pi * f * t)) := by
  have : (mlLmsCols f H).getD (H + h) 0 = fun (t : ℕ) => Real.sin (t * f * ((h : ℝ) + 1) * 2 * Real.pi) := by
    unfold mlLmsCols
    rw [List.getD_append_right _ _ _ _ (by simp), List.getD_eq_getElem _ _ (by simpa using hh)]
    simp
  rw [this]
  simp only
  rw [show (t : ℝ) * f * ((h : ℝ) + 1) * 2 * Real.pi = ((h : ℝ) + 1) * (2 * Real.pi * f * t) by ring]

private theorem matVec_lms (f : ℝ) (H : ℕ) (W : List ℝ) (t : ℕ) : matVec (mlLmsCols f H) W t =
    ∑ h ∈ range H, (W.getD h 0 * Real.cos (((h : ℝ) + 1) * (2 * Real.pi * f * t)) + W.getD (H + h) 0 * Real.sin (((h : ℝ) + 1) * (2 * Real.pi * f * t))) := by
  unfold matVec
  rw [lmsCols_length, sum_range_add, ← sum_add_distrib]
  refine sum_congr rfl fun h hh => ?_
  rw [lmsCols_cos f H h t (mem_range.mp hh), lmsCols_sin f H h t (mem_range.mp hh)]

/-- Over a whole number of periods every harmonic that does not fold onto DC sums to zero. -/
private theorem harmonic_sum_zero (n k : ℕ) (hn : n ≠ 0) (f : ℝ) (hf : f = k / n) (h : ℕ) (hh : ∀ z : ℤ, f * ((h + 1 : ℕ) : ℝ) ≠ z) :
    ∑ t ∈ range n, Real.cos (((h : ℝ) + 1) * (2 * Real.pi * f * t)) = 0 ∧ ∑ t ∈ range n, Real.sin (((h : ℝ) + 1) * (2 * Real.pi * f * t)) = 0 := by
  have hnR : (n : ℝ) ≠ 0 := Nat.cast_ne_zero.mpr hn
  have hd : ¬ (n : ℤ) ∣ (((h + 1) * k : ℕ) : ℤ) := by
    rintro ⟨z, hz⟩
    apply hh z
    have : (((h + 1) * k : ℕ) : ℝ) = n * z := by exact_mod_cast hz
    rw [hf]
    field_simp
    push_cast at this ⊢
    linarith
  have harg : ∀ t : ℕ, ((h : ℝ) + 1) * (2 * Real.pi * f * t) = 2 * Real.pi * ((((h + 1) * k : ℕ) : ℤ) * t / n) := by
    intro t
    rw [hf]
    push_cast
    ring
  constructor
  · have := sum_cos_zero n hn (((h + 1) * k : ℕ) : ℤ) hd 0
    rw [← this]
    refine sum_congr rfl fun t _ => ?_
    rw [harg t, add_zero]
  · have := sum_cos_zero n hn (((h + 1) * k : ℕ) : ℤ) hd (-(Real.pi / 2))
    rw [← this]
    refine sum_congr rfl fun t _ => ?_
    rw [harg t, ← sub_eq_add_neg, Real.cos_sub_pi_div_two]

private theorem lms_ok (solve : Lstsq) (runs n : ℕ) (x : ℕ → ℕ → ℝ) (maxSignal : Option ℝ) (H : ℕ) (m : MlLms) (h : mlPlotphaseLms solve runs n x maxSignal H = some m) :
    m.scale = maxSignal.getD (mlLmsScale runs n x) ∧ m.scale ≠ 0 ∧ 0 < H ∧ m = mlLmsSplit solve n (averageRecord runs x) m.scale m.freq H ∧ (∀ c ∈ maxSignal, 0 < c) := by
  unfold mlPlotphaseLms at h
  by_cases hc : ∃ c ∈ maxSignal, c ≤ 0
  · rw [if_pos hc] at h
    cases h
  rw [if_neg hc] at h
  simp only at h
  by_cases hz : maxSignal.getD (mlLmsScale runs n x) = 0 ∨ H = 0
  · rw [if_pos hz] at h
    cases h
  rw [if_neg hz] at h
  rw [not_or] at hz
  push Not at hc
  cases hm : mlSinfitDefault solve n (fun t => ((∑ i ∈ range runs, x i t) / runs - colMean n fun t => (∑ i ∈ range runs, x i t) / runs) / maxSignal.getD (mlLmsScale runs n x)) 0 with
  | none =>
    rw [hm] at h
    cases h
  | some q =>
    rw [hm] at h
    simp only [Option.map_some, Option.some.injEq] at h
    rw [← h]
    exact ⟨rfl, hz.1, Nat.pos_of_ne_zero hz.2, rfl, hc⟩

private theorem scale_nonneg (runs n : ℕ) (x : ℕ → ℕ → ℝ) : 0 ≤ mlLmsScale runs n x := by
  have h1 : recMin runs (fun i => recMin n (x i)) ≤ recMin n (x 0) := minOf_le _ _ _ (List.mem_cons_self ..)
  have h2 : recMin n (x 0) ≤ x 0 0 := minOf_le _ _ _ (List.mem_cons_self ..)
  have h3 : x 0 0 ≤ recMax n (x 0) := le_maxOf _ _ _ (List.mem_cons_self ..)
  have h4 : recMax n (x 0) ≤ recMax runs fun i => recMax n (x i) := le_maxOf _ _ _ (List.mem_cons_self ..)
  unfold mlLmsScale
  linarith

private theorem scale_pos (solve : Lstsq) (runs n : ℕ) (x : ℕ → ℕ → ℝ) (maxSignal : Option ℝ) (H : ℕ) (m : MlLms) (h : mlPlotphaseLms solve runs n x maxSignal H = some m) :
    0 < m.scale := by
  obtain ⟨h1, h2, -, -, h5⟩ := lms_ok solve runs n x maxSignal H m h
  refine lt_of_le_of_ne ?_ (Ne.symm h2)
  rw [h1]
  cases maxSignal with
  | none => exact scale_nonneg runs n x
  | some c => exact (h5 c rfl).le

private theorem arg_div (a b R : ℝ) (hR : 0 < R) : Complex.arg ⟨a / R, b / R⟩ = Complex.arg ⟨a, b⟩ := by
  have : (⟨a, b⟩ : ℂ) = (R : ℂ) * ⟨a / R, b / R⟩ := by
    apply Complex.ext
    · simp [hR.ne', mul_div_cancel₀]
    · simp [hR.ne', mul_div_cancel₀]
  rw [this, Complex.arg_real_mul _ hR]

/-- **C134 (whole periods).** When both work at the same frequency, a whole number of periods per record, with at least `2H+1` samples and no multiple of the frequency
up to `2H` whole, the LMS mode of `plotphase.m` and `analyze_decomposition_polar` find the same residual, noise and harmonic magnitudes up to the factor `maxSignal` MATLAB has
divided by first, and the same relative phases. -/
theorem C134_same (solve solve' : Lstsq) (hs : IsLstsq solve) (hs' : IsLstsq solve') (runs n : ℕ) (hn : n ≠ 1) (x : ℕ → ℕ → ℝ) (H : ℕ) (freq : Option ℝ) (maxIter : ℤ) (tol : ℝ)
    (r : HarmonicSplit) (h : decomposeHarmonic solve runs n x H freq maxIter tol = .ok r) (maxSignal : Option ℝ) (m : MlLms)
    (hm : mlPlotphaseLms solve' runs n x maxSignal H = some m) (hf : m.freq = r.fundamentalFreq) (k : ℕ) (hk : r.fundamentalFreq = k / n) (hlen : 2 * H + 1 ≤ n)
    (hfreq : ∀ j : ℕ, 0 < j → j ≤ 2 * H → ∀ z : ℤ, r.fundamentalFreq * j ≠ z) :
    (∀ t < n, m.scale * m.residual t = r.noiseResidual t) ∧ m.scale * m.noise = r.residualRms ∧
    ∀ i < H, m.scale * m.mags i = r.magnitudes i ∧ m.phases i = r.phases i := by
  obtain ⟨hH, hr, -⟩ := decompose_ok solve runs n x H freq maxIter tol r h hn
  rw [Int.toNat_natCast] at hr
  obtain ⟨-, hsc, hH0, hm', -⟩ := lms_ok solve' runs n x maxSignal H m hm
  have hR := scale_pos solve' runs n x maxSignal H m hm
  obtain ⟨-, -, p3, p4, -, -⟩ := C51_split solve hs runs n hn x H freq maxIter tol r h
  set R := m.scale with hRdef
  rw [hf] at hm'
  set f := r.fundamentalFreq with hfdef
  set y := averageRecord runs x with hy
  set V := solve n (harmonicCols f H) (fun t => y t - colMean n y) with hV
  set W := solve' n (mlLmsCols f H) (fun t => (y t - colMean n y) / R) with hW
  have hn0 : n ≠ 0 := by omega
  have hnR : (n : ℝ) ≠ 0 := Nat.cast_ne_zero.mpr hn0
  have hres : ∀ t, r.noiseResidual t = (y t - colMean n y) - matVec (harmonicCols f H) V t := fun t => by rw [hr]; rfl
  have hsumy : ∑ t ∈ range n, (y t - colMean n y) = 0 := by
    rw [sum_sub_distrib, sum_const, card_range, nsmul_eq_mul]
    unfold colMean
    field_simp
    ring
  -- the constant of the Python fit vanishes
  have hV0 : V.getD 0 0 = 0 := by
    have e : ∑ t ∈ range n, r.noiseResidual t = 0 - n * V.getD 0 0 := by
      rw [sum_congr rfl fun t _ => by rw [hres t, matVec_harmonic], sum_sub_distrib, hsumy, sum_add_distrib, sum_const, card_range, nsmul_eq_mul, sum_comm]
      congr 1
      rw [add_eq_left]
      refine sum_eq_zero fun i hi => ?_
      obtain ⟨c0, s0⟩ := harmonic_sum_zero n k hn0 f hk i (hfreq (i + 1) (by omega) (by have := mem_range.mp hi; omega))
      rw [sum_add_distrib, ← mul_sum, ← mul_sum, c0, s0]
      ring
    rw [p3] at e
    have : (n : ℝ) * V.getD 0 0 = 0 := by linarith
    exact (mul_eq_zero.mp this).resolve_left hnR
  -- candidate for MATLAB's coefficients
  set c := (List.range (H + H)).map fun i => if i < H then V.getD (1 + 2 * i) 0 / R else V.getD (2 + 2 * (i - H)) 0 / R with hc
  have hcg : ∀ i < H + H, c.getD i 0 = if i < H then V.getD (1 + 2 * i) 0 / R else V.getD (2 + 2 * (i - H)) 0 / R := by
    intro i hi
    rw [hc, List.getD_eq_getElem _ _ (by simpa using hi)]
    simp
  have hcos : ∀ i < H, c.getD i 0 = V.getD (1 + 2 * i) 0 / R := fun i hi => by rw [hcg i (by omega), if_pos hi]
  have hsin : ∀ i < H, c.getD (H + i) 0 = V.getD (2 + 2 * i) 0 / R := fun i hi => by rw [hcg (H + i) (by omega), if_neg (by omega), show H + i - H = i by omega]
  have hmv : ∀ t, matVec (mlLmsCols f H) c t = matVec (harmonicCols f H) V t / R := by
    intro t
    rw [matVec_lms, matVec_harmonic, hV0, zero_add, sum_div]
    refine sum_congr rfl fun i hi => ?_
    rw [hcos i (mem_range.mp hi), hsin i (mem_range.mp hi)]
    ring
  have hproj := lstsq_projection solve' hs' n (mlLmsCols f H) (fun t => (y t - colMean n y) / R) (fun t => r.noiseResidual t / R) c (by rw [lmsCols_length, hc]; simp)
    (fun t _ => by
      beta_reduce
      rw [hmv t, hres t]
      ring)
    (by
      intro j hj
      rw [lmsCols_length] at hj
      by_cases hjH : j < H
      · have := (p4 j (by exact_mod_cast hjH)).1
        rw [sum_congr rfl fun t _ => by rw [lmsCols_cos f H j t hjH, div_mul_eq_mul_div], ← sum_div, this, zero_div]
      · obtain ⟨i, rfl⟩ : ∃ i, j = H + i := ⟨j - H, by omega⟩
        have := (p4 i (by exact_mod_cast (by omega : i < H))).2
        rw [sum_congr rfl fun t _ => by rw [lmsCols_sin f H i t (by omega), div_mul_eq_mul_div], ← sum_div, this, zero_div])
  rw [← hW] at hproj
  -- coefficients agree
  have hco : ∀ i < H, W.getD i 0 = V.getD (1 + 2 * i) 0 / R ∧ W.getD (i + H) 0 = V.getD (2 + 2 * i) 0 / R := by
    set v : ℕ → ℝ := fun j => if j = 0 then 0 else if j % 2 = 1 then W.getD (j / 2) 0 - c.getD (j / 2) 0 else W.getD (H + (j / 2 - 1)) 0 - c.getD (H + (j / 2 - 1)) 0 with hv
    have hz := harmonic_independent f H n hlen hfreq v (by
      intro t ht
      have := hproj t ht
      rw [matVec_lms, matVec_lms, ← sub_eq_zero, ← sum_sub_distrib] at this
      rw [show v 0 = 0 by rw [hv]; simp, zero_add, ← this]
      refine sum_congr rfl fun i _ => ?_
      rw [hv]
      beta_reduce
      rw [if_neg (by omega), if_pos (by omega), if_neg (by omega), if_neg (by omega), show (1 + 2 * i) / 2 = i by omega, show (2 + 2 * i) / 2 - 1 = i by omega]
      ring)
    intro i hi
    have a := hz (1 + 2 * i) (by omega)
    have b := hz (2 + 2 * i) (by omega)
    rw [hv] at a b
    beta_reduce at a b
    rw [if_neg (by omega), if_pos (by omega), show (1 + 2 * i) / 2 = i by omega] at a
    rw [if_neg (by omega), if_neg (by omega), show (2 + 2 * i) / 2 - 1 = i by omega] at b
    rw [← hcos i hi, ← hsin i hi, add_comm i H]
    exact ⟨sub_eq_zero.mp a, sub_eq_zero.mp b⟩
  have hmres : ∀ t < n, R * m.residual t = r.noiseResidual t := by
    intro t ht
    have e : m.residual t = (y t - colMean n y) / R - matVec (mlLmsCols f H) W t := by rw [hm']; rfl
    rw [e, hproj t ht, hmv t, hres t]
    field_simp
  refine ⟨hmres, ?_, ?_⟩
  · have e1 : m.noise = Real.sqrt ((∑ t ∈ range n, m.residual t ^ 2) / n) * 2 * Real.sqrt 2 := by rw [hm']; rfl
    have e2 : r.residualRms = Real.sqrt (colMean n fun t => r.noiseResidual t ^ 2) * 2 * Real.sqrt 2 := by rw [hr]; rfl
    rw [e1, e2]
    have : Real.sqrt (colMean n fun t => r.noiseResidual t ^ 2) = R * Real.sqrt ((∑ t ∈ range n, m.residual t ^ 2) / n) := by
      have hsq : ∑ t ∈ range n, r.noiseResidual t ^ 2 = R ^ 2 * ∑ t ∈ range n, m.residual t ^ 2 := by
        rw [mul_sum]
        exact sum_congr rfl fun t ht => by rw [← hmres t (mem_range.mp ht), mul_pow]
      unfold colMean
      rw [hsq, mul_div_assoc, Real.sqrt_mul (sq_nonneg R), Real.sqrt_sq hR.le]
    rw [this]
    ring
  · intro i hi
    constructor
    · have e1 : m.mags i = Real.sqrt (W.getD i 0 ^ 2 + W.getD (i + H) 0 ^ 2) * 2 := by rw [hm']; rfl
      have e2 : r.magnitudes i = ‖(⟨V.getD (1 + 2 * i) 0, V.getD (2 + 2 * i) 0⟩ : ℂ)‖ * 2 := by rw [hr]; rfl
      rw [e1, e2, (hco i hi).1, (hco i hi).2, Complex.norm_def, Complex.normSq_apply, div_pow, div_pow, ← add_div, Real.sqrt_div (by positivity), Real.sqrt_sq hR.le, ← pow_two, ← pow_two]
      field_simp
    · have e1 : m.phases i = pmod (Complex.arg ⟨W.getD i 0, W.getD (i + H) 0⟩ - Complex.arg ⟨W.getD 0 0, W.getD (0 + H) 0⟩ * ((i : ℝ) + 1) + Real.pi) (2 * Real.pi) - Real.pi := by
        rw [hm']; rfl
      have e2 : r.phases i = wrapPhase ((⟨V.getD (1 + 2 * i) 0, V.getD (2 + 2 * i) 0⟩ : ℂ).arg - (⟨V.getD (1 + 2 * 0) 0, V.getD (2 + 2 * 0) 0⟩ : ℂ).arg * ((i : ℝ) + 1)) := by rw [hr]; rfl
      rw [e1, e2, (hco i hi).1, (hco i hi).2, (hco 0 hH0).1, (hco 0 hH0).2, arg_div _ _ R hR, arg_div _ _ R hR]
      rfl

/-- **C134 (noise circle).** At the same frequency, without any other condition, the residual `plotphase.m` finds is never smaller than that of `analyze_decomposition_polar`: the Python fit
has a constant besides the harmonics. -/
theorem C134_noise (solve solve' : Lstsq) (hs : IsLstsq solve) (runs n : ℕ) (hn : n ≠ 1) (x : ℕ → ℕ → ℝ) (H : ℕ) (freq : Option ℝ) (maxIter : ℤ) (tol : ℝ)
    (r : HarmonicSplit) (h : decomposeHarmonic solve runs n x H freq maxIter tol = .ok r) (maxSignal : Option ℝ) (m : MlLms)
    (hm : mlPlotphaseLms solve' runs n x maxSignal H = some m) (hf : m.freq = r.fundamentalFreq) : r.residualRms ≤ m.scale * m.noise := by
  obtain ⟨hH, hr, -⟩ := decompose_ok solve runs n x H freq maxIter tol r h hn
  obtain ⟨-, hsc, hH0, hm', -⟩ := lms_ok solve' runs n x maxSignal H m hm
  have hR := scale_pos solve' runs n x maxSignal H m hm
  obtain ⟨-, -, -, -, p5, -⟩ := C51_split solve hs runs n hn x H freq maxIter tol r h
  rw [hf] at hm'
  set y := averageRecord runs x with hy
  set W := solve' n (mlLmsCols r.fundamentalFreq H) (fun t => (y t - colMean n y) / m.scale) with hW
  have hmin := p5 (colMean n y) (fun i => m.scale * W.getD i 0) (fun i => m.scale * W.getD (H + i) 0)
  rw [Int.toNat_natCast] at hmin
  have hsum : ∑ t ∈ range n, (y t - (colMean n y + ∑ k ∈ range H, (m.scale * W.getD k 0 * Real.cos (((k : ℝ) + 1) * (2 * Real.pi * r.fundamentalFreq * t)) +
      m.scale * W.getD (H + k) 0 * Real.sin (((k : ℝ) + 1) * (2 * Real.pi * r.fundamentalFreq * t))))) ^ 2 = m.scale ^ 2 * ∑ t ∈ range n, m.residual t ^ 2 := by
    rw [mul_sum]
    refine sum_congr rfl fun t _ => ?_
    have e : m.residual t = (y t - colMean n y) / m.scale - matVec (mlLmsCols r.fundamentalFreq H) W t := by rw [hm']; rfl
    rw [e, matVec_lms, ← mul_pow]
    congr 1
    rw [mul_sub, mul_div_cancel₀ _ hR.ne', mul_sum, ← sub_sub]
    congr 1
    refine sum_congr rfl fun i _ => ?_
    ring
  rw [hsum] at hmin
  have e1 : m.noise = Real.sqrt ((∑ t ∈ range n, m.residual t ^ 2) / n) * 2 * Real.sqrt 2 := by rw [hm']; rfl
  have e2 : r.residualRms = Real.sqrt (colMean n fun t => r.noiseResidual t ^ 2) * 2 * Real.sqrt 2 := by rw [hr]; rfl
  have key : Real.sqrt (colMean n fun t => r.noiseResidual t ^ 2) ≤ m.scale * Real.sqrt ((∑ t ∈ range n, m.residual t ^ 2) / n) := by
    conv_rhs => rw [← Real.sqrt_sq hR.le]
    rw [← Real.sqrt_mul (by positivity), ← mul_div_assoc]
    exact Real.sqrt_le_sqrt (div_le_div_of_nonneg_right hmin (by positivity))
  rw [e1, e2]
  have h2 : (0 : ℝ) ≤ 2 * Real.sqrt 2 := by positivity
  calc _ = Real.sqrt (colMean n fun t => r.noiseResidual t ^ 2) * (2 * Real.sqrt 2) := by ring
    _ ≤ m.scale * Real.sqrt ((∑ t ∈ range n, m.residual t ^ 2) / n) * (2 * Real.sqrt 2) := mul_le_mul_of_nonneg_right key h2
    _ = _ := by ring

/-- **C134 (refuted: broken periods).** On a record that is exactly an offset plus harmonics of the frequency used, the Python residual vanishes (`C51_recovery`); the one of `plotphase.m` vanishes
only when the average of the record is the offset, which a broken number of periods does not give. -/
theorem C134_exact_iff (solve' : Lstsq) (hs' : IsLstsq solve') (n : ℕ) (y : ℕ → ℝ) (R : ℝ) (hR : 0 < R) (f : ℝ) (H : ℕ) (hlen : 2 * H + 1 ≤ n)
    (hfreq : ∀ j : ℕ, 0 < j → j ≤ 2 * H → ∀ z : ℤ, f * j ≠ z) (D : ℝ) (A θ : ℕ → ℝ) (hy : ∀ t < n, y t = distorted D f H A θ t) :
    (∀ t < n, (mlLmsSplit solve' n y R f H).residual t = 0) ↔ (∑ t ∈ range n, y t) / n = D := by
  set W := solve' n (mlLmsCols f H) (fun t => (y t - colMean n y) / R) with hW
  have hres : ∀ t, (mlLmsSplit solve' n y R f H).residual t = (y t - colMean n y) / R - matVec (mlLmsCols f H) W t := fun t => rfl
  have hexp : ∀ t < n, y t = D + ∑ k ∈ range H, (A k * Real.cos (θ k) * Real.cos (((k : ℝ) + 1) * (2 * Real.pi * f * t)) +
      A k * Real.sin (θ k) * Real.sin (((k : ℝ) + 1) * (2 * Real.pi * f * t))) := by
    intro t ht
    rw [hy t ht]
    unfold distorted
    congr 1
    refine sum_congr rfl fun i _ => ?_
    rw [Real.cos_sub]
    ring
  change _ ↔ colMean n y = D
  constructor
  · intro h0
    set v : ℕ → ℝ := fun j => if j = 0 then D - colMean n y else if j % 2 = 1 then A (j / 2) * Real.cos (θ (j / 2)) - R * W.getD (j / 2) 0
      else A (j / 2 - 1) * Real.sin (θ (j / 2 - 1)) - R * W.getD (H + (j / 2 - 1)) 0 with hv
    have hz := harmonic_independent f H n hlen hfreq v (by
      intro t ht
      have e := h0 t ht
      rw [hres t, matVec_lms, sub_eq_zero, div_eq_iff hR.ne', hexp t ht] at e
      have : v 0 = D - colMean n y := by rw [hv]; simp
      have hs : ∑ i ∈ range H, (v (1 + 2 * i) * Real.cos (((i : ℝ) + 1) * (2 * Real.pi * f * t)) + v (2 + 2 * i) * Real.sin (((i : ℝ) + 1) * (2 * Real.pi * f * t))) =
          ∑ k ∈ range H, (A k * Real.cos (θ k) * Real.cos (((k : ℝ) + 1) * (2 * Real.pi * f * t)) + A k * Real.sin (θ k) * Real.sin (((k : ℝ) + 1) * (2 * Real.pi * f * t))) -
          (∑ h ∈ range H, (W.getD h 0 * Real.cos (((h : ℝ) + 1) * (2 * Real.pi * f * t)) + W.getD (H + h) 0 * Real.sin (((h : ℝ) + 1) * (2 * Real.pi * f * t)))) * R := by
        rw [sum_mul, ← sum_sub_distrib]
        refine sum_congr rfl fun i _ => ?_
        rw [hv]
        beta_reduce
        rw [if_neg (by omega), if_pos (by omega), if_neg (by omega), if_neg (by omega), show (1 + 2 * i) / 2 = i by omega, show (2 + 2 * i) / 2 - 1 = i by omega]
        ring
      rw [this, hs]
      linarith) 0 (by omega)
    rw [hv] at hz
    simp only [if_true] at hz
    linarith
  · intro hD t ht
    set c := (List.range (H + H)).map fun i => if i < H then A i * Real.cos (θ i) / R else A (i - H) * Real.sin (θ (i - H)) / R with hc
    have hcg : ∀ i < H + H, c.getD i 0 = if i < H then A i * Real.cos (θ i) / R else A (i - H) * Real.sin (θ (i - H)) / R := by
      intro i hi
      rw [hc, List.getD_eq_getElem _ _ (by simpa using hi)]
      simp
    have hmv : ∀ t < n, (y t - colMean n y) / R = matVec (mlLmsCols f H) c t := by
      intro t ht
      rw [matVec_lms, hexp t ht, hD, add_sub_cancel_left, sum_div]
      refine sum_congr rfl fun i hi => ?_
      have := mem_range.mp hi
      rw [hcg i (by omega), if_pos this, hcg (H + i) (by omega), if_neg (by omega), show H + i - H = i by omega]
      ring
    have := lstsq_projection solve' hs' n (mlLmsCols f H) (fun t => (y t - colMean n y) / R) (fun _ => 0) c (by rw [lmsCols_length, hc]; simp)
      (fun t ht => by rw [add_zero]; exact hmv t ht) (fun j _ => by simp) t ht
    rw [hres t, hW, this, ← hmv t ht, sub_self]

private theorem rec_mem (n : ℕ) (hn : 0 < n) (y : ℕ → ℝ) : (∃ t < n, y t = recMin n y) ∧ (∃ t < n, y t = recMax n y) := by
  have mem : ∀ v ∈ y 0 :: (List.range n).map y, ∃ t < n, y t = v := by
    intro v hv
    rcases List.mem_cons.mp hv with h | h
    · exact ⟨0, hn, h.symm⟩
    · obtain ⟨t, ht, rfl⟩ := List.mem_map.mp h
      exact ⟨t, List.mem_range.mp ht, rfl⟩
  exact ⟨mem _ (minOf_mem _ _), mem _ (maxOf_mem _ _)⟩

private theorem rec_range' (n : ℕ) (x : ℕ → ℝ) (t : ℕ) (ht : t < n) : recMin n x ≤ x t ∧ x t ≤ recMax n x :=
  ⟨minOf_le _ _ _ (List.mem_cons_of_mem _ (List.mem_map_of_mem (List.mem_range.mpr ht))), le_maxOf _ _ _ (List.mem_cons_of_mem _ (List.mem_map_of_mem (List.mem_range.mpr ht)))⟩

/-- **C134 (full scale).** The default full scale of `plotphase.m` is the range over all runs, that of `analyze_decomposition_polar` the range of the averaged record, which is never larger; for one
run they are the same, and then the Python decibels are those of MATLAB up to the `1e-20` Python adds inside the logarithm. -/
theorem C134_scale (solve solve' : Lstsq) (hs : IsLstsq solve) (hs' : IsLstsq solve') (runs n : ℕ) (hruns : 0 < runs) (hn : 1 < n) (x : ℕ → ℕ → ℝ) (H : ℕ) (m : MlLms)
    (hm : mlPlotphaseLms solve' runs n x none H = some m) :
    recMax n (averageRecord runs x) - recMin n (averageRecord runs x) ≤ m.scale ∧
    (runs = 1 → m.scale = recMax n (averageRecord runs x) - recMin n (averageRecord runs x) ∧
      ∀ (freq : Option ℝ) (maxIter : ℤ) (tol : ℝ) (r : HarmonicSplit), decomposeHarmonic solve runs n x H freq maxIter tol = .ok r → m.freq = r.fundamentalFreq →
      ∀ k : ℕ, r.fundamentalFreq = k / n → 2 * H + 1 ≤ n → (∀ j : ℕ, 0 < j → j ≤ 2 * H → ∀ z : ℤ, r.fundamentalFreq * j ≠ z) →
        (∀ i < H, r.magnitudesDb i = 20 * Real.logb 10 (m.mags i + 1 / 10 ^ 20)) ∧ r.noiseDb = 20 * Real.logb 10 m.noise) := by
  have hn0 : 0 < n := by omega
  have hsc := (lms_ok solve' runs n x none H m hm).1
  rw [Option.getD_none] at hsc
  constructor
  · obtain ⟨⟨a, ha, ea⟩, ⟨b, hb, eb⟩⟩ := rec_mem n hn0 (averageRecord runs x)
    rw [hsc, ← ea, ← eb]
    have hr0 : (0 : ℝ) < runs := by exact_mod_cast hruns
    have hall : ∀ t < n, (∀ i < runs, recMin runs (fun i => recMin n (x i)) ≤ x i t ∧ x i t ≤ recMax runs fun i => recMax n (x i)) := by
      intro t ht i hi
      have h1 := rec_range' n (x i) t ht
      have h2 := (rec_range' runs (fun i => recMin n (x i)) i hi).1
      have h3 := (rec_range' runs (fun i => recMax n (x i)) i hi).2
      exact ⟨le_trans h2 h1.1, le_trans h1.2 h3⟩
    have hup : averageRecord runs x b ≤ recMax runs fun i => recMax n (x i) := by
      unfold averageRecord
      rw [div_le_iff₀ hr0]
      calc _ ≤ ∑ i ∈ range runs, (recMax runs fun i => recMax n (x i)) := sum_le_sum fun i hi => (hall b hb i (mem_range.mp hi)).2
        _ = _ := by rw [sum_const, card_range, nsmul_eq_mul, mul_comm]
    have hlo : recMin runs (fun i => recMin n (x i)) ≤ averageRecord runs x a := by
      unfold averageRecord
      rw [le_div_iff₀ hr0]
      calc _ = ∑ i ∈ range runs, (recMin runs fun i => recMin n (x i)) := by rw [sum_const, card_range, nsmul_eq_mul, mul_comm]
        _ ≤ _ := sum_le_sum fun i hi => (hall a ha i (mem_range.mp hi)).1
    unfold mlLmsScale
    linarith
  · intro h1
    subst h1
    have hav : averageRecord 1 x = x 0 := by
      funext t
      unfold averageRecord
      simp
    have hscale : m.scale = recMax n (averageRecord 1 x) - recMin n (averageRecord 1 x) := by
      rw [hsc, hav]
      unfold mlLmsScale recMax recMin
      simp [maxOf, minOf]
    refine ⟨hscale, fun freq maxIter tol r h hf k hk hlen hfreq => ?_⟩
    obtain ⟨-, s2, s3⟩ := C134_same solve solve' hs hs' 1 n (by omega) x H freq maxIter tol r h none m hm hf k hk hlen hfreq
    have hR := scale_pos solve' 1 n x none H m hm
    obtain ⟨hH, hr, -⟩ := decompose_ok solve 1 n x H freq maxIter tol r h (by omega)
    have e1 : ∀ i, r.magnitudesDb i = 20 * Real.logb 10 (r.magnitudes i / (recMax n (averageRecord 1 x) - recMin n (averageRecord 1 x)) + 1 / 10 ^ 20) := fun i => by rw [hr]; rfl
    have e2 : r.noiseDb = 20 * Real.logb 10 (r.residualRms / (recMax n (averageRecord 1 x) - recMin n (averageRecord 1 x))) := by rw [hr]; rfl
    constructor
    · intro i hi
      rw [e1 i, ← (s3 i hi).1, ← hscale, mul_div_cancel_left₀ _ hR.ne']
    · rw [e2, ← s2, ← hscale, mul_div_cancel_left₀ _ hR.ne']

/-- **C134 (default calls on a sine).** For one run holding a whole number `k` of periods of a sine, `0 < k < n/2 - 1`, both default calls work at `k/n`. -/
theorem C134_sine (solve solve' : Lstsq) (hs : IsLstsq solve) (hs' : IsLstsq solve') (n k : ℕ) (hn : 5 ≤ n) (hbig : n ≤ 10 ^ 9) (hk : 0 < k) (hlast : k + 1 < n / 2) (A θ C : ℝ) (hA : 0 < A)
    (ht0 : -Real.pi < θ) (ht1 : θ < Real.pi) (H : ℕ) (hH : 0 < H) (x : ℕ → ℕ → ℝ) (hy : ∀ t < n, x 0 t = A * Real.cos (2 * Real.pi * (k / n) * t + θ) + C) :
    ∃ r m, decomposeHarmonic solve 1 n x H none 1 (1 / 10 ^ 9) = .ok r ∧ mlPlotphaseLms solve' 1 n x none H = some m ∧ r.fundamentalFreq = k / n ∧ m.freq = k / n := by
  have hn0 : n ≠ 0 := by omega
  have hnR : (n : ℝ) ≠ 0 := Nat.cast_ne_zero.mpr hn0
  have hsum : ∑ t ∈ range n, Real.cos (2 * Real.pi * (k / n) * t + θ) = 0 := by
    have := sum_cos_zero n hn0 ((k : ℕ) : ℤ) (by
      intro h
      have := Int.le_of_dvd (by exact_mod_cast hk) h
      omega) θ
    rw [← this]
    refine sum_congr rfl fun t _ => ?_
    congr 1
    push_cast
    ring
  have hmean : colMean n (x 0) = C := by
    unfold colMean
    rw [sum_congr rfl fun t ht => hy t (mem_range.mp ht), sum_add_distrib, ← mul_sum, hsum, sum_const, card_range, nsmul_eq_mul]
    field_simp
    ring
  have hav : averageRuns 1 n x = (n, x 0) := by
    unfold averageRuns
    rw [if_neg (by omega)]
    simp
  have hav' : (fun t => (∑ i ∈ range 1, x i t) / ((1 : ℕ) : ℝ)) = x 0 := by
    funext t
    simp
  have hscale : mlLmsScale 1 n x ≠ 0 := by
    have : mlLmsScale 1 n x = recMax n (x 0) - recMin n (x 0) := by
      unfold mlLmsScale recMax recMin
      simp [maxOf, minOf]
    rw [this]
    intro h0
    -- a constant record has no sample different from its mean
    have hconst : ∀ t < n, x 0 t = x 0 0 := by
      intro t ht
      have a := rec_range' n (x 0) t ht
      have b := rec_range' n (x 0) 0 (by omega)
      linarith [a.1, a.2, b.1, b.2]
    have hC : x 0 0 = C := by
      rw [← hmean]
      unfold colMean
      rw [sum_congr rfl fun t ht => hconst t (mem_range.mp ht), sum_const, card_range, nsmul_eq_mul, mul_div_cancel_left₀ _ hnR]
    have hz : ∀ t < n, Real.cos (2 * Real.pi * (k / n) * t + θ) = 0 := by
      intro t ht
      have := hy t ht
      rw [hconst t ht, hC] at this
      have : A * Real.cos (2 * Real.pi * (k / n) * t + θ) = 0 := by linarith
      exact (mul_eq_zero.mp this).resolve_left hA.ne'
    have h0' := hz 0 (by omega)
    have h1' := hz 1 (by omega)
    rw [Nat.cast_zero, mul_zero, zero_add] at h0'
    rw [Nat.cast_one, mul_one, Real.cos_add, h0', mul_zero, zero_sub, neg_eq_zero] at h1'
    have hkn : (k : ℝ) / n < 1 / 2 := by
      rw [div_lt_div_iff₀ (by positivity) (by norm_num)]
      have : 2 * k < n := by omega
      have : (2 : ℝ) * k < n := by exact_mod_cast this
      linarith
    have hkn0 : (0 : ℝ) < (k : ℝ) / n := by positivity
    have hsin : 0 < Real.sin (2 * Real.pi * (k / n)) := Real.sin_pos_of_pos_of_lt_pi (by positivity) (by nlinarith [Real.pi_pos])
    have hs0 : Real.sin θ = 0 := (mul_eq_zero.mp h1').resolve_left hsin.ne'
    have := Real.sin_sq_add_cos_sq θ
    rw [hs0, h0'] at this
    norm_num at this
  set R := mlLmsScale 1 n x with hR
  have hRpos : 0 < R := lt_of_le_of_ne (scale_nonneg 1 n x) (Ne.symm hscale)
  obtain ⟨fit, -, f1, -, -, -, f5, -⟩ := C124_coherent solve solve' hs hs' n k hn hbig hk hlast A θ 0 hA ht0 ht1 1 (1 / 10 ^ 9) (fun t => x 0 t - colMean n (x 0))
    (fun t ht => by rw [hmean, hy t ht]; ring)
  obtain ⟨-, q, -, q2, -, q4, -⟩ := C124_coherent solve solve' hs hs' n k hn hbig hk hlast (A / R) θ 0 (div_pos hA hRpos) ht0 ht1 1 (1 / 10 ^ 9) (fun t => (x 0 t - colMean n (x 0)) / R)
    (fun t ht => by rw [hmean, hy t ht]; ring)
  refine ⟨harmonicSplit solve n (x 0) fit.frequency H, mlLmsSplit solve' n (x 0) R q.freq H, ?_, ?_, f5, q4⟩
  · unfold decomposeHarmonic
    rw [hav]
    simp only
    rw [show ((1 : ℕ) : ℤ) = 1 by rfl] at f1
    rw [f1]
    simp only
    rw [if_neg (by omega), Int.toNat_natCast]
  · unfold mlPlotphaseLms
    rw [if_neg (by simp)]
    simp only [Option.getD_none]
    rw [if_neg (by rw [not_or]; exact ⟨hscale, by omega⟩), hav', ← hR,
      show (fun t => ((∑ i ∈ range 1, x i t) / ((1 : ℕ) : ℝ) - colMean n (x 0)) / R) = fun t => (x 0 t - colMean n (x 0)) / R by funext t; simp, q2, Option.map_some]

/-- Non-vacuity of `C134_same` and `C134_scale`: two periods of a sine in nine samples, two harmonics. -/
example (solve solve' : Lstsq) (hs : IsLstsq solve) (hs' : IsLstsq solve') :
    ∃ r m, decomposeHarmonic solve 1 9 (fun _ t => 3 * Real.cos (2 * Real.pi * (((2 : ℕ) : ℝ) / (9 : ℕ)) * t + 1) + 7) (2 : ℕ) none 1 (1 / 10 ^ 9) = .ok r ∧
      mlPlotphaseLms solve' 1 9 (fun _ t => 3 * Real.cos (2 * Real.pi * (((2 : ℕ) : ℝ) / (9 : ℕ)) * t + 1) + 7) none 2 = some m ∧ m.freq = r.fundamentalFreq ∧
      (∀ i < 2, m.scale * m.mags i = r.magnitudes i ∧ m.phases i = r.phases i) := by
  obtain ⟨r, m, h1, h2, h3, h4⟩ := C134_sine solve solve' hs hs' 9 2 (by norm_num) (by norm_num) (by norm_num) (by norm_num) 3 1 7 (by norm_num)
    (by have := Real.pi_gt_three; linarith) (by have := Real.pi_gt_three; linarith) 2 (by norm_num)
    (fun _ t => 3 * Real.cos (2 * Real.pi * (((2 : ℕ) : ℝ) / (9 : ℕ)) * t + 1) + 7) (fun t _ => rfl)
  refine ⟨r, m, h1, h2, by rw [h3, h4], ?_⟩
  refine (C134_same solve solve' hs hs' 1 9 (by norm_num) _ 2 none 1 (1 / 10 ^ 9) r h1 none m h2 (by rw [h3, h4]) 2 h3 (by norm_num) ?_).2.2
  intro j h0 h1 z hz
  rw [h3] at hz
  have : (2 * j : ℤ) = 9 * z := by
    have : (2 : ℝ) * j = 9 * z := by push_cast at hz; linarith
    exact_mod_cast this
  omega

/-- `C134_exact_iff` on three quarters of a period of a sine in three samples: the Python fit is exact, the LMS mode of `plotphase.m` is not. -/
example (solve' : Lstsq) (hs' : IsLstsq solve') : ¬ ∀ t < 3, (mlLmsSplit solve' 3 (fun t => Real.sin (2 * Real.pi * (1 / 4) * t)) 1 (1 / 4) 1).residual t = 0 := by
  rw [C134_exact_iff solve' hs' 3 _ 1 one_pos (1 / 4) 1 (by norm_num) (by
    intro j h0 h1 z hz
    have : (j : ℤ) = 4 * z := by
      have : (j : ℝ) = 4 * z := by linarith
      exact_mod_cast this
    omega) 0 (fun _ => 1) (fun _ => Real.pi / 2) (by
    intro t _
    unfold distorted
    rw [sum_range_one, Real.cos_sub_pi_div_two, one_mul, zero_add, Nat.cast_zero, zero_add, one_mul])]
  rw [sum_range_succ, sum_range_succ, sum_range_one]
  have e1 : 2 * Real.pi * (1 / 4) * ((1 : ℕ) : ℝ) = Real.pi / 2 := by push_cast; ring
  have e2 : 2 * Real.pi * (1 / 4) * ((2 : ℕ) : ℝ) = Real.pi := by push_cast; ring
  rw [e1, e2, Real.sin_pi_div_two, Real.sin_pi, Nat.cast_zero, mul_zero, Real.sin_zero]
  norm_num

end Verif
