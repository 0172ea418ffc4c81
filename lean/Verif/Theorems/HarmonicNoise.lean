import Verif.Theorems.HarmonicSplit
import Verif.Theorems.Mismatch
import Verif.Theorems.CapMismatch
import Mathlib.MeasureTheory.Function.L2Space

/-!
# C152: accuracy of the harmonic decomposition of a noisy coherent record

With the frequency of a whole number of periods the fitted columns are orthogonal: the reported magnitudes are the values of the discrete
Fourier transform at the harmonics, powers add up, and an additive error changes magnitudes and residual by no more than its own power.
-/

namespace Verif

open Model Finset MeasureTheory ProbabilityTheory

/-! ## Orthogonality -/

/-- `b` periods in `n` samples, and no two of the harmonics up to `H` (nor the constant) coincide after aliasing. -/
structure Spec.HarmonicsApart (n b H : ℕ) : Prop where
  pos : 0 < n
  apart : ∀ m : ℕ, 0 < m → m ≤ 2 * H → ¬ n ∣ m * b

open Spec

private noncomputable def C (f : ℝ) (k t : ℕ) : ℝ := Real.cos (((k : ℝ) + 1) * (2 * Real.pi * f * t))
private noncomputable def S (f : ℝ) (k t : ℕ) : ℝ := Real.sin (((k : ℝ) + 1) * (2 * Real.pi * f * t))

private theorem sum_mult {n b H : ℕ} (h : HarmonicsApart n b H) (m : ℤ) (h0 : m ≠ 0) (h1 : |m| ≤ 2 * H) (c : ℝ) :
    ∑ t ∈ range n, Real.cos ((m : ℝ) * (2 * Real.pi * ((b : ℝ) / n) * t) + c) = 0 := by
  have hd : ¬ (n : ℤ) ∣ m * b := by
    intro hd
    refine h.apart m.natAbs (by omega) (by have := Int.natCast_natAbs m; omega) ?_
    have := Int.natAbs_dvd_natAbs.mpr hd
    rwa [Int.natAbs_natCast, Int.natAbs_mul, Int.natAbs_natCast] at this
  have := sum_cos_zero n h.pos.ne' (m * b) hd c
  rw [← this]
  refine sum_congr rfl fun t _ => ?_
  congr 2
  push_cast
  ring

variable {n b H : ℕ}

private theorem sum_C (h : HarmonicsApart n b H) (k : ℕ) (hk : k < H) : ∑ t ∈ range n, C ((b : ℝ) / n) k t = 0 := by
  have := sum_mult h (k + 1) (by omega) (by rw [abs_of_nonneg (by omega)]; omega) 0
  rw [← this]
  refine sum_congr rfl fun t _ => ?_
  unfold C
  push_cast
  rw [add_zero]

private theorem sum_S (h : HarmonicsApart n b H) (k : ℕ) (hk : k < H) : ∑ t ∈ range n, S ((b : ℝ) / n) k t = 0 := by
  have := sum_mult h (k + 1) (by omega) (by rw [abs_of_nonneg (by omega)]; omega) (-(Real.pi / 2))
  rw [← this]
  refine sum_congr rfl fun t _ => ?_
  unfold S
  push_cast
  rw [← sub_eq_add_neg, Real.cos_sub_pi_div_two]

/-- Sum of the cosine of a difference of two multiples. -/
private theorem sum_diff (h : HarmonicsApart n b H) (j k : ℕ) (hj : j < H) (hk : k < H) (c : ℝ) :
    ∑ t ∈ range n, Real.cos (((j : ℝ) + 1) * (2 * Real.pi * ((b : ℝ) / n) * t) - ((k : ℝ) + 1) * (2 * Real.pi * ((b : ℝ) / n) * t) + c)
      = if j = k then n * Real.cos c else 0 := by
  split_ifs with e
  · subst e
    rw [sum_congr rfl (fun t _ => by rw [sub_self, zero_add]), sum_const, card_range, nsmul_eq_mul]
  · rw [← sum_mult h ((j : ℤ) - k) (by omega) (by rw [abs_le]; omega) c]
    refine sum_congr rfl fun t _ => ?_
    push_cast
    congr 2
    ring

private theorem sum_plus (h : HarmonicsApart n b H) (j k : ℕ) (hj : j < H) (hk : k < H) (c : ℝ) :
    ∑ t ∈ range n, Real.cos (((j : ℝ) + 1) * (2 * Real.pi * ((b : ℝ) / n) * t) + ((k : ℝ) + 1) * (2 * Real.pi * ((b : ℝ) / n) * t) + c) = 0 := by
  rw [← sum_mult h ((j : ℤ) + k + 2) (by omega) (by rw [abs_of_nonneg (by omega)]; omega) c]
  refine sum_congr rfl fun t _ => ?_
  push_cast
  congr 2
  ring

private theorem sum_CC (h : HarmonicsApart n b H) (j k : ℕ) (hj : j < H) (hk : k < H) :
    ∑ t ∈ range n, C ((b : ℝ) / n) j t * C ((b : ℝ) / n) k t = if j = k then (n : ℝ) / 2 else 0 := by
  have h1 := sum_diff h j k hj hk 0
  have h2 := sum_plus h j k hj hk 0
  have e : ∑ t ∈ range n, C ((b : ℝ) / n) j t * C ((b : ℝ) / n) k t = ((if j = k then n * Real.cos 0 else 0) + 0) / 2 := by
    rw [← h1]
    nth_rw 2 [← h2]
    rw [← sum_add_distrib, sum_div]
    refine sum_congr rfl fun t _ => ?_
    unfold C
    rw [add_zero, add_zero, Real.cos_sub, Real.cos_add]
    ring
  rw [e, Real.cos_zero]
  split_ifs <;> ring

private theorem sum_SS (h : HarmonicsApart n b H) (j k : ℕ) (hj : j < H) (hk : k < H) :
    ∑ t ∈ range n, S ((b : ℝ) / n) j t * S ((b : ℝ) / n) k t = if j = k then (n : ℝ) / 2 else 0 := by
  have h1 := sum_diff h j k hj hk 0
  have h2 := sum_plus h j k hj hk 0
  have e : ∑ t ∈ range n, S ((b : ℝ) / n) j t * S ((b : ℝ) / n) k t = ((if j = k then n * Real.cos 0 else 0) - 0) / 2 := by
    rw [← h1]
    nth_rw 2 [← h2]
    rw [← sum_sub_distrib, sum_div]
    refine sum_congr rfl fun t _ => ?_
    unfold S
    rw [add_zero, add_zero, Real.cos_sub, Real.cos_add]
    ring
  rw [e, Real.cos_zero]
  split_ifs <;> ring

private theorem sum_CS (h : HarmonicsApart n b H) (j k : ℕ) (hj : j < H) (hk : k < H) :
    ∑ t ∈ range n, C ((b : ℝ) / n) j t * S ((b : ℝ) / n) k t = 0 := by
  have h1 := sum_diff h j k hj hk (Real.pi / 2)
  have h2 := sum_plus h j k hj hk (Real.pi / 2)
  have e : ∑ t ∈ range n, C ((b : ℝ) / n) j t * S ((b : ℝ) / n) k t = ((if j = k then n * Real.cos (Real.pi / 2) else 0) - 0) / 2 := by
    rw [← h1, ← h2, ← sum_sub_distrib, sum_div]
    refine sum_congr rfl fun t _ => ?_
    unfold C S
    rw [Real.cos_add_pi_div_two, Real.cos_add_pi_div_two, Real.sin_sub, Real.sin_add]
    ring
  rw [e, Real.cos_pi_div_two]
  split_ifs <;> ring

/-- A combination of harmonics. -/
private noncomputable def combo (f : ℝ) (H : ℕ) (p q : ℕ → ℝ) (t : ℕ) : ℝ := ∑ k ∈ range H, (p k * C f k t + q k * S f k t)

private theorem combo_sum (h : HarmonicsApart n b H) (p q : ℕ → ℝ) : ∑ t ∈ range n, combo ((b : ℝ) / n) H p q t = 0 := by
  unfold combo
  rw [sum_comm]
  refine sum_eq_zero fun k hk => ?_
  rw [sum_add_distrib, ← mul_sum, ← mul_sum, sum_C h k (mem_range.mp hk), sum_S h k (mem_range.mp hk)]
  ring

private theorem combo_C (h : HarmonicsApart n b H) (p q : ℕ → ℝ) (k : ℕ) (hk : k < H) :
    ∑ t ∈ range n, combo ((b : ℝ) / n) H p q t * C ((b : ℝ) / n) k t = n / 2 * p k := by
  have e : ∀ t, combo ((b : ℝ) / n) H p q t * C ((b : ℝ) / n) k t
      = ∑ j ∈ range H, (p j * (C ((b : ℝ) / n) j t * C ((b : ℝ) / n) k t) + q j * (C ((b : ℝ) / n) k t * S ((b : ℝ) / n) j t)) := by
    intro t
    unfold combo
    rw [sum_mul]
    exact sum_congr rfl fun j _ => by ring
  rw [sum_congr rfl (fun t _ => e t), sum_comm, sum_congr rfl (fun j hj => by
    rw [sum_add_distrib, ← mul_sum, ← mul_sum, sum_CC h j k (mem_range.mp hj) hk, sum_CS h k j hk (mem_range.mp hj), mul_zero, add_zero, mul_ite, mul_zero])]
  rw [sum_ite_eq', if_pos (mem_range.mpr hk)]
  ring

private theorem combo_S (h : HarmonicsApart n b H) (p q : ℕ → ℝ) (k : ℕ) (hk : k < H) :
    ∑ t ∈ range n, combo ((b : ℝ) / n) H p q t * S ((b : ℝ) / n) k t = n / 2 * q k := by
  have e : ∀ t, combo ((b : ℝ) / n) H p q t * S ((b : ℝ) / n) k t
      = ∑ j ∈ range H, (p j * (C ((b : ℝ) / n) j t * S ((b : ℝ) / n) k t) + q j * (S ((b : ℝ) / n) j t * S ((b : ℝ) / n) k t)) := by
    intro t
    unfold combo
    rw [sum_mul]
    exact sum_congr rfl fun j _ => by ring
  rw [sum_congr rfl (fun t _ => e t), sum_comm, sum_congr rfl (fun j hj => by
    rw [sum_add_distrib, ← mul_sum, ← mul_sum, sum_SS h j k (mem_range.mp hj) hk, sum_CS h j k (mem_range.mp hj) hk, mul_zero, zero_add, mul_ite, mul_zero])]
  rw [sum_ite_eq', if_pos (mem_range.mpr hk)]
  ring

/-- Inner product of a record with a combination. -/
private theorem inner_combo (g : ℕ → ℝ) (f : ℝ) (p q : ℕ → ℝ) :
    ∑ t ∈ range n, g t * combo f H p q t = ∑ k ∈ range H, (p k * ∑ t ∈ range n, g t * C f k t + q k * ∑ t ∈ range n, g t * S f k t) := by
  unfold combo
  simp only [mul_sum, ← sum_add_distrib]
  rw [sum_comm]
  exact sum_congr rfl fun k _ => sum_congr rfl fun t _ => by ring

/-- The transform at a harmonic, from the inner products. -/
private theorem dft_harmonic (hn : 0 < n) (g : ℕ → ℝ) (k : ℕ) :
    dft n (fun t => (g t : ℂ)) (((k + 1) * b : ℕ) : ℤ)
      = ((∑ t ∈ range n, g t * C ((b : ℝ) / n) k t : ℝ) : ℂ) - ((∑ t ∈ range n, g t * S ((b : ℝ) / n) k t : ℝ) : ℂ) * Complex.I := by
  have hnR : (n : ℝ) ≠ 0 := by exact_mod_cast hn.ne'
  unfold dft
  rw [Complex.ofReal_sum, Complex.ofReal_sum, sum_mul, ← sum_sub_distrib]
  refine sum_congr rfl fun t _ => ?_
  have e : cis (-((((k + 1) * b : ℕ) : ℤ) * t / n)) = (C ((b : ℝ) / n) k t : ℂ) - (S ((b : ℝ) / n) k t : ℂ) * Complex.I := by
    have e1 : 2 * Real.pi * (-((((k + 1) * b : ℕ) : ℤ) * t / n) : ℝ) = -(((k : ℝ) + 1) * (2 * Real.pi * ((b : ℝ) / n) * t)) := by
      push_cast
      ring
    apply Complex.ext
    · rw [cis_re, e1, Real.cos_neg, Complex.sub_re, Complex.ofReal_re, Complex.mul_I_re, Complex.ofReal_im, neg_zero, sub_zero]
      rfl
    · rw [cis_im, e1, Real.sin_neg, Complex.sub_im, Complex.ofReal_im, Complex.mul_I_im, Complex.ofReal_re, zero_sub]
      rfl
  rw [e]
  push_cast
  ring

/-- The split record as constant, combination and residual. -/
private theorem split_combo (solve : Lstsq) (hs : IsLstsq solve) (runs : ℕ) (hn1 : n ≠ 1) (x : ℕ → ℕ → ℝ) (freq : Option ℝ) (maxIter : ℤ) (tol : ℝ) (r : HarmonicSplit)
    (h : decomposeHarmonic solve runs n x H freq maxIter tol = .ok r) : ∃ (D : ℝ) (p q : ℕ → ℝ),
      (∀ t, averageRecord runs x t = D + combo r.fundamentalFreq H p q t + r.noiseResidual t) ∧ (∀ k, r.magnitudes k = 2 * Real.sqrt (p k ^ 2 + q k ^ 2)) ∧
      ∑ t ∈ range n, r.noiseResidual t = 0 ∧ (∀ k < H, ∑ t ∈ range n, r.noiseResidual t * C r.fundamentalFreq k t = 0 ∧ ∑ t ∈ range n, r.noiseResidual t * S r.fundamentalFreq k t = 0) ∧
      (0 < n → r.residualRms ^ 2 * n = 8 * ∑ t ∈ range n, r.noiseResidual t ^ 2) ∧ 0 ≤ r.residualRms := by
  obtain ⟨hsplit, _, hsum, horth, _, hrms⟩ := C51_split solve hs runs n hn1 x H freq maxIter tol r h
  obtain ⟨D, ψ, hfund, hharm, hmag, hph0⟩ := C51_reconstruction solve runs n hn1 x H freq maxIter tol r h
  obtain ⟨hH, hr, _⟩ := decompose_ok solve runs n x H freq maxIter tol r h hn1
  have hH' : 0 < H := by exact_mod_cast hH
  rw [Int.toNat_natCast] at hharm
  have hpolar : ∀ B θ u : ℝ, B * Real.cos (u - θ) = B * Real.cos θ * Real.cos u + B * Real.sin θ * Real.sin u := by
    intro B θ u
    rw [Real.cos_sub]
    ring
  refine ⟨D, fun k => r.magnitudes k / 2 * Real.cos (((k : ℝ) + 1) * ψ + r.phases k), fun k => r.magnitudes k / 2 * Real.sin (((k : ℝ) + 1) * ψ + r.phases k),
    fun t => ?_, fun k => ?_, hsum, fun k hk => horth k (by exact_mod_cast hk), hrms, by rw [hr]; unfold harmonicSplit; simp only; positivity⟩
  · rw [← hsplit t, hfund t, hharm t]
    unfold combo
    rw [← Nat.Ico_zero_eq_range, sum_eq_sum_Ico_succ_bot hH']
    have e0 : r.magnitudes 0 / 2 * Real.cos (2 * Real.pi * r.fundamentalFreq * t - ψ)
        = r.magnitudes 0 / 2 * Real.cos ((((0 : ℕ) : ℝ) + 1) * ψ + r.phases 0) * C r.fundamentalFreq 0 t + r.magnitudes 0 / 2 * Real.sin ((((0 : ℕ) : ℝ) + 1) * ψ + r.phases 0) * S r.fundamentalFreq 0 t := by
      rw [hpolar, hph0]
      unfold C S
      simp
    have e1 : ∑ k ∈ Ico 1 H, r.magnitudes k / 2 * Real.cos (((k : ℝ) + 1) * (2 * Real.pi * r.fundamentalFreq * t - ψ) - r.phases k)
        = ∑ k ∈ Ico (0 + 1) H, (r.magnitudes k / 2 * Real.cos (((k : ℝ) + 1) * ψ + r.phases k) * C r.fundamentalFreq k t
          + r.magnitudes k / 2 * Real.sin (((k : ℝ) + 1) * ψ + r.phases k) * S r.fundamentalFreq k t) := by
      rw [zero_add]
      refine sum_congr rfl fun k _ => ?_
      rw [show ((k : ℝ) + 1) * (2 * Real.pi * r.fundamentalFreq * t - ψ) - r.phases k
        = ((k : ℝ) + 1) * (2 * Real.pi * r.fundamentalFreq * t) - (((k : ℝ) + 1) * ψ + r.phases k) by ring, hpolar]
      rfl
    rw [e0, e1]
    ring
  · have : (r.magnitudes k / 2 * Real.cos (((k : ℝ) + 1) * ψ + r.phases k)) ^ 2 + (r.magnitudes k / 2 * Real.sin (((k : ℝ) + 1) * ψ + r.phases k)) ^ 2 = (r.magnitudes k / 2) ^ 2 := by
      rw [mul_pow, mul_pow, ← mul_add, Real.cos_sq_add_sin_sq, mul_one]
    rw [this, Real.sqrt_sq (by have := (hmag k).1; linarith)]
    ring

private theorem norm_ofReal_sub_mul_I (u v : ℝ) : ‖(u : ℂ) - (v : ℂ) * Complex.I‖ = Real.sqrt (u ^ 2 + v ^ 2) := by
  rw [Complex.norm_def, Complex.normSq_apply]
  simp [pow_two]

/-- The fitted coefficients are the inner products. -/
private theorem coeffs (ha : HarmonicsApart n b H) (y ρ : ℕ → ℝ) (D : ℝ) (p q : ℕ → ℝ) (hy : ∀ t < n, y t = D + combo ((b : ℝ) / n) H p q t + ρ t)
    (h0 : ∑ t ∈ range n, ρ t = 0) (h1 : ∀ k < H, ∑ t ∈ range n, ρ t * C ((b : ℝ) / n) k t = 0 ∧ ∑ t ∈ range n, ρ t * S ((b : ℝ) / n) k t = 0) :
    ∑ t ∈ range n, y t = n * D ∧ ∀ k < H, ∑ t ∈ range n, y t * C ((b : ℝ) / n) k t = n / 2 * p k ∧ ∑ t ∈ range n, y t * S ((b : ℝ) / n) k t = n / 2 * q k := by
  refine ⟨?_, fun k hk => ⟨?_, ?_⟩⟩
  · rw [sum_congr rfl (fun t ht => hy t (mem_range.mp ht)), sum_add_distrib, sum_add_distrib, combo_sum ha, h0, sum_const, card_range, nsmul_eq_mul]
    ring
  · rw [sum_congr rfl (fun t ht => by rw [hy t (mem_range.mp ht), add_mul, add_mul]), sum_add_distrib, sum_add_distrib, combo_C ha p q k hk, (h1 k hk).1, ← mul_sum, sum_C ha k hk]
    ring
  · rw [sum_congr rfl (fun t ht => by rw [hy t (mem_range.mp ht), add_mul, add_mul]), sum_add_distrib, sum_add_distrib, combo_S ha p q k hk, (h1 k hk).2, ← mul_sum, sum_S ha k hk]
    ring

/-- **C152 (Fourier coefficients).** Called with the frequency of `b` whole periods, `decompose_harmonic_error` reports for every harmonic `4 / N` times the magnitude of
the discrete Fourier transform of the averaged record at the (aliased) bin of that harmonic, whatever the record is. -/
theorem C152_dft (solve : Lstsq) (hs : IsLstsq solve) (runs : ℕ) (hn1 : n ≠ 1) (x : ℕ → ℕ → ℝ) (freq : Option ℝ) (maxIter : ℤ) (tol : ℝ) (r : HarmonicSplit)
    (h : decomposeHarmonic solve runs n x H freq maxIter tol = .ok r) (ha : HarmonicsApart n b H) (hf : r.fundamentalFreq = (b : ℝ) / n) (k : ℕ) (hk : k < H) :
    r.magnitudes k = 4 / n * ‖dft n (fun t => (averageRecord runs x t : ℂ)) (((k + 1) * b : ℕ) : ℤ)‖ := by
  obtain ⟨D, p, q, hy, hm, h0, h1, _, _⟩ := split_combo solve hs runs hn1 x freq maxIter tol r h
  rw [hf] at hy h1
  have hc := (coeffs ha _ _ D p q (fun t _ => hy t) h0 h1).2 k hk
  have hnR : (0 : ℝ) < n := by exact_mod_cast ha.pos
  rw [dft_harmonic ha.pos, norm_ofReal_sub_mul_I, hc.1, hc.2, hm k, mul_pow, mul_pow, ← mul_add, Real.sqrt_mul (by positivity), Real.sqrt_sq (by positivity)]
  field_simp
  ring

/-- **C152 (powers add up).** The variance of the averaged record is the sum of the powers of the reported harmonics (peak-to-peak magnitude squared over 8) and of
the reported residual. -/
theorem C152_power (solve : Lstsq) (hs : IsLstsq solve) (runs : ℕ) (hn1 : n ≠ 1) (x : ℕ → ℕ → ℝ) (freq : Option ℝ) (maxIter : ℤ) (tol : ℝ) (r : HarmonicSplit)
    (h : decomposeHarmonic solve runs n x H freq maxIter tol = .ok r) (ha : HarmonicsApart n b H) (hf : r.fundamentalFreq = (b : ℝ) / n) :
    (∑ t ∈ range n, (averageRecord runs x t - (∑ u ∈ range n, averageRecord runs x u) / n) ^ 2) / n = ∑ k ∈ range H, r.magnitudes k ^ 2 / 8 + r.residualRms ^ 2 / 8 := by
  obtain ⟨D, p, q, hy, hm, h0, h1, hrms, _⟩ := split_combo solve hs runs hn1 x freq maxIter tol r h
  rw [hf] at hy h1
  have hnR : (0 : ℝ) < n := by exact_mod_cast ha.pos
  have hc := (coeffs ha _ _ D p q (fun t _ => hy t) h0 h1).1
  have hD : (∑ u ∈ range n, averageRecord runs x u) / n = D := by rw [hc]; field_simp
  have hmag : ∀ k, r.magnitudes k ^ 2 = 4 * (p k ^ 2 + q k ^ 2) := fun k => by rw [hm k, mul_pow, Real.sq_sqrt (by positivity)]; norm_num
  have hcc : ∑ t ∈ range n, combo ((b : ℝ) / n) H p q t * combo ((b : ℝ) / n) H p q t = n / 2 * ∑ k ∈ range H, (p k ^ 2 + q k ^ 2) := by
    rw [inner_combo, mul_sum]
    refine sum_congr rfl fun k hk => ?_
    rw [combo_C ha p q k (mem_range.mp hk), combo_S ha p q k (mem_range.mp hk)]
    ring
  have hrc : ∑ t ∈ range n, r.noiseResidual t * combo ((b : ℝ) / n) H p q t = 0 := by
    rw [inner_combo]
    refine sum_eq_zero fun k hk => ?_
    rw [(h1 k (mem_range.mp hk)).1, (h1 k (mem_range.mp hk)).2]
    ring
  have hsq : ∑ t ∈ range n, (averageRecord runs x t - D) ^ 2 = n / 2 * ∑ k ∈ range H, (p k ^ 2 + q k ^ 2) + ∑ t ∈ range n, r.noiseResidual t ^ 2 := by
    have e : ∀ t ∈ range n, (averageRecord runs x t - D) ^ 2
        = combo ((b : ℝ) / n) H p q t * combo ((b : ℝ) / n) H p q t + 2 * (r.noiseResidual t * combo ((b : ℝ) / n) H p q t) + r.noiseResidual t ^ 2 := by
      intro t _
      rw [hy t]
      ring
    rw [sum_congr rfl e, sum_add_distrib, sum_add_distrib, ← mul_sum, hcc, hrc]
    ring
  have hr := hrms ha.pos
  have hms : ∑ k ∈ range H, r.magnitudes k ^ 2 / 8 = (∑ k ∈ range H, (p k ^ 2 + q k ^ 2)) / 2 := by
    rw [sum_div]
    exact sum_congr rfl fun k _ => by rw [hmag k]; ring
  rw [hD, hsq, hms, div_eq_iff hnR.ne']
  linarith

/-- **C152 (error of the record).** The record is offset, harmonics and an arbitrary error `e`. The residual is exactly the part of `e` away from the fitted bins, and
every magnitude is off by at most the component of `e` at its bin. -/
theorem C152_error (solve : Lstsq) (hs : IsLstsq solve) (runs : ℕ) (hn1 : n ≠ 1) (x : ℕ → ℕ → ℝ) (freq : Option ℝ) (maxIter : ℤ) (tol : ℝ) (r : HarmonicSplit)
    (h : decomposeHarmonic solve runs n x H freq maxIter tol = .ok r) (ha : HarmonicsApart n b H) (hf : r.fundamentalFreq = (b : ℝ) / n)
    (D : ℝ) (A θ : ℕ → ℝ) (hA : ∀ k < H, 0 ≤ A k) (e : ℕ → ℝ) (hy : ∀ t < n, averageRecord runs x t = distorted D ((b : ℝ) / n) H A θ t + e t) :
    r.residualRms ^ 2 / 8 * n = ∑ t ∈ range n, e t ^ 2 - (∑ t ∈ range n, e t) ^ 2 / n - 2 / n * ∑ k ∈ range H, ‖dft n (fun t => (e t : ℂ)) (((k + 1) * b : ℕ) : ℤ)‖ ^ 2 ∧
    ∀ k < H, |r.magnitudes k - 2 * A k| ≤ 4 / n * ‖dft n (fun t => (e t : ℂ)) (((k + 1) * b : ℕ) : ℤ)‖ := by
  obtain ⟨D', p, q, hy', hm, h0, h1, hrms, _⟩ := split_combo solve hs runs hn1 x freq maxIter tol r h
  rw [hf] at hy' h1
  have hnR : (0 : ℝ) < n := by exact_mod_cast ha.pos
  have hdist : ∀ t : ℕ, distorted D ((b : ℝ) / n) H A θ t = D + combo ((b : ℝ) / n) H (fun k => A k * Real.cos (θ k)) (fun k => A k * Real.sin (θ k)) t := by
    intro t
    unfold distorted combo C S
    congr 1
    refine sum_congr rfl fun k _ => ?_
    rw [Real.cos_sub]
    ring
  obtain ⟨hcD, hck⟩ := coeffs ha _ _ D' p q (fun t _ => hy' t) h0 h1
  have hsumy : ∑ t ∈ range n, averageRecord runs x t = n * D + ∑ t ∈ range n, e t := by
    rw [sum_congr rfl (fun t ht => by rw [hy t (mem_range.mp ht), hdist t]), sum_add_distrib, sum_add_distrib, combo_sum ha, sum_const, card_range, nsmul_eq_mul]
    ring
  have hyC : ∀ k < H, ∑ t ∈ range n, averageRecord runs x t * C ((b : ℝ) / n) k t = n / 2 * (A k * Real.cos (θ k)) + ∑ t ∈ range n, e t * C ((b : ℝ) / n) k t := by
    intro k hk
    rw [sum_congr rfl (fun t ht => by rw [hy t (mem_range.mp ht), hdist t, add_mul, add_mul]), sum_add_distrib, sum_add_distrib, combo_C ha _ _ k hk, ← mul_sum, sum_C ha k hk]
    ring
  have hyS : ∀ k < H, ∑ t ∈ range n, averageRecord runs x t * S ((b : ℝ) / n) k t = n / 2 * (A k * Real.sin (θ k)) + ∑ t ∈ range n, e t * S ((b : ℝ) / n) k t := by
    intro k hk
    rw [sum_congr rfl (fun t ht => by rw [hy t (mem_range.mp ht), hdist t, add_mul, add_mul]), sum_add_distrib, sum_add_distrib, combo_S ha _ _ k hk, ← mul_sum, sum_S ha k hk]
    ring
  have hnorm : ∀ k, ‖dft n (fun t => (e t : ℂ)) (((k + 1) * b : ℕ) : ℤ)‖ ^ 2
      = (∑ t ∈ range n, e t * C ((b : ℝ) / n) k t) ^ 2 + (∑ t ∈ range n, e t * S ((b : ℝ) / n) k t) ^ 2 := by
    intro k
    rw [dft_harmonic ha.pos, norm_ofReal_sub_mul_I, Real.sq_sqrt (by positivity)]
  constructor
  · have hD' : D' = D + (∑ t ∈ range n, e t) / n := by
      rw [hcD] at hsumy
      field_simp
      linarith
    have hp : ∀ k ∈ range H, p k = A k * Real.cos (θ k) + 2 / n * ∑ t ∈ range n, e t * C ((b : ℝ) / n) k t := by
      intro k hk
      have h2 := hyC k (mem_range.mp hk)
      rw [(hck k (mem_range.mp hk)).1] at h2
      field_simp
      linarith
    have hq : ∀ k ∈ range H, q k = A k * Real.sin (θ k) + 2 / n * ∑ t ∈ range n, e t * S ((b : ℝ) / n) k t := by
      intro k hk
      have h2 := hyS k (mem_range.mp hk)
      rw [(hck k (mem_range.mp hk)).2] at h2
      field_simp
      linarith
    obtain ⟨pe, hpe⟩ : ∃ pe : ℕ → ℝ, pe = fun k => 2 / n * ∑ t ∈ range n, e t * C ((b : ℝ) / n) k t := ⟨_, rfl⟩
    obtain ⟨qe, hqe⟩ : ∃ qe : ℕ → ℝ, qe = fun k => 2 / n * ∑ t ∈ range n, e t * S ((b : ℝ) / n) k t := ⟨_, rfl⟩
    have hρ : ∀ t < n, r.noiseResidual t = e t - (∑ t ∈ range n, e t) / n - combo ((b : ℝ) / n) H pe qe t := by
      intro t ht
      have h2 := hy' t
      have h3 : combo ((b : ℝ) / n) H p q t = combo ((b : ℝ) / n) H (fun k => A k * Real.cos (θ k)) (fun k => A k * Real.sin (θ k)) t + combo ((b : ℝ) / n) H pe qe t := by
        unfold combo
        rw [← sum_add_distrib]
        refine sum_congr rfl fun k hk => ?_
        rw [hp k hk, hq k hk, hpe, hqe]
        ring
      rw [hy t ht, hdist t, h3, hD'] at h2
      linarith
    have hρe : ∑ t ∈ range n, r.noiseResidual t ^ 2 = ∑ t ∈ range n, r.noiseResidual t * e t := by
      have e1 : ∀ t ∈ range n, r.noiseResidual t ^ 2
          = r.noiseResidual t * e t - (∑ t ∈ range n, e t) / n * r.noiseResidual t - r.noiseResidual t * combo ((b : ℝ) / n) H pe qe t := by
        intro t ht
        rw [pow_two]
        nth_rw 2 [hρ t (mem_range.mp ht)]
        ring
      rw [sum_congr rfl e1, sum_sub_distrib, sum_sub_distrib, ← mul_sum, h0, inner_combo, sum_eq_zero (s := range H) fun k hk => by
        rw [(h1 k (mem_range.mp hk)).1, (h1 k (mem_range.mp hk)).2, mul_zero, mul_zero, add_zero]]
      ring
    have hfin : ∑ t ∈ range n, r.noiseResidual t * e t = ∑ t ∈ range n, e t ^ 2 - (∑ t ∈ range n, e t) ^ 2 / n
        - 2 / n * ∑ k ∈ range H, ‖dft n (fun t => (e t : ℂ)) (((k + 1) * b : ℕ) : ℤ)‖ ^ 2 := by
      have e1 : ∀ t ∈ range n, r.noiseResidual t * e t = e t ^ 2 - (∑ t ∈ range n, e t) / n * e t - e t * combo ((b : ℝ) / n) H pe qe t := by
        intro t ht
        rw [hρ t (mem_range.mp ht)]
        ring
      rw [sum_congr rfl e1, sum_sub_distrib, sum_sub_distrib, ← mul_sum, inner_combo]
      have e2 : ∑ k ∈ range H, (pe k * ∑ t ∈ range n, e t * C ((b : ℝ) / n) k t + qe k * ∑ t ∈ range n, e t * S ((b : ℝ) / n) k t)
          = 2 / n * ∑ k ∈ range H, ‖dft n (fun t => (e t : ℂ)) (((k + 1) * b : ℕ) : ℤ)‖ ^ 2 := by
        rw [mul_sum]
        refine sum_congr rfl fun k _ => ?_
        rw [hnorm k, hpe, hqe]
        ring
      rw [e2]
      ring
    rw [← hfin, ← hρe]
    have := hrms ha.pos
    linarith
  · intro k hk
    rw [C152_dft solve hs runs hn1 x freq maxIter tol r h ha hf k hk]
    have hd : dft n (fun t => (averageRecord runs x t : ℂ)) (((k + 1) * b : ℕ) : ℤ)
        = (((n / 2 * (A k * Real.cos (θ k)) : ℝ) : ℂ) - ((n / 2 * (A k * Real.sin (θ k)) : ℝ) : ℂ) * Complex.I) + dft n (fun t => (e t : ℂ)) (((k + 1) * b : ℕ) : ℤ) := by
      rw [dft_harmonic ha.pos, dft_harmonic ha.pos, hyC k hk, hyS k hk]
      push_cast
      ring
    have hA2 : 2 * A k = 4 / n * ‖((n / 2 * (A k * Real.cos (θ k)) : ℝ) : ℂ) - ((n / 2 * (A k * Real.sin (θ k)) : ℝ) : ℂ) * Complex.I‖ := by
      rw [norm_ofReal_sub_mul_I]
      have e1 : (n / 2 * (A k * Real.cos (θ k))) ^ 2 + (n / 2 * (A k * Real.sin (θ k))) ^ 2 = (n / 2 * A k) ^ 2 := by
        have := Real.cos_sq_add_sin_sq (θ k)
        linear_combination (n / 2 * A k) ^ 2 * this
      rw [e1, Real.sqrt_sq (mul_nonneg (by positivity) (hA k hk))]
      field_simp
      ring
    rw [hA2, ← mul_sub, abs_mul, abs_of_nonneg (by positivity)]
    refine mul_le_mul_of_nonneg_left ?_ (by positivity)
    rw [hd]
    refine (abs_norm_sub_norm_le _ _).trans ?_
    rw [add_sub_cancel_left]

/-- **C152 (noise).** The squared errors of all reported magnitudes and the squared reported residual together are at most eight times the mean square of the error: every
peak-to-peak magnitude, and the residual, is within `2 √2` times the rms error. -/
theorem C152_noise (solve : Lstsq) (hs : IsLstsq solve) (runs : ℕ) (hn1 : n ≠ 1) (x : ℕ → ℕ → ℝ) (freq : Option ℝ) (maxIter : ℤ) (tol : ℝ) (r : HarmonicSplit)
    (h : decomposeHarmonic solve runs n x H freq maxIter tol = .ok r) (ha : HarmonicsApart n b H) (hf : r.fundamentalFreq = (b : ℝ) / n)
    (D : ℝ) (A θ : ℕ → ℝ) (hA : ∀ k < H, 0 ≤ A k) (e : ℕ → ℝ) (hy : ∀ t < n, averageRecord runs x t = distorted D ((b : ℝ) / n) H A θ t + e t)
    (σ : ℝ) (hσ : 0 ≤ σ) (he : ∑ t ∈ range n, e t ^ 2 ≤ n * σ ^ 2) :
    ∑ k ∈ range H, (r.magnitudes k - 2 * A k) ^ 2 + r.residualRms ^ 2 ≤ 8 * σ ^ 2 ∧
    (∀ k < H, |r.magnitudes k - 2 * A k| ≤ 2 * Real.sqrt 2 * σ) ∧ r.residualRms ≤ 2 * Real.sqrt 2 * σ := by
  obtain ⟨h1, h2⟩ := C152_error solve hs runs hn1 x freq maxIter tol r h ha hf D A θ hA e hy
  have hnR : (0 : ℝ) < n := by exact_mod_cast ha.pos
  have hmain : ∑ k ∈ range H, (r.magnitudes k - 2 * A k) ^ 2 + r.residualRms ^ 2 ≤ 8 * σ ^ 2 := by
    have h3 : ∑ k ∈ range H, (r.magnitudes k - 2 * A k) ^ 2 ≤ (4 / n) ^ 2 * ∑ k ∈ range H, ‖dft n (fun t => (e t : ℂ)) (((k + 1) * b : ℕ) : ℤ)‖ ^ 2 := by
      rw [mul_sum]
      refine sum_le_sum fun k hk => ?_
      rw [← mul_pow, ← sq_abs]
      exact pow_le_pow_left₀ (abs_nonneg _) (h2 k (mem_range.mp hk)) 2
    obtain ⟨E, hE⟩ : ∃ E, E = ∑ k ∈ range H, ‖dft n (fun t => (e t : ℂ)) (((k + 1) * b : ℕ) : ℤ)‖ ^ 2 := ⟨_, rfl⟩
    rw [← hE] at h1 h3
    have h4 : 0 ≤ (∑ t ∈ range n, e t) ^ 2 / n := by positivity
    have h5 : r.residualRms ^ 2 / 8 * n ≤ n * σ ^ 2 - 2 / n * E := by linarith
    have h6 : r.residualRms ^ 2 ≤ 8 * σ ^ 2 - (4 / n) ^ 2 * E := by
      have : (4 / (n : ℝ)) ^ 2 * E = 8 / n * (2 / n * E) := by ring
      rw [this]
      have h7 : r.residualRms ^ 2 = 8 / n * (r.residualRms ^ 2 / 8 * n) := by field_simp
      rw [h7]
      have h8 := mul_le_mul_of_nonneg_left h5 (by positivity : (0 : ℝ) ≤ 8 / n)
      have h9 : 8 / (n : ℝ) * (n * σ ^ 2 - 2 / n * E) = 8 * σ ^ 2 - 8 / n * (2 / n * E) := by field_simp
      linarith
    linarith
  have hsq : (2 * Real.sqrt 2 * σ) ^ 2 = 8 * σ ^ 2 := by
    rw [mul_pow, mul_pow, Real.sq_sqrt (by norm_num)]
    norm_num
  have hnn : 0 ≤ 2 * Real.sqrt 2 * σ := by positivity
  refine ⟨hmain, fun k hk => ?_, ?_⟩
  · apply abs_le_of_sq_le_sq _ hnn
    rw [hsq]
    have := single_le_sum (f := fun k => (r.magnitudes k - 2 * A k) ^ 2) (fun i _ => sq_nonneg _) (mem_range.mpr hk)
    linarith [sq_nonneg r.residualRms]
  · apply (abs_le_of_sq_le_sq' _ hnn).2
    rw [hsq]
    have : 0 ≤ ∑ k ∈ range H, (r.magnitudes k - 2 * A k) ^ 2 := sum_nonneg fun i _ => sq_nonneg _
    linarith

/-! ## Random noise -/

section Random

variable {Ω : Type*} [MeasurableSpace Ω] (μ : Measure Ω)

/-- Second moment of a linear combination of uncorrelated noise. -/
private theorem moment (Z : ℕ → Ω → ℝ) (σ : ℝ) (h2 : ∀ i, MemLp (Z i) 2 μ) (hcov : ∀ i j, ∫ ω, Z i ω * Z j ω ∂μ = if i = j then σ ^ 2 else 0) (c : ℕ → ℝ) :
    Integrable (fun ω => (∑ t ∈ range n, Z t ω * c t) ^ 2) μ ∧ ∫ ω, (∑ t ∈ range n, Z t ω * c t) ^ 2 ∂μ = σ ^ 2 * ∑ t ∈ range n, c t ^ 2 := by
  have e : (fun ω => (∑ t ∈ range n, Z t ω * c t) ^ 2) = fun ω => ∑ s ∈ range n, ∑ t ∈ range n, c s * c t * (Z s ω * Z t ω) := by
    funext ω
    rw [pow_two, sum_mul_sum]
    exact sum_congr rfl fun s _ => sum_congr rfl fun t _ => by ring
  have hi : ∀ s t, Integrable (fun ω => c s * c t * (Z s ω * Z t ω)) μ := fun s t => ((h2 s).integrable_mul (h2 t)).const_mul _
  rw [e]
  refine ⟨integrable_finset_sum _ fun s _ => integrable_finset_sum _ fun t _ => hi s t, ?_⟩
  rw [integral_finset_sum _ fun s _ => integrable_finset_sum _ fun t _ => hi s t, mul_sum]
  refine sum_congr rfl fun s hs => ?_
  rw [integral_finset_sum _ fun t _ => hi s t, sum_congr rfl (fun t _ => by rw [integral_const_mul, hcov s t, mul_ite, mul_zero]), sum_ite_eq, if_pos hs]
  ring

/-- **C152 (expected residual).** Uncorrelated noise of rms `σ` on a distorted coherent sine: the mean square of the reported residual is `(N - 1 - 2 H) / N` of the
noise (on its peak-to-peak scale `8 σ²`); the fit absorbs `2 H + 1` of the `N` degrees of freedom. -/
theorem C152_expected (solve : Lstsq) (hs : IsLstsq solve) (hn1 : n ≠ 1) (tol : ℝ) (ha : HarmonicsApart n b H) (D : ℝ) (A θ : ℕ → ℝ) (hA : ∀ k < H, 0 ≤ A k)
    (Z : ℕ → Ω → ℝ) (σ : ℝ) (h2 : ∀ i, MemLp (Z i) 2 μ) (hcov : ∀ i j, ∫ ω, Z i ω * Z j ω ∂μ = if i = j then σ ^ 2 else 0) (r : Ω → HarmonicSplit)
    (hr : ∀ ω, decomposeHarmonic solve 1 n (fun _ t => distorted D ((b : ℝ) / n) H A θ t + Z t ω) H (some ((b : ℝ) / n)) 0 tol = .ok (r ω)) :
    ∫ ω, (r ω).residualRms ^ 2 ∂μ = 8 * σ ^ 2 * ((n - 1 - 2 * H) / n) := by
  have hnR : (0 : ℝ) < n := by exact_mod_cast ha.pos
  have hav : ∀ ω (t : ℕ), averageRecord 1 (fun _ t => distorted D ((b : ℝ) / n) H A θ t + Z t ω) t = distorted D ((b : ℝ) / n) H A θ t + Z t ω := by
    intro ω t
    unfold averageRecord
    simp
  have hid : ∀ ω, (r ω).residualRms ^ 2 = 8 / n * (∑ t ∈ range n, Z t ω ^ 2 - (∑ t ∈ range n, Z t ω * 1) ^ 2 / n
      - 2 / n * ∑ k ∈ range H, ((∑ t ∈ range n, Z t ω * C ((b : ℝ) / n) k t) ^ 2 + (∑ t ∈ range n, Z t ω * S ((b : ℝ) / n) k t) ^ 2)) := by
    intro ω
    obtain ⟨hH, _⟩ := decompose_ok solve 1 n _ H _ 0 tol (r ω) (hr ω) hn1
    have hf : (r ω).fundamentalFreq = (b : ℝ) / n := by
      obtain ⟨r', hr', hf'⟩ := (C51_frequency solve 1 n (fun _ t => distorted D ((b : ℝ) / n) H A θ t + Z t ω) H ((b : ℝ) / n) tol 0).2.1 hH
      rw [hr ω] at hr'
      injection hr' with hr'
      rw [hr']
      exact hf' rfl
    have h := (C152_error solve hs 1 hn1 _ _ 0 tol (r ω) (hr ω) ha hf D A θ hA (fun t => Z t ω) (fun t _ => hav ω t)).1
    have e : ∑ k ∈ range H, ‖dft n (fun t => (Z t ω : ℂ)) (((k + 1) * b : ℕ) : ℤ)‖ ^ 2
        = ∑ k ∈ range H, ((∑ t ∈ range n, Z t ω * C ((b : ℝ) / n) k t) ^ 2 + (∑ t ∈ range n, Z t ω * S ((b : ℝ) / n) k t) ^ 2) := by
      refine sum_congr rfl fun k _ => ?_
      rw [dft_harmonic ha.pos, norm_ofReal_sub_mul_I, Real.sq_sqrt (by positivity)]
    rw [e] at h
    simp only [mul_one]
    rw [← h]
    field_simp
  simp only [hid]
  have i1 : Integrable (fun ω => ∑ t ∈ range n, Z t ω ^ 2) μ := integrable_finset_sum _ fun t _ => (h2 t).integrable_sq
  have m1 := moment (n := n) μ Z σ h2 hcov fun _ => 1
  have mC := fun k => moment (n := n) μ Z σ h2 hcov (C ((b : ℝ) / n) k)
  have mS := fun k => moment (n := n) μ Z σ h2 hcov (S ((b : ℝ) / n) k)
  have i3 : Integrable (fun ω => ∑ k ∈ range H, ((∑ t ∈ range n, Z t ω * C ((b : ℝ) / n) k t) ^ 2 + (∑ t ∈ range n, Z t ω * S ((b : ℝ) / n) k t) ^ 2)) μ :=
    integrable_finset_sum _ fun k _ => (mC k).1.add (mS k).1
  have iCS : ∀ k, Integrable (fun ω => (∑ t ∈ range n, Z t ω * C ((b : ℝ) / n) k t) ^ 2 + (∑ t ∈ range n, Z t ω * S ((b : ℝ) / n) k t) ^ 2) μ :=
    fun k => (mC k).1.add (mS k).1
  have i12 : Integrable (fun ω => ∑ t ∈ range n, Z t ω ^ 2 - (∑ t ∈ range n, Z t ω * 1) ^ 2 / n) μ := i1.sub (m1.1.div_const _)
  rw [integral_const_mul, integral_sub i12 (i3.const_mul _), integral_sub i1 (m1.1.div_const _), integral_div, m1.2, integral_const_mul,
    integral_finset_sum _ (fun t _ => (h2 t).integrable_sq), integral_finset_sum _ (fun k _ => iCS k)]
  have e1 : ∑ t ∈ range n, ∫ ω, Z t ω ^ 2 ∂μ = n * σ ^ 2 := by
    rw [sum_congr rfl (fun t _ => by simp only [pow_two]; rw [hcov t t, if_pos rfl]), sum_const, card_range, nsmul_eq_mul, pow_two]
  have e2 : ∑ k ∈ range H, ∫ ω, ((∑ t ∈ range n, Z t ω * C ((b : ℝ) / n) k t) ^ 2 + (∑ t ∈ range n, Z t ω * S ((b : ℝ) / n) k t) ^ 2) ∂μ = H * (σ ^ 2 * n) := by
    have : ∀ k ∈ range H, ∫ ω, ((∑ t ∈ range n, Z t ω * C ((b : ℝ) / n) k t) ^ 2 + (∑ t ∈ range n, Z t ω * S ((b : ℝ) / n) k t) ^ 2) ∂μ = σ ^ 2 * n := by
      intro k hk
      rw [integral_add (mC k).1 (mS k).1, (mC k).2, (mS k).2, ← mul_add, ← sum_add_distrib]
      unfold C S
      rw [sum_congr rfl (fun t _ => Real.cos_sq_add_sin_sq _), sum_const, card_range, nsmul_eq_mul, mul_one]
    rw [sum_congr rfl this, sum_const, card_range, nsmul_eq_mul]
  rw [e1, e2]
  simp only [one_pow, sum_const, card_range, nsmul_eq_mul, mul_one]
  field_simp

end Random

/-! ## Concrete case -/

private theorem apart16 : HarmonicsApart 16 3 5 := ⟨by norm_num, by
  intro m h1 h2 h3
  interval_cases m <;> omega⟩

/-- Sixteen samples, three periods, five harmonics, an error of 0.01 of alternating sign: the third harmonic of 0.1 (peak) is read within 0.03 peak to peak. -/
example (solve : Lstsq) (hs : IsLstsq solve) :
    ∃ r, decomposeHarmonic solve 1 16 (fun _ t => distorted 2 (((3 : ℕ) : ℝ) / (16 : ℕ)) 5 (fun k => if k = 0 then 1 else if k = 2 then 1 / 10 else 0) (fun _ => 1) t + (-1) ^ t / 100)
      (5 : ℕ) (some (((3 : ℕ) : ℝ) / (16 : ℕ))) 0 (1 / 10 ^ 9) = .ok r ∧ |r.magnitudes 2 - 2 / 10| ≤ 3 / 100 ∧ r.residualRms ≤ 3 / 100 := by
  obtain ⟨r, hr, hf⟩ := (C51_frequency solve 1 16 (fun _ t => distorted 2 (((3 : ℕ) : ℝ) / (16 : ℕ)) 5 (fun k => if k = 0 then 1 else if k = 2 then 1 / 10 else 0) (fun _ => 1) t
    + (-1) ^ t / 100) (5 : ℕ) (((3 : ℕ) : ℝ) / (16 : ℕ)) (1 / 10 ^ 9) 0).2.1 (by norm_num)
  have hs2 : 2 * Real.sqrt 2 * (1 / 100) ≤ 3 / 100 := by
    have : Real.sqrt 2 ≤ 3 / 2 := by rw [Real.sqrt_le_left (by norm_num)]; norm_num
    linarith
  obtain ⟨_, h1, h2⟩ := C152_noise solve hs 1 (by norm_num) _ _ 0 _ r hr apart16 (hf rfl) 2 (fun k => if k = 0 then 1 else if k = 2 then 1 / 10 else 0) (fun _ => 1)
    (fun k _ => by split_ifs <;> norm_num) (fun t => (-1) ^ t / 100) (fun t _ => by unfold averageRecord; simp) (1 / 100) (by norm_num) (by
      rw [sum_congr rfl (fun t _ => show (((-1 : ℝ)) ^ t / 100) ^ 2 = (1 / 100) ^ 2 by rw [div_pow, ← pow_mul, mul_comm, pow_mul]; norm_num), sum_const, card_range, nsmul_eq_mul])
  refine ⟨r, hr, ?_, h2.trans hs2⟩
  have := h1 2 (by norm_num)
  norm_num at this hs2 ⊢
  exact this.trans hs2

/-- Normal draws of rms 1 on the same sine: 5 of the 16 degrees of freedom are left, so the mean square of the residual is 5/16 of the noise. -/
example (solve : Lstsq) (hs : IsLstsq solve) : ∃ (Ω : Type) (_ : MeasurableSpace Ω) (μ : Measure Ω) (_ : IsProbabilityMeasure μ) (Z : ℕ → Ω → ℝ) (r : Ω → HarmonicSplit),
    (∀ ω, decomposeHarmonic solve 1 16 (fun _ t => distorted 2 (((3 : ℕ) : ℝ) / (16 : ℕ)) 5 (fun _ => 1) (fun _ => 1) t + Z t ω) (5 : ℕ) (some (((3 : ℕ) : ℝ) / (16 : ℕ))) 0 (1 / 10 ^ 9)
      = .ok (r ω)) ∧ ∫ ω, (r ω).residualRms ^ 2 ∂μ = 8 * (5 / 16) := by
  obtain ⟨Ω, m, μ, hμ, Z, h1, h2, h3, h4, h5⟩ := exists_normal_draws
  have hex := fun ω => (C51_frequency solve 1 16 (fun _ t => distorted 2 (((3 : ℕ) : ℝ) / (16 : ℕ)) 5 (fun _ => 1) (fun _ => 1) t + Z t ω) (5 : ℕ) (((3 : ℕ) : ℝ) / (16 : ℕ))
    (1 / 10 ^ 9) 0).2.1 (by norm_num)
  choose r hr _ using hex
  refine ⟨Ω, m, μ, hμ, Z, r, hr, ?_⟩
  rw [C152_expected μ solve hs (by norm_num) _ apart16 2 (fun _ => 1) (fun _ => 1) (fun _ _ => zero_le_one) Z 1 h1 (fun i j => ?_) r hr]
  · norm_num
  · split_ifs with e
    · subst e
      have := variance_eq_sub (h1 i)
      rw [h2 i, h3 i] at this
      simp only [pow_two] at this ⊢
      simpa using this.symm
    · have := (h4 e).integral_fun_mul_eq_mul_integral (h1 i).1 (h1 j).1
      rw [this, h2 i, zero_mul]

end Verif
