import Verif.Proofs.WindowedSinad
import Mathlib.Analysis.SpecialFunctions.Trigonometric.Bounds
import Mathlib.Analysis.Real.Pi.Bounds

/-!
# Lemmas for sines that do not fit the record (C146): the spectrum of a window between the bins
-/

namespace Verif

open Model Finset Spec

/-! ## The rectangular window -/

/-- Spectrum of a window at a real number of periods per record. -/
noncomputable def winSpectrum (w : ℕ → ℝ) (N : ℕ) (x : ℝ) : ℂ := ∑ n ∈ range N, (w n : ℂ) * cis (-(x * n / N))

theorem one_sub_cis (y : ℝ) : 1 - cis (-y) = cis (-(y / 2)) * (2 * Complex.I * (Real.sin (Real.pi * y) : ℝ)) := by
  have h : (Real.sin (Real.pi * y) : ℂ) = (cis (-(y / 2)) - cis (y / 2)) * Complex.I / 2 := by
    rw [Complex.ofReal_sin, Complex.sin]
    unfold cis
    congr 3 <;> · congr 1; push_cast; ring
  have h2 : cis (-y) = cis (-(y / 2)) * cis (-(y / 2)) := by rw [← cis_add]; congr 1; ring
  have h3 := cis_neg_mul (y / 2)
  rw [h, h2]
  linear_combination (-1 : ℂ) * h3 + (cis (-(y / 2)) * (cis (-(y / 2)) - cis (y / 2))) * (-1 : ℂ) * Complex.I_sq

/-- The finite geometric sum behind every spectrum of a sine. -/
theorem box_spectrum (N : ℕ) (hN : N ≠ 0) (x : ℝ) :
    winSpectrum (fun _ => 1) N x * (Real.sin (Real.pi * (x / N)) : ℝ) = cis (-(x / 2) + x / N / 2) * (Real.sin (Real.pi * x) : ℝ) := by
  have hNR : (N : ℝ) ≠ 0 := by exact_mod_cast hN
  have hpow : winSpectrum (fun _ => 1) N x = ∑ n ∈ range N, cis (-(x / N)) ^ n := by
    unfold winSpectrum
    refine sum_congr rfl fun n _ => ?_
    rw [Complex.ofReal_one, one_mul, ← cis_nat_mul]
    congr 1
    ring
  have h1 := mul_neg_geom_sum (cis (-(x / N))) N
  rw [← hpow, ← cis_nat_mul, show (N : ℝ) * -(x / N) = -x by field_simp, one_sub_cis, one_sub_cis] at h1
  have h2 : cis (-(x / N / 2)) ≠ 0 := cis_ne_zero _
  have h3 : cis (-(x / 2) + x / N / 2) * cis (-(x / N / 2)) = cis (-(x / 2)) := by rw [← cis_add]; congr 1; ring
  have hI : (2 : ℂ) * Complex.I ≠ 0 := mul_ne_zero two_ne_zero Complex.I_ne_zero
  have h4 : cis (-(x / N / 2)) * (2 * Complex.I) ≠ 0 := mul_ne_zero h2 hI
  apply mul_left_cancel₀ h4
  rw [← h3] at h1
  linear_combination h1

theorem norm_box (N : ℕ) (hN : N ≠ 0) (x : ℝ) : ‖winSpectrum (fun _ => 1) N x‖ * |Real.sin (Real.pi * (x / N))| = |Real.sin (Real.pi * x)| := by
  have h := congrArg norm (box_spectrum N hN x)
  rwa [norm_mul, norm_mul, norm_cis, one_mul, Complex.norm_real, Complex.norm_real, Real.norm_eq_abs, Real.norm_eq_abs] at h

/-! ## The Hann window -/

/-- The periodic Hann window. -/
theorem hann_eq (N : ℕ) (hN : 1 < N) (n : ℕ) : generalCosine [1 / 2, 1 / 2] N n = 1 / 2 - 1 / 2 * Real.cos (2 * Real.pi * (n / N)) := by
  unfold generalCosine
  rw [if_neg (by omega)]
  simp only [List.length_cons, List.length_nil, List.range_succ, List.range_zero, List.nil_append, List.map_append, List.map_cons, List.map_nil, List.sum_append,
    List.sum_cons, List.sum_nil, List.getD_cons_zero, List.getD_cons_succ, Nat.cast_zero, zero_mul, Real.cos_zero, Nat.cast_one, one_mul, zero_add]
  rw [show -Real.pi + 2 * Real.pi * n / N = 2 * Real.pi * (n / N) - Real.pi by ring, Real.cos_sub_pi]
  ring

/-- The Hann window mixes three neighbouring values of the rectangular spectrum. -/
theorem hann_spectrum (N : ℕ) (hN : 1 < N) (x : ℝ) : winSpectrum (generalCosine [1 / 2, 1 / 2] N) N x
    = 1 / 2 * winSpectrum (fun _ => 1) N x - 1 / 4 * winSpectrum (fun _ => 1) N (x - 1) - 1 / 4 * winSpectrum (fun _ => 1) N (x + 1) := by
  unfold winSpectrum
  rw [mul_sum, mul_sum, mul_sum, ← sum_sub_distrib, ← sum_sub_distrib]
  refine sum_congr rfl fun n _ => ?_
  rw [hann_eq N hN]
  have h := cos_cis 1 0 ((n : ℝ) / N)
  rw [one_mul, add_zero] at h
  simp only [Complex.ofReal_zero, zero_mul, neg_zero, Complex.exp_zero, mul_one] at h
  push_cast at h ⊢
  rw [h]
  have e1 : cis (-((x - 1) * n / N)) = cis (-(x * n / N)) * cis (n / N) := by rw [← cis_add]; congr 1; ring
  have e2 : cis (-((x + 1) * n / N)) = cis (-(x * n / N)) * cis (-(n / N)) := by rw [← cis_add]; congr 1; ring
  rw [e1, e2]
  ring

/-- Size of the Hann spectrum between the bins. -/
theorem norm_hann (N : ℕ) (hN : 1 < N) (x : ℝ) (h0 : Real.sin (Real.pi * (x / N)) ≠ 0) (h1 : Real.sin (Real.pi * ((x - 1) / N)) ≠ 0)
    (h2 : Real.sin (Real.pi * ((x + 1) / N)) ≠ 0) :
    ‖winSpectrum (generalCosine [1 / 2, 1 / 2] N) N x‖ = |Real.sin (Real.pi * x)| *
      (Real.sin (Real.pi / N) ^ 2 * |Real.cos (Real.pi * (x / N))| /
        (2 * (|Real.sin (Real.pi * (x / N))| * |Real.sin (Real.pi * ((x - 1) / N))| * |Real.sin (Real.pi * ((x + 1) / N))|))) := by
  have hN0 : N ≠ 0 := by omega
  have hNR : (N : ℝ) ≠ 0 := by exact_mod_cast hN0
  set a := Real.pi * (x / N) with ha
  set h := Real.pi / N with hh
  have ea : Real.pi * ((x - 1) / N) = a - h := by rw [ha, hh]; ring
  have eb : Real.pi * ((x + 1) / N) = a + h := by rw [ha, hh]; ring
  rw [ea] at h1 ⊢
  rw [eb] at h2 ⊢
  have k0 := box_spectrum N hN0 x
  have k1 := box_spectrum N hN0 (x - 1)
  have k2 := box_spectrum N hN0 (x + 1)
  rw [← ha] at k0
  rw [ea, show Real.pi * (x - 1) = Real.pi * x - Real.pi by ring, Real.sin_sub_pi] at k1
  rw [eb, show Real.pi * (x + 1) = Real.pi * x + Real.pi by ring, Real.sin_add_pi] at k2
  have chalf : cis (1 / 2) = -1 := by
    have := cis_half_nat 1
    simpa using this
  have chalf' : cis (-(1 / 2)) = -1 := by
    have := cis_neg_mul (1 / 2)
    rw [chalf] at this
    linear_combination -this
  set u := cis (-(x / 2) + x / N / 2) with hu
  have c1 : cis (-((x - 1) / 2) + (x - 1) / N / 2) = -(u * cis (-(1 / N / 2))) := by
    rw [show -((x - 1) / 2) + (x - 1) / N / 2 = (-(x / 2) + x / N / 2) + (-(1 / N / 2)) + 1 / 2 by ring, cis_add, cis_add, chalf, hu]
    ring
  have c2 : cis (-((x + 1) / 2) + (x + 1) / N / 2) = -(u * cis (1 / N / 2)) := by
    rw [show -((x + 1) / 2) + (x + 1) / N / 2 = (-(x / 2) + x / N / 2) + 1 / N / 2 + -(1 / 2) by ring, cis_add, cis_add, chalf', hu]
    ring
  have e1 : cis (1 / N / 2) = Real.cos h + Real.sin h * Complex.I := by
    apply Complex.ext
    · rw [cis_re, show 2 * Real.pi * (1 / N / 2) = h by rw [hh]; ring]; simp [← Complex.ofReal_cos, ← Complex.ofReal_sin]
    · rw [cis_im, show 2 * Real.pi * (1 / N / 2) = h by rw [hh]; ring]; simp [← Complex.ofReal_cos, ← Complex.ofReal_sin]
  have e2 : cis (-(1 / N / 2)) = Real.cos h - Real.sin h * Complex.I := by
    rw [← conj_cis, e1]
    simp [← Complex.ofReal_cos, ← Complex.ofReal_sin, sub_eq_add_neg]
  rw [c1, e2] at k1
  rw [c2, e1] at k2
  have h0c : (Real.sin a : ℂ) ≠ 0 := by exact_mod_cast h0
  have h1c : (Real.sin (a - h) : ℂ) ≠ 0 := by exact_mod_cast h1
  have h2c : (Real.sin (a + h) : ℂ) ≠ 0 := by exact_mod_cast h2
  have key : winSpectrum (generalCosine [1 / 2, 1 / 2] N) N x * (2 * (Real.sin a * Real.sin (a - h) * Real.sin (a + h)))
      = u * Real.sin (Real.pi * x) * (Real.sin h ^ 2 * Real.cos a) * (-Real.cos a + Real.sin a * Complex.I) := by
    rw [hann_spectrum N hN]
    have r1 : Real.sin (a - h) = Real.sin a * Real.cos h - Real.cos a * Real.sin h := Real.sin_sub a h
    have r2 : Real.sin (a + h) = Real.sin a * Real.cos h + Real.cos a * Real.sin h := Real.sin_add a h
    have s1 : (Real.sin (a - h) : ℂ) = Real.sin a * Real.cos h - Real.cos a * Real.sin h := by exact_mod_cast congrArg (fun t : ℝ => (t : ℂ)) r1
    have s2 : (Real.sin (a + h) : ℂ) = Real.sin a * Real.cos h + Real.cos a * Real.sin h := by exact_mod_cast congrArg (fun t : ℝ => (t : ℂ)) r2
    have m0 : (1 / 2 * winSpectrum (fun _ => 1) N x - 1 / 4 * winSpectrum (fun _ => 1) N (x - 1) - 1 / 4 * winSpectrum (fun _ => 1) N (x + 1)) *
        (2 * (Real.sin a * Real.sin (a - h) * Real.sin (a + h))) =
        (winSpectrum (fun _ => 1) N x * Real.sin a) * (Real.sin (a - h) * Real.sin (a + h))
        - 1 / 2 * (winSpectrum (fun _ => 1) N (x - 1) * Real.sin (a - h)) * (Real.sin a * Real.sin (a + h))
        - 1 / 2 * (winSpectrum (fun _ => 1) N (x + 1) * Real.sin (a + h)) * (Real.sin a * Real.sin (a - h)) := by ring
    rw [m0, k0, k1, k2, s1, s2, Complex.ofReal_neg]
    ring
  have hn := congrArg norm key
  have h1n : ‖(-(Real.cos a : ℂ) + Real.sin a * Complex.I)‖ = 1 := by
    rw [show (-(Real.cos a : ℂ) + Real.sin a * Complex.I) = ((-Real.cos a : ℝ) : ℂ) + (Real.sin a : ℝ) * Complex.I by push_cast; ring,
      Complex.norm_add_mul_I, Real.sqrt_eq_one]
    nlinarith [Real.sin_sq_add_cos_sq a]
  rw [norm_mul _ (-(Real.cos a : ℂ) + Real.sin a * Complex.I), h1n, mul_one, hu] at hn
  simp only [norm_mul, norm_cis, one_mul, norm_pow, Complex.norm_real, Real.norm_eq_abs, Complex.norm_two, sq_abs] at hn
  rw [← mul_div_assoc, eq_div_iff (by positivity)]
  linarith

/-! ## Bounds -/

/-- Jordan's inequality on both sides of the maximum. -/
theorem sin_dist (N : ℕ) (hN : N ≠ 0) (L y : ℝ) (hL : 0 ≤ L) (h1 : L ≤ y) (h2 : y ≤ N - L) : 2 * L / N ≤ Real.sin (Real.pi * (y / N)) := by
  have hNR : (0 : ℝ) < N := by exact_mod_cast Nat.pos_of_ne_zero hN
  have hpi := Real.pi_pos
  rcases le_total (2 * y) N with h | h
  · have h3 := Real.mul_le_sin (x := Real.pi * (y / N)) (by have : 0 ≤ y := hL.trans h1; positivity)
      (by rw [← mul_div_assoc, div_le_div_iff₀ hNR two_pos]; nlinarith)
    have e : 2 / Real.pi * (Real.pi * (y / N)) = 2 * y / N := by field_simp
    rw [e] at h3
    refine le_trans ?_ h3
    apply div_le_div_of_nonneg_right _ hNR.le
    linarith
  · have e0 : Real.pi * (y / N) = Real.pi - Real.pi * ((N - y) / N) := by field_simp; ring
    have h3 := Real.mul_le_sin (x := Real.pi * ((N - y) / N)) (mul_nonneg hpi.le (div_nonneg (by linarith) hNR.le))
      (by rw [← mul_div_assoc, div_le_div_iff₀ hNR two_pos]; nlinarith)
    have e : 2 / Real.pi * (Real.pi * ((N - y) / N)) = 2 * (N - y) / N := by field_simp
    rw [e] at h3
    rw [e0, Real.sin_pi_sub]
    refine le_trans ?_ h3
    apply div_le_div_of_nonneg_right _ hNR.le
    linarith

/-- A parabola below the sine. -/
theorem parabola_le_sin (δ : ℝ) (h0 : 0 ≤ δ) (h1 : δ ≤ 1) : Real.pi * (δ * (1 - δ)) ≤ Real.sin (Real.pi * δ) := by
  have hpi := Real.pi_pos
  have half : ∀ y, 0 ≤ y → y ≤ Real.pi / 2 → y - y ^ 2 / Real.pi ≤ Real.sin y := by
    intro y hy hy2
    have hm : MonotoneOn (fun t => Real.sin t - t + t ^ 2 / Real.pi) (Set.Icc 0 (Real.pi / 2)) := by
      apply monotoneOn_of_deriv_nonneg (convex_Icc _ _)
      · fun_prop
      · fun_prop
      · intro t ht
        rw [interior_Icc] at ht
        have hd : HasDerivAt (fun t => Real.sin t - t + t ^ 2 / Real.pi) (Real.cos t - 1 + (2 : ℕ) * t ^ (2 - 1) / Real.pi) t :=
          ((Real.hasDerivAt_sin t).sub (hasDerivAt_id t)).add ((hasDerivAt_pow 2 t).div_const _)
        rw [hd.deriv]
        have := Real.one_sub_mul_le_cos ht.1.le ht.2.le
        have e : ((2 : ℕ) : ℝ) * t ^ (2 - 1) / Real.pi = 2 / Real.pi * t := by push_cast; ring
        rw [e]
        linarith
    have := hm (Set.left_mem_Icc.mpr (by positivity)) ⟨hy, hy2⟩ hy
    simp only [Real.sin_zero, sub_zero] at this
    norm_num at this
    linarith
  rcases le_total δ (1 / 2) with h | h
  · have := half (Real.pi * δ) (by positivity) (by nlinarith)
    have e : Real.pi * δ - (Real.pi * δ) ^ 2 / Real.pi = Real.pi * (δ * (1 - δ)) := by field_simp
    linarith
  · have := half (Real.pi * (1 - δ)) (mul_nonneg hpi.le (by linarith)) (by nlinarith)
    have e : Real.pi * (1 - δ) - (Real.pi * (1 - δ)) ^ 2 / Real.pi = Real.pi * (δ * (1 - δ)) := by field_simp; ring
    have e2 : Real.sin (Real.pi * (1 - δ)) = Real.sin (Real.pi * δ) := by rw [show Real.pi * (1 - δ) = Real.pi - Real.pi * δ by ring, Real.sin_pi_sub]
    linarith

theorem abs_sin_add_int (k : ℤ) (y : ℝ) : |Real.sin (Real.pi * (y + k))| = |Real.sin (Real.pi * y)| := by
  rw [show Real.pi * (y + k) = Real.pi * y + k * Real.pi by ring, Real.sin_add_int_mul_pi, abs_mul, abs_zpow, abs_neg, abs_one, one_zpow, one_mul]

/-! ## A sine between the bins -/

/-- The spectrum of a windowed sine: two copies of the window's spectrum, and that of the offset. -/
theorem dft_between (w : ℕ → ℝ) (N : ℕ) (A ν φ c : ℝ) (k : ℤ) :
    dft N (fun n => (((A * Real.cos (2 * Real.pi * (ν * n / N) + φ) + c) * w n : ℝ) : ℂ)) k
      = A / 2 * Complex.exp (φ * Complex.I) * winSpectrum w N (k - ν) + A / 2 * Complex.exp (-(φ * Complex.I)) * winSpectrum w N (k + ν) + c * winSpectrum w N k := by
  unfold dft winSpectrum
  rw [mul_sum, mul_sum, mul_sum, ← sum_add_distrib, ← sum_add_distrib]
  refine sum_congr rfl fun n _ => ?_
  beta_reduce
  rw [Complex.ofReal_mul, Complex.ofReal_add, cos_cis]
  have e1 : cis (-((k - ν) * n / N)) = cis (-(k * n / N)) * cis (ν * n / N) := by rw [← cis_add]; congr 1; ring
  have e2 : cis (-((k + ν) * n / N)) = cis (-(k * n / N)) * cis (-(ν * n / N)) := by rw [← cis_add]; congr 1; ring
  rw [e1, e2]
  ring

theorem norm_between (w : ℕ → ℝ) (N : ℕ) (A ν φ c : ℝ) (hA : 0 ≤ A) (k : ℤ) (hk : c * winSpectrum w N k = 0) :
    A / 2 * (‖winSpectrum w N (k - ν)‖ - ‖winSpectrum w N (k + ν)‖)
      ≤ ‖dft N (fun n => (((A * Real.cos (2 * Real.pi * (ν * n / N) + φ) + c) * w n : ℝ) : ℂ)) k‖ := by
  rw [dft_between, hk, add_zero]
  have h2 : ‖(A / 2 : ℂ)‖ = A / 2 := by
    rw [show (A / 2 : ℂ) = ((A / 2 : ℝ) : ℂ) by push_cast; ring, Complex.norm_real, Real.norm_eq_abs, abs_of_nonneg (by positivity)]
  have e1 : ‖(A / 2 * Complex.exp (φ * Complex.I) * winSpectrum w N (k - ν) : ℂ)‖ = A / 2 * ‖winSpectrum w N (k - ν)‖ := by
    rw [norm_mul, norm_mul, h2, Complex.norm_exp_ofReal_mul_I, mul_one]
  have e2 : ‖(A / 2 * Complex.exp (-(φ * Complex.I)) * winSpectrum w N (k + ν) : ℂ)‖ = A / 2 * ‖winSpectrum w N (k + ν)‖ := by
    rw [norm_mul, norm_mul, h2, show -((φ : ℂ) * Complex.I) = ((-φ : ℝ) : ℂ) * Complex.I by push_cast; ring, Complex.norm_exp_ofReal_mul_I, mul_one]
  have := norm_sub_le_norm_add (A / 2 * Complex.exp (φ * Complex.I) * winSpectrum w N (k - ν) : ℂ) (A / 2 * Complex.exp (-(φ * Complex.I)) * winSpectrum w N (k + ν))
  rw [e1, e2] at this
  linarith

/-- Weighted sums of a cosine are bounded by the spectrum of the weights. -/
theorem abs_cos_sum (w : ℕ → ℝ) (N : ℕ) (y φ : ℝ) : |∑ n ∈ range N, w n * Real.cos (2 * Real.pi * (y * n / N) + φ)| ≤ ‖winSpectrum w N y‖ := by
  have h : ∑ n ∈ range N, w n * Real.cos (2 * Real.pi * (y * n / N) + φ) = (cis (-(φ / (2 * Real.pi))) * winSpectrum w N y).re := by
    unfold winSpectrum
    rw [mul_sum, Complex.re_sum]
    refine sum_congr rfl fun n _ => ?_
    rw [mul_left_comm, ← cis_add, Complex.re_ofReal_mul, cis_re]
    congr 1
    rw [← Real.cos_neg]
    congr 1
    field_simp
    ring
  rw [h]
  refine (Complex.abs_re_le_norm _).trans (le_of_eq ?_)
  rw [norm_mul, norm_cis, one_mul]

/-- The bins together hold twice the weighted mean square. -/
theorem binPower_sum (w : ℕ → ℝ) (N : ℕ) (hN : N ≠ 0) (hw : ∑ n ∈ range N, w n ^ 2 ≠ 0) (z : ℕ → ℝ) :
    ∑ k ∈ range (N / 2 + 1), binPower w N z k = 2 * (∑ n ∈ range N, (z n * w n) ^ 2) / ∑ n ∈ range N, w n ^ 2 := by
  have hNR : (N : ℝ) ≠ 0 := by exact_mod_cast hN
  have h := C26_total_power [fun n => z n * w n] N hN
  unfold powerAverage at h
  rw [list_sum_map_range] at h
  simp only [List.map_cons, List.map_nil, List.sum_cons, List.sum_nil, add_zero, List.length_cons, List.length_nil, zero_add, Nat.cast_one, div_one] at h
  unfold binPower
  rw [← sum_mul, h]
  field_simp
  ring

theorem between_total (w : ℕ → ℝ) (N : ℕ) (hN : N ≠ 0) (hw : ∑ n ∈ range N, w n ^ 2 ≠ 0) (A ν φ c γ κ1 κ2 : ℝ) (hA : 0 ≤ A) (hc : |c| ≤ γ * A) (hγ : 0 ≤ γ)
    (h1 : ‖winSpectrum (fun n => w n ^ 2) N ν‖ ≤ κ1 * ∑ n ∈ range N, w n ^ 2) (h2 : ‖winSpectrum (fun n => w n ^ 2) N (2 * ν)‖ ≤ κ2 * ∑ n ∈ range N, w n ^ 2) :
    ∑ k ∈ range (N / 2 + 1), binPower w N (fun n => A * Real.cos (2 * Real.pi * (ν * n / N) + φ) + c) k ≤ A ^ 2 * (1 + κ2 + 4 * γ * κ1 + 2 * γ ^ 2) := by
  have hs : 0 < ∑ n ∈ range N, w n ^ 2 := lt_of_le_of_ne (sum_nonneg fun n _ => sq_nonneg _) hw.symm
  rw [binPower_sum w N hN hw, div_le_iff₀ hs]
  set W := ∑ n ∈ range N, w n ^ 2 with hW
  have e : ∑ n ∈ range N, ((A * Real.cos (2 * Real.pi * (ν * n / N) + φ) + c) * w n) ^ 2
      = A ^ 2 / 2 * W + A ^ 2 / 2 * (∑ n ∈ range N, w n ^ 2 * Real.cos (2 * Real.pi * (2 * ν * n / N) + 2 * φ))
        + 2 * A * c * (∑ n ∈ range N, w n ^ 2 * Real.cos (2 * Real.pi * (ν * n / N) + φ)) + c ^ 2 * W := by
    rw [hW, mul_sum, mul_sum, mul_sum, mul_sum, ← sum_add_distrib, ← sum_add_distrib, ← sum_add_distrib]
    refine sum_congr rfl fun n _ => ?_
    have := Real.cos_sq (2 * Real.pi * (ν * n / N) + φ)
    rw [show 2 * (2 * Real.pi * (ν * n / N) + φ) = 2 * Real.pi * (2 * ν * n / N) + 2 * φ by ring] at this
    linear_combination A ^ 2 * w n ^ 2 * this
  rw [e]
  have b1 := (abs_cos_sum (fun n => w n ^ 2) N ν φ).trans h1
  have b2 := (abs_cos_sum (fun n => w n ^ 2) N (2 * ν) (2 * φ)).trans h2
  set S1 := ∑ n ∈ range N, w n ^ 2 * Real.cos (2 * Real.pi * (ν * n / N) + φ)
  set S2 := ∑ n ∈ range N, w n ^ 2 * Real.cos (2 * Real.pi * (2 * ν * n / N) + 2 * φ)
  have c1 : c * S1 ≤ γ * A * (κ1 * W) := by
    refine (le_abs_self _).trans ?_
    rw [abs_mul]
    exact mul_le_mul hc b1 (abs_nonneg _) (by positivity)
  have c2 : c ^ 2 ≤ (γ * A) ^ 2 := sq_le_sq' (by linarith [(abs_le.mp hc).1]) (abs_le.mp hc).2
  have c3 := (abs_le.mp b2).2
  nlinarith [mul_le_mul_of_nonneg_left c1 hA, mul_le_mul_of_nonneg_right c2 hs.le, mul_le_mul_of_nonneg_left c3 (sq_nonneg A)]

/-! ## Size of the window spectra -/

theorem sin_frac_ne (N : ℕ) (y : ℝ) (h0 : y ≠ 0) (h1 : |y| < N) : Real.sin (Real.pi * (y / N)) ≠ 0 := by
  have hNR : (0 : ℝ) < N := (abs_nonneg y).trans_lt h1
  have pos : ∀ t : ℝ, 0 < t → t < N → 0 < Real.sin (Real.pi * (t / N)) := by
    intro t ht htN
    apply Real.sin_pos_of_pos_of_lt_pi
    · have := Real.pi_pos; positivity
    · have : t / N < 1 := by rw [div_lt_one hNR]; exact htN
      nlinarith [Real.pi_pos]
  rcases lt_or_gt_of_ne h0 with h | h
  · rw [abs_of_neg h] at h1
    have := pos (-y) (by linarith) h1
    rw [neg_div, mul_neg, Real.sin_neg] at this
    linarith
  · rw [abs_of_pos h] at h1
    exact (pos y h h1).ne'

theorem abs_sin_frac_le (N : ℕ) (y : ℝ) : |Real.sin (Real.pi * (y / N))| ≤ Real.pi / N * |y| := by
  refine (Real.abs_sin_le_abs).trans (le_of_eq ?_)
  rw [abs_mul, abs_div, abs_of_pos Real.pi_pos, Nat.abs_cast]
  ring

theorem box_ge (N : ℕ) (hN : N ≠ 0) (y : ℝ) : |Real.sin (Real.pi * y)| ≤ ‖winSpectrum (fun _ => 1) N y‖ * (Real.pi / N * |y|) := by
  rw [← norm_box N hN y]
  exact mul_le_mul_of_nonneg_left (abs_sin_frac_le N y) (norm_nonneg _)

theorem box_le (N : ℕ) (hN : N ≠ 0) (L y : ℝ) (hL : 0 < L) (h1 : L ≤ y) (h2 : y ≤ N - L) :
    ‖winSpectrum (fun _ => 1) N y‖ ≤ |Real.sin (Real.pi * y)| * (N / (2 * L)) := by
  have hNR : (0 : ℝ) < N := by exact_mod_cast Nat.pos_of_ne_zero hN
  have hs := sin_dist N hN L y hL.le h1 h2
  have hp : 0 < 2 * L / N := by positivity
  have hb := norm_box N hN y
  rw [abs_of_pos (hp.trans_le hs)] at hb
  rw [← hb, mul_assoc]
  refine le_mul_of_one_le_right (norm_nonneg _) ?_
  calc (1 : ℝ) = 2 * L / N * (N / (2 * L)) := by field_simp
    _ ≤ _ := mul_le_mul_of_nonneg_right hs (by positivity)

theorem box_int (N : ℕ) (k : ℤ) (h0 : k ≠ 0) (h1 : |k| < N) : winSpectrum (fun _ => 1) N k = 0 := by
  have hN : N ≠ 0 := by
    rintro rfl
    have := abs_nonneg k
    simp at h1
    omega
  have h := norm_box N hN k
  rw [show Real.pi * (k : ℝ) = k * Real.pi by ring, Real.sin_int_mul_pi, abs_zero, mul_eq_zero, abs_eq_zero] at h
  have hne := sin_frac_ne N (k : ℝ) (by exact_mod_cast h0) (by exact_mod_cast h1)
  exact norm_eq_zero.mp (h.resolve_right hne)

theorem box_zero (N : ℕ) : winSpectrum (fun _ => 1) N 0 = N := by
  unfold winSpectrum
  simp [cis]

/-- Multiplying by the Hann window mixes three neighbouring values of the spectrum. -/
theorem hann_mix (v : ℕ → ℝ) (N : ℕ) (hN : 1 < N) (x : ℝ) : winSpectrum (fun n => v n * generalCosine [1 / 2, 1 / 2] N n) N x
    = 1 / 2 * winSpectrum v N x - 1 / 4 * winSpectrum v N (x - 1) - 1 / 4 * winSpectrum v N (x + 1) := by
  unfold winSpectrum
  rw [mul_sum, mul_sum, mul_sum, ← sum_sub_distrib, ← sum_sub_distrib]
  refine sum_congr rfl fun n _ => ?_
  beta_reduce
  rw [hann_eq N hN]
  have h := cos_cis 1 0 ((n : ℝ) / N)
  rw [one_mul, add_zero] at h
  simp only [Complex.ofReal_zero, zero_mul, neg_zero, Complex.exp_zero, mul_one] at h
  push_cast at h ⊢
  rw [h]
  have e1 : cis (-((x - 1) * n / N)) = cis (-(x * n / N)) * cis (n / N) := by rw [← cis_add]; congr 1; ring
  have e2 : cis (-((x + 1) * n / N)) = cis (-(x * n / N)) * cis (-(n / N)) := by rw [← cis_add]; congr 1; ring
  rw [e1, e2]
  ring

theorem norm_mix_le (a b c : ℂ) (B : ℝ) (ha : ‖a‖ ≤ B) (hb : ‖b‖ ≤ B) (hc : ‖c‖ ≤ B) : ‖1 / 2 * a - 1 / 4 * b - 1 / 4 * c‖ ≤ B := by
  have h1 := norm_sub_le (1 / 2 * a - 1 / 4 * b) (1 / 4 * c)
  have h2 := norm_sub_le (1 / 2 * a) (1 / 4 * b)
  have e1 : ‖(1 / 2 * a : ℂ)‖ = 1 / 2 * ‖a‖ := by rw [norm_mul]; norm_num
  have e2 : ‖(1 / 4 * b : ℂ)‖ = 1 / 4 * ‖b‖ := by rw [norm_mul]; norm_num
  have e3 : ‖(1 / 4 * c : ℂ)‖ = 1 / 4 * ‖c‖ := by rw [norm_mul]; norm_num
  rw [e3] at h1
  rw [e1, e2] at h2
  linarith

/-- The spectrum of the squared Hann window far from the origin. -/
theorem hann_sq_le (N : ℕ) (hN : 1 < N) (L y : ℝ) (hL : 0 < L) (h1 : L + 2 ≤ y) (h2 : y ≤ N - L - 2) :
    ‖winSpectrum (fun n => generalCosine [1 / 2, 1 / 2] N n ^ 2) N y‖ ≤ N / (2 * L) := by
  have hb : ∀ t, L ≤ t → t ≤ N - L → ‖winSpectrum (fun _ => 1) N t‖ ≤ N / (2 * L) := fun t ht ht2 =>
    (box_le N (by omega) L t hL ht ht2).trans (mul_le_of_le_one_left (by positivity) (Real.abs_sin_le_one _))
  have hh : ∀ t, L + 1 ≤ t → t ≤ N - L - 1 → ‖winSpectrum (generalCosine [1 / 2, 1 / 2] N) N t‖ ≤ N / (2 * L) := by
    intro t ht ht2
    rw [hann_spectrum N hN]
    exact norm_mix_le _ _ _ _ (hb _ (by linarith) (by linarith)) (hb _ (by linarith) (by linarith)) (hb _ (by linarith) (by linarith))
  simp only [sq]
  rw [hann_mix _ N hN]
  exact norm_mix_le _ _ _ _ (hh _ (by linarith) (by linarith)) (hh _ (by linarith) (by linarith)) (hh _ (by linarith) (by linarith))

theorem hann_int (N : ℕ) (k : ℤ) (h1 : 2 ≤ k) (h2 : k + 2 ≤ N) : winSpectrum (generalCosine [1 / 2, 1 / 2] N) N k = 0 := by
  rw [hann_spectrum N (by omega)]
  have e1 : (k : ℝ) - 1 = ((k - 1 : ℤ) : ℝ) := by push_cast; ring
  have e2 : (k : ℝ) + 1 = ((k + 1 : ℤ) : ℝ) := by push_cast; ring
  rw [e1, e2, box_int N k (by omega) (by rw [abs_lt]; omega), box_int N (k - 1) (by omega) (by rw [abs_lt]; omega),
    box_int N (k + 1) (by omega) (by rw [abs_lt]; omega)]
  ring

theorem hann_sum_sq (N : ℕ) (hN : 2 < N) : ∑ n ∈ range N, generalCosine [1 / 2, 1 / 2] N n ^ 2 = 3 / 8 * N := by
  have h : winSpectrum (fun n => generalCosine [1 / 2, 1 / 2] N n * generalCosine [1 / 2, 1 / 2] N n) N 0 = ((3 / 8 * N : ℝ) : ℂ) := by
    have i1 := box_int N 1 (by omega) (by rw [abs_lt]; omega)
    have i2 := box_int N (-1) (by omega) (by rw [abs_lt]; omega)
    have i3 := box_int N 2 (by omega) (by rw [abs_lt]; omega)
    have i4 := box_int N (-2) (by omega) (by rw [abs_lt]; omega)
    push_cast at i1 i2 i3 i4
    rw [hann_mix _ N (by omega), hann_spectrum N (by omega), hann_spectrum N (by omega), hann_spectrum N (by omega)]
    norm_num [i1, i2, i3, i4, box_zero]
    ring
  have h2 : winSpectrum (fun n => generalCosine [1 / 2, 1 / 2] N n * generalCosine [1 / 2, 1 / 2] N n) N 0
      = ((∑ n ∈ range N, generalCosine [1 / 2, 1 / 2] N n ^ 2 : ℝ) : ℂ) := by
    unfold winSpectrum
    rw [Complex.ofReal_sum]
    refine sum_congr rfl fun n _ => ?_
    simp [cis, sq]
  rw [h2] at h
  exact_mod_cast h

/-- Lower bound of the Hann spectrum next to the main lobe. -/
theorem hann_ge (N : ℕ) (hN : 130 ≤ N) (y : ℝ) (h1 : 1 < |y|) (h2 : |y| ≤ 2) :
    |Real.sin (Real.pi * y)| * (998 / 1000 * N) ≤ ‖winSpectrum (generalCosine [1 / 2, 1 / 2] N) N y‖ * (2 * Real.pi * (|y| * |y - 1| * |y + 1|)) := by
  have hNR : (130 : ℝ) ≤ N := by exact_mod_cast hN
  have hpi := Real.pi_pos
  have hpi2 := Real.pi_lt_d2
  have n0 : y ≠ 0 := by rintro rfl; simp at h1; linarith
  have n1 : y - 1 ≠ 0 := by intro h; rw [show y = 1 by linarith, abs_one] at h1; exact lt_irrefl _ h1
  have n2 : y + 1 ≠ 0 := by intro h; rw [show y = -1 by linarith, abs_neg, abs_one] at h1; exact lt_irrefl _ h1
  have hy := abs_le.mp h2
  have s0 := sin_frac_ne N y n0 (by linarith)
  have s1 := sin_frac_ne N (y - 1) n1 (by rw [abs_lt]; constructor <;> linarith)
  have s2 := sin_frac_ne N (y + 1) n2 (by rw [abs_lt]; constructor <;> linarith)
  rw [norm_hann N (by omega) y s0 s1 s2, mul_assoc]
  apply mul_le_mul_of_nonneg_left _ (abs_nonneg _)
  have l0 := abs_sin_frac_le N y
  have l1 := abs_sin_frac_le N (y - 1)
  have l2 := abs_sin_frac_le N (y + 1)
  have p0 := abs_pos.mpr s0
  have p1 := abs_pos.mpr s1
  have p2 := abs_pos.mpr s2
  set h := Real.pi / N with hh
  have hh0 : 0 < h := by positivity
  have hh1 : h ≤ 25 / 1000 := by rw [hh, div_le_iff₀ (by linarith)]; linarith
  have hP : |Real.sin (Real.pi * (y / N))| * |Real.sin (Real.pi * ((y - 1) / N))| * |Real.sin (Real.pi * ((y + 1) / N))| ≤ h ^ 3 * (|y| * |y - 1| * |y + 1|) := by
    calc _ ≤ (h * |y|) * (h * |y - 1|) * (h * |y + 1|) := by gcongr
      _ = _ := by ring
  set P := |Real.sin (Real.pi * (y / N))| * |Real.sin (Real.pi * ((y - 1) / N))| * |Real.sin (Real.pi * ((y + 1) / N))| with hPd
  have hP0 : 0 < P := by positivity
  set M := |y| * |y - 1| * |y + 1|
  have hsin : 9998 / 10000 * h ≤ Real.sin h := by
    have := (Real.sin_gt_sub_cube hh0).le
    have h3 : h ^ 2 ≤ (25 / 1000) ^ 2 := pow_le_pow_left₀ hh0.le hh1 2
    nlinarith [mul_le_mul_of_nonneg_left h3 hh0.le]
  have hcos : 9987 / 10000 ≤ |Real.cos (Real.pi * (y / N))| := by
    refine le_trans ?_ (le_abs_self _)
    have := Real.one_sub_sq_div_two_le_cos (x := Real.pi * (y / N))
    have e : Real.pi * (y / N) = h * y := by rw [hh]; ring
    rw [e] at this ⊢
    have hsq : (h * y) ^ 2 ≤ (50 / 1000) ^ 2 := by
      rw [← sq_abs, abs_mul, abs_of_pos hh0]
      apply pow_le_pow_left₀ (by positivity)
      nlinarith [abs_nonneg y]
    linarith
  have hS : (9998 / 10000 * h) ^ 2 * (9987 / 10000) ≤ Real.sin h ^ 2 * |Real.cos (Real.pi * (y / N))| :=
    mul_le_mul (pow_le_pow_left₀ (by positivity) hsin 2) hcos (by norm_num) (sq_nonneg _)
  set Q := Real.sin h ^ 2 * |Real.cos (Real.pi * (y / N))|
  have hQ : 998 / 1000 * h ^ 2 ≤ Q := by nlinarith [sq_nonneg h]
  rw [div_mul_eq_mul_div Q, le_div_iff₀ (by positivity)]
  have hNh : N * h = Real.pi := by rw [hh]; field_simp
  calc 998 / 1000 * N * (2 * P) ≤ 998 / 1000 * N * (2 * (h ^ 3 * M)) := by gcongr
    _ = 998 / 1000 * h ^ 2 * (2 * (N * h) * M) := by ring
    _ ≤ Q * (2 * (N * h) * M) := by gcongr
    _ = _ := by rw [hNh]

/-- Upper bound of the Hann spectrum far from the main lobe. -/
theorem hann_le (N : ℕ) (hN : 1 < N) (L y : ℝ) (hL : 0 < L) (h1 : L + 1 ≤ y) (h2 : y ≤ N - L - 1) :
    ‖winSpectrum (generalCosine [1 / 2, 1 / 2] N) N y‖ ≤ |Real.sin (Real.pi * y)| * (Real.pi ^ 2 * N / (16 * L ^ 3)) := by
  have hNR : (1 : ℝ) < N := by exact_mod_cast hN
  have hpi := Real.pi_pos
  have l0 := sin_dist N (by omega) L y hL.le (by linarith) (by linarith)
  have l1 := sin_dist N (by omega) L (y - 1) hL.le (by linarith) (by linarith)
  have l2 := sin_dist N (by omega) L (y + 1) hL.le (by linarith) (by linarith)
  have hp : 0 < 2 * L / N := by positivity
  rw [norm_hann N hN y (hp.trans_le l0).ne' (hp.trans_le l1).ne' (hp.trans_le l2).ne']
  apply mul_le_mul_of_nonneg_left _ (abs_nonneg _)
  rw [abs_of_pos (hp.trans_le l0), abs_of_pos (hp.trans_le l1), abs_of_pos (hp.trans_le l2)]
  have hs : Real.sin (Real.pi / N) ^ 2 ≤ (Real.pi / N) ^ 2 := by
    rw [← sq_abs]
    apply pow_le_pow_left₀ (abs_nonneg _)
    refine Real.abs_sin_le_abs.trans (le_of_eq (abs_of_pos (by positivity)))
  calc _ ≤ (Real.pi / N) ^ 2 * 1 / (2 * (2 * L / N * (2 * L / N) * (2 * L / N))) := by
        have hc := Real.abs_cos_le_one (Real.pi * (y / N))
        apply div_le_div₀ (by positivity) (mul_le_mul hs hc (abs_nonneg _) (sq_nonneg _)) (by positivity)
        exact mul_le_mul_of_nonneg_left (mul_le_mul (mul_le_mul l0 l1 hp.le (hp.le.trans l0)) l2 hp.le (mul_nonneg (hp.le.trans l0) (hp.le.trans l1))) (by norm_num)
    _ = _ := by field_simp; ring

end Verif
