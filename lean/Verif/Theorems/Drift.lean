import Verif.Proofs.Drift
import Verif.Theorems.RandomImpairments
import Mathlib.Analysis.Real.Pi.Bounds

/-!
# C145: the drift filter of the signal generator

`apply_drift` smooths a random walk with `filtfilt(*butter(2, 0.001), walk)`.
-/

namespace Verif

open Model Finset MeasureTheory ProbabilityTheory

/-- Amplitude factor of a Butterworth filter of second order applied forward and backward to a sine of `θ` radians per sample, for the cutoff `wn` as a
fraction of half the sampling rate: `1 / (1 + (tan(θ/2) / tan(π wn/2))⁴)` without the division by `cos`. -/
noncomputable def Spec.butterGain (wn θ : ℝ) : ℝ :=
  (Real.sin (Real.pi * wn / 2) * Real.cos (θ / 2)) ^ 4 /
    ((Real.sin (Real.pi * wn / 2) * Real.cos (θ / 2)) ^ 4 + (Real.cos (Real.pi * wn / 2) * Real.sin (θ / 2)) ^ 4)

/-! ## The coefficients -/

private theorem tan_pos' {wn : ℝ} (h0 : 0 < wn) (h1 : wn < 1) : 0 < Real.tan (Real.pi * wn / 2) :=
  Real.tan_pos_of_pos_of_lt_pi_div_two (by have := Real.pi_pos; positivity) (by nlinarith [Real.pi_pos])

private theorem sqrt2_sq : √2 * √2 = (2 : ℝ) := Real.mul_self_sqrt (by norm_num)

private theorem sqrt2C : ((√2 : ℝ) : ℂ) * ((√2 : ℝ) : ℂ) = 2 := by
  rw [← Complex.ofReal_mul, sqrt2_sq]; norm_num

private theorem butter_den {k : ℝ} (hk : 0 < k) : 0 < 1 + √2 * k + k ^ 2 := by positivity

private theorem butter_dc {wn : ℝ} (h0 : 0 < wn) (h1 : wn < 1) : 1 + (butter2 wn).a1 + (butter2 wn).a2 ≠ 0 ∧
    (butter2 wn).b0 + (butter2 wn).b1 + (butter2 wn).b2 = 1 + (butter2 wn).a1 + (butter2 wn).a2 := by
  have hk := tan_pos' h0 h1
  unfold butter2
  simp only
  set k := Real.tan (Real.pi * wn / 2)
  have hs := (butter_den hk).ne'
  have e : 1 + 2 * (k ^ 2 - 1) / (1 + √2 * k + k ^ 2) + (1 - √2 * k + k ^ 2) / (1 + √2 * k + k ^ 2) = 4 * k ^ 2 / (1 + √2 * k + k ^ 2) := by
    field_simp; ring
  constructor
  · rw [e]; positivity
  · rw [e]; ring

private theorem exp_half (θ : ℝ) : Complex.exp (θ * Complex.I) + 1 =
      2 * (Real.cos (θ / 2) : ℂ) * ((Real.cos (θ / 2) : ℂ) + (Real.sin (θ / 2) : ℂ) * Complex.I) ∧
    Complex.exp (θ * Complex.I) - 1 =
      2 * ((Real.sin (θ / 2) : ℂ) * Complex.I) * ((Real.cos (θ / 2) : ℂ) + (Real.sin (θ / 2) : ℂ) * Complex.I) := by
  have h : Complex.exp (θ * Complex.I) = ((Real.cos (θ / 2) : ℂ) + (Real.sin (θ / 2) : ℂ) * Complex.I) ^ 2 := by
    rw [Complex.ofReal_cos, Complex.ofReal_sin, ← Complex.exp_mul_I, ← Complex.exp_nat_mul]
    congr 1
    push_cast
    ring
  have hcs : ((Real.cos (θ / 2) : ℂ)) ^ 2 + (Real.sin (θ / 2) : ℂ) ^ 2 = 1 := by
    rw [← Complex.ofReal_pow, ← Complex.ofReal_pow, ← Complex.ofReal_add, Real.cos_sq_add_sin_sq, Complex.ofReal_one]
  have hI := Complex.I_sq
  rw [h]
  constructor
  · linear_combination (-1) * hcs + (Real.sin (θ / 2) : ℂ) ^ 2 * hI + (-(2 * (Real.sin (θ / 2) : ℂ) ^ 2) + (Real.sin (θ / 2) : ℂ) ^ 2) * 0
  · linear_combination hcs - (Real.sin (θ / 2) : ℂ) ^ 2 * hI

/-- Transfer function on the unit circle. -/
private noncomputable def resp (k θ : ℝ) : ℂ :=
  ((k ^ 2 * Real.cos (θ / 2) ^ 2 : ℝ) : ℂ) /
    (((k ^ 2 * Real.cos (θ / 2) ^ 2 - Real.sin (θ / 2) ^ 2 : ℝ) : ℂ) + ((√2 * k * Real.sin (θ / 2) * Real.cos (θ / 2) : ℝ) : ℂ) * Complex.I)

private theorem den_pos {k : ℝ} (hk : 0 < k) (θ : ℝ) : 0 < k ^ 4 * Real.cos (θ / 2) ^ 4 + Real.sin (θ / 2) ^ 4 := by
  have h := Real.cos_sq_add_sin_sq (θ / 2)
  rcases eq_or_ne (Real.sin (θ / 2)) 0 with h0 | h0
  · rw [h0] at h ⊢
    have : Real.cos (θ / 2) ^ 4 = 1 := by
      have : Real.cos (θ / 2) ^ 2 = 1 := by linarith
      calc Real.cos (θ / 2) ^ 4 = (Real.cos (θ / 2) ^ 2) ^ 2 := by ring
        _ = 1 := by rw [this]; norm_num
    rw [this]; positivity
  · have : 0 < Real.sin (θ / 2) ^ 4 := by positivity
    positivity

private theorem den_normSq (k θ : ℝ) :
    Complex.normSq (((k ^ 2 * Real.cos (θ / 2) ^ 2 - Real.sin (θ / 2) ^ 2 : ℝ) : ℂ) +
      ((√2 * k * Real.sin (θ / 2) * Real.cos (θ / 2) : ℝ) : ℂ) * Complex.I) = k ^ 4 * Real.cos (θ / 2) ^ 4 + Real.sin (θ / 2) ^ 4 := by
  rw [Complex.normSq_add_mul_I]
  linear_combination (k * Real.sin (θ / 2) * Real.cos (θ / 2)) ^ 2 * sqrt2_sq

private theorem den_ne {k : ℝ} (hk : 0 < k) (θ : ℝ) : ((k ^ 2 * Real.cos (θ / 2) ^ 2 - Real.sin (θ / 2) ^ 2 : ℝ) : ℂ) +
      ((√2 * k * Real.sin (θ / 2) * Real.cos (θ / 2) : ℝ) : ℂ) * Complex.I ≠ 0 := by
  rw [← Complex.normSq_pos, den_normSq]
  exact den_pos hk θ

private theorem resp_eq {wn : ℝ} (h0 : 0 < wn) (h1 : wn < 1) (θ : ℝ) :
    let q := Biquad.toComplex (butter2 wn)
    let z := Complex.exp (θ * Complex.I)
    (z ^ 2 + q.a1 * z + q.a2) * resp (Real.tan (Real.pi * wn / 2)) θ = q.b0 * z ^ 2 + q.b1 * z + q.b2 := by
  have hk := tan_pos' h0 h1
  intro q z
  have hq : q = Biquad.toComplex (butter2 wn) := rfl
  unfold butter2 Biquad.toComplex at hq
  simp only at hq
  set k := Real.tan (Real.pi * wn / 2)
  obtain ⟨e1, e2⟩ := exp_half θ
  change z + 1 = _ at e1
  change z - 1 = _ at e2
  have hD := den_ne hk θ
  have hS : ((1 + √2 * k + k ^ 2 : ℝ) : ℂ) ≠ 0 := by
    rw [Complex.ofReal_ne_zero]; exact (butter_den hk).ne'
  unfold resp
  rw [mul_div_assoc', div_eq_iff hD]
  set c := Real.cos (θ / 2)
  set s := Real.sin (θ / 2)
  rw [hq]
  push_cast at hD hS ⊢
  have hden : ((1 : ℂ) + √2 * k + k ^ 2) * z ^ 2 + 2 * (k ^ 2 - 1) * z + (1 - √2 * k + k ^ 2) =
      (z - 1) ^ 2 + √2 * k * ((z - 1) * (z + 1)) + k ^ 2 * (z + 1) ^ 2 := by ring
  have hI := Complex.I_sq
  have hden2 : ((1 : ℂ) + √2 * k + k ^ 2) * z ^ 2 + 2 * (k ^ 2 - 1) * z + (1 - √2 * k + k ^ 2) =
      4 * (c + s * Complex.I) ^ 2 * (k ^ 2 * c ^ 2 - s ^ 2 + √2 * k * s * c * Complex.I) := by
    rw [hden, e1, e2]
    linear_combination 4 * (s : ℂ) ^ 2 * (c + s * Complex.I) ^ 2 * hI
  have hnum : (k : ℂ) ^ 2 * (z + 1) ^ 2 = 4 * (c + s * Complex.I) ^ 2 * (k ^ 2 * c ^ 2) := by rw [e1]; ring
  have l1 : z ^ 2 + 2 * ((k : ℂ) ^ 2 - 1) / (1 + √2 * k + k ^ 2) * z + (1 - √2 * k + k ^ 2) / (1 + √2 * k + k ^ 2) =
      (((1 : ℂ) + √2 * k + k ^ 2) * z ^ 2 + 2 * (k ^ 2 - 1) * z + (1 - √2 * k + k ^ 2)) / (1 + √2 * k + k ^ 2) := by
    rw [eq_div_iff hS]
    set S : ℂ := 1 + √2 * k + k ^ 2
    have : ∀ a b : ℂ, (z ^ 2 + a / S * z + b / S) * S = S * z ^ 2 + a * z + b := by
      intro a b
      have ha : a / S * S = a := div_mul_cancel₀ _ hS
      have hb : b / S * S = b := div_mul_cancel₀ _ hS
      linear_combination z * ha + hb
    rw [this]
  have l2 : (k : ℂ) ^ 2 / (1 + √2 * k + k ^ 2) * z ^ 2 + 2 * (k ^ 2 / (1 + √2 * k + k ^ 2)) * z + k ^ 2 / (1 + √2 * k + k ^ 2) =
      (k : ℂ) ^ 2 * (z + 1) ^ 2 / (1 + √2 * k + k ^ 2) := by ring
  rw [l1, l2, hden2, hnum]
  ring

private theorem resp_norm {k : ℝ} (hk : 0 < k) (θ : ℝ) : ‖resp k θ‖ ≤ 1 := by
  unfold resp
  rw [norm_div, div_le_one (norm_pos_iff.mpr (den_ne hk θ))]
  refine le_of_sq_le_sq ?_ (norm_nonneg _)
  rw [← Complex.normSq_eq_norm_sq, ← Complex.normSq_eq_norm_sq, den_normSq, Complex.normSq_ofReal]
  have : 0 ≤ Real.sin (θ / 2) ^ 4 := by positivity
  nlinarith

private theorem resp_mul {wn : ℝ} (h0 : 0 < wn) (h1 : wn < 1) (θ : ℝ) :
    resp (Real.tan (Real.pi * wn / 2)) (-θ) * resp (Real.tan (Real.pi * wn / 2)) θ = ((Spec.butterGain wn θ : ℝ) : ℂ) := by
  have hk := tan_pos' h0 h1
  set k := Real.tan (Real.pi * wn / 2) with hkd
  have hD := den_ne hk θ
  have hD' := den_ne hk (-θ)
  have hp := den_pos hk θ
  unfold resp
  have hg : Spec.butterGain wn θ = k ^ 4 * Real.cos (θ / 2) ^ 4 / (k ^ 4 * Real.cos (θ / 2) ^ 4 + Real.sin (θ / 2) ^ 4) := by
    have hc : 0 < Real.cos (Real.pi * wn / 2) := Real.cos_pos_of_mem_Ioo ⟨by nlinarith [Real.pi_pos], by nlinarith [Real.pi_pos]⟩
    have hs : Real.sin (Real.pi * wn / 2) = k * Real.cos (Real.pi * wn / 2) := by
      rw [hkd, Real.tan_mul_cos hc.ne']
    unfold Spec.butterGain
    rw [hs]
    have e1 : (k * Real.cos (Real.pi * wn / 2) * Real.cos (θ / 2)) ^ 4 = Real.cos (Real.pi * wn / 2) ^ 4 * (k ^ 4 * Real.cos (θ / 2) ^ 4) := by ring
    rw [e1, mul_pow, ← mul_add, mul_div_mul_left _ _ (by positivity)]
  rw [hg]
  rw [neg_div, Real.cos_neg, Real.sin_neg] at *
  rw [div_mul_div_comm, Complex.ofReal_div, div_eq_div_iff (mul_ne_zero hD' hD) (Complex.ofReal_ne_zero.mpr hp.ne')]
  push_cast
  have hI := Complex.I_sq
  have h2 := sqrt2C
  linear_combination (k : ℂ) ^ 6 * Complex.cos (θ / 2) ^ 6 * Complex.sin (θ / 2) ^ 2 * ((√2 : ℝ) : ℂ) ^ 2 * hI -
    (k : ℂ) ^ 6 * Complex.cos (θ / 2) ^ 6 * Complex.sin (θ / 2) ^ 2 * h2

/-! ## The poles -/

private theorem poles {wn : ℝ} (h0 : 0 < wn) (h1 : wn < 1) : ∃ p p' : ℂ,
    p ^ 2 + (Biquad.toComplex (butter2 wn)).a1 * p + (Biquad.toComplex (butter2 wn)).a2 = 0 ∧
    p' ^ 2 + (Biquad.toComplex (butter2 wn)).a1 * p' + (Biquad.toComplex (butter2 wn)).a2 = 0 ∧ p ≠ p' ∧ ‖p‖ < 1 ∧ ‖p'‖ < 1 := by
  have hk := tan_pos' h0 h1
  obtain ⟨q, hq'⟩ : ∃ q, q = Biquad.toComplex (butter2 wn) := ⟨_, rfl⟩
  have hq := hq'
  rw [← hq']
  unfold butter2 Biquad.toComplex at hq
  simp only at hq
  set k := Real.tan (Real.pi * wn / 2)
  have hS := butter_den hk
  set S := 1 + √2 * k + k ^ 2 with hSd
  have e1 : q.a1 = ((2 * (k ^ 2 - 1) / S : ℝ) : ℂ) := by rw [hq]
  have e2 : q.a2 = (((1 - √2 * k + k ^ 2) / S : ℝ) : ℂ) := by rw [hq]
  have root : ∀ y : ℝ, y ^ 2 = 2 * k ^ 2 → (((1 - k ^ 2) / S : ℝ) + ((y / S : ℝ) : ℂ) * Complex.I) ^ 2 +
      q.a1 * (((1 - k ^ 2) / S : ℝ) + ((y / S : ℝ) : ℂ) * Complex.I) + q.a2 = 0 := by
    intro y hy
    rw [e1, e2]
    have hr : (((1 - k ^ 2) / S) ^ 2 - (y / S) ^ 2 + 2 * (k ^ 2 - 1) / S * ((1 - k ^ 2) / S) + (1 - √2 * k + k ^ 2) / S : ℝ) = 0 := by
      rw [div_pow y S, hy]
      have h2 := sqrt2_sq
      have : (1 - √2 * k + k ^ 2) / S = (1 + k ^ 4) / S ^ 2 := by
        rw [div_eq_div_iff hS.ne' (by positivity)]
        rw [hSd]
        linear_combination -(k ^ 2 * (1 + √2 * k + k ^ 2)) * h2
      rw [this]
      field_simp
      ring
    have hi : (2 * ((1 - k ^ 2) / S) * (y / S) + 2 * (k ^ 2 - 1) / S * (y / S) : ℝ) = 0 := by ring
    have hrC : (((((1 - k ^ 2) / S) ^ 2 - (y / S) ^ 2 + 2 * (k ^ 2 - 1) / S * ((1 - k ^ 2) / S) + (1 - √2 * k + k ^ 2) / S : ℝ)) : ℂ) = 0 := by
      rw [hr]; simp
    have hiC : ((2 * ((1 - k ^ 2) / S) * (y / S) + 2 * (k ^ 2 - 1) / S * (y / S) : ℝ) : ℂ) = 0 := by rw [hi]; simp
    have hI := Complex.I_sq
    simp only [Complex.ofReal_add, Complex.ofReal_sub, Complex.ofReal_mul, Complex.ofReal_pow, Complex.ofReal_ofNat] at hrC hiC
    linear_combination hrC + Complex.I * hiC + ((y / S : ℝ) : ℂ) ^ 2 * hI
  have size : ∀ y : ℝ, y ^ 2 = 2 * k ^ 2 → ‖(((1 - k ^ 2) / S : ℝ) : ℂ) + ((y / S : ℝ) : ℂ) * Complex.I‖ < 1 := by
    intro y hy
    rw [← sq_lt_one_iff₀ (norm_nonneg _), ← Complex.normSq_eq_norm_sq, Complex.normSq_add_mul_I, div_pow, div_pow, ← add_div,
      div_lt_one (by positivity), hy, hSd]
    have h2 := sqrt2_sq
    have : 0 < √2 * k := by positivity
    nlinarith [mul_pos this (by positivity : (0 : ℝ) < 1 + k ^ 2), sq_nonneg (√2 * k)]
  have hy1 : (√2 * k) ^ 2 = 2 * k ^ 2 := by rw [mul_pow, Real.sq_sqrt (by norm_num)]
  have hy2 : (-(√2 * k)) ^ 2 = 2 * k ^ 2 := by rw [neg_sq, hy1]
  refine ⟨_, _, root _ hy1, root _ hy2, ?_, size _ hy1, size _ hy2⟩
  intro h
  have := congrArg Complex.im h
  simp only [Complex.add_im, Complex.ofReal_im, Complex.mul_im, Complex.ofReal_re, Complex.I_im, Complex.I_re, mul_one, mul_zero, add_zero, zero_add] at this
  have hpos : 0 < √2 * k / S := by positivity
  rw [neg_div] at this
  linarith

/-! ## A sine through the two passes -/

private theorem norm_exp (x : ℝ) : ‖Complex.exp (x * Complex.I)‖ = 1 := Complex.norm_exp_ofReal_mul_I x

private theorem exp_core {wn : ℝ} (h0 : 0 < wn) (h1 : wn < 1) : ∃ C σ : ℝ, 0 < C ∧ 0 < σ ∧ σ < 1 ∧ ∀ (θ : ℝ) (N : ℕ), padLen < N → ∀ i < N,
    ‖(Biquad.toComplex (butter2 wn)).twoPass (fun n => Complex.exp (((θ * n : ℝ) : ℂ) * Complex.I)) N i -
      ((Spec.butterGain wn θ : ℝ) : ℂ) * Complex.exp (((θ * i : ℝ) : ℂ) * Complex.I)‖ ≤ C * (σ ^ i + σ ^ (N - i)) := by
  obtain ⟨p, p', hp, hp', hne, hn, hn'⟩ := poles h0 h1
  obtain ⟨σ, hs1, hs2⟩ := exists_between (max_lt hn hn')
  have hps : ‖p‖ < σ := lt_of_le_of_lt (le_max_left _ _) hs1
  have hps' : ‖p'‖ < σ := lt_of_le_of_lt (le_max_right _ _) hs1
  have hσ : 0 < σ := lt_of_le_of_lt (norm_nonneg _) hps
  obtain ⟨M, hM, hresp⟩ := resp_bound _ hp hp' hne hs2 hps hps'
  set q := Biquad.toComplex (butter2 wn) with hqd
  set k := Real.tan (Real.pi * wn / 2) with hkd
  have hk : 0 < k := tan_pos' h0 h1
  -- size of a state that fits
  set Z := ‖q.zi.1‖ + ‖q.zi.2‖
  set T := 1 + ‖q.b0‖ + ‖q.a1‖ + ‖q.b1‖
  have hZ : 0 ≤ Z := by positivity
  have hT : 0 ≤ T := by positivity
  have fit1 : ∀ H : ℂ, ‖H‖ ≤ 1 → ‖H - q.b0‖ ≤ T := by
    intro H hH
    refine (norm_sub_le _ _).trans ?_
    have := norm_nonneg q.a1
    have := norm_nonneg q.b1
    simp only [T]; linarith
  have fit2 : ∀ H z : ℂ, ‖H‖ ≤ 1 → ‖z‖ = 1 → ‖(H - q.b0) * z + q.a1 * H - q.b1‖ ≤ T := by
    intro H z hH hz
    refine (norm_sub_le _ _).trans ?_
    have a1 := norm_add_le ((H - q.b0) * z) (q.a1 * H)
    rw [norm_mul, norm_mul, hz, mul_one] at a1
    have a2 := norm_sub_le H q.b0
    have a3 : ‖q.a1‖ * ‖H‖ ≤ ‖q.a1‖ * 1 := mul_le_mul_of_nonneg_left hH (norm_nonneg _)
    simp only [T]; linarith
  set C1 := M * (4 / σ ^ 9 + (3 * Z + T))
  have hC1 : 0 ≤ C1 := by positivity
  set C2 := M * (C1 / σ + (Z * (1 + 2 * C1) + T))
  have hC2 : 0 ≤ C2 := by positivity
  refine ⟨C2 + 1, σ, by positivity, hσ, hs2, ?_⟩
  intro θ N hN i hi
  have hN9 : 9 < N := hN
  set z := Complex.exp (θ * Complex.I) with hz
  set z' := Complex.exp (((-θ : ℝ) : ℂ) * Complex.I) with hz'
  have hH := resp_eq h0 h1 θ
  have hH' := resp_eq h0 h1 (-θ)
  simp only at hH hH'
  rw [← hkd, ← hqd, ← hz] at hH
  rw [← hkd, ← hqd, ← hz'] at hH'
  set H := resp k θ with hHd
  set H' := resp k (-θ) with hHd'
  have nH : ‖H‖ ≤ 1 := resp_norm hk θ
  have nH' : ‖H'‖ ≤ 1 := resp_norm hk (-θ)
  -- forward
  set x : ℕ → ℂ := fun n => Complex.exp (((θ * n : ℝ) : ℂ) * Complex.I) with hx
  set u : ℕ → ℂ := fun n => Complex.exp (((θ * ((n : ℝ) - 9) : ℝ) : ℂ) * Complex.I) with hu
  set e := oddExt x N with he
  have nx : ∀ n, ‖x n‖ = 1 := fun n => norm_exp _
  have nu : ∀ n, ‖u n‖ = 1 := fun n => norm_exp _
  have hus : ∀ n, u (n + 1) = z * u n := by
    intro n
    simp only [hu, hz, ← Complex.exp_add]
    congr 1
    push_cast
    ring
  have ne : ∀ n, ‖e n‖ ≤ 3 := by
    intro n
    have t : ∀ a b : ℕ, ‖2 * x a - x b‖ ≤ 3 := by
      intro a b
      refine (norm_sub_le _ _).trans ?_
      rw [norm_mul, nx, nx]; norm_num
    simp only [he, oddExt]
    split_ifs
    · exact t _ _
    · rw [nx]; norm_num
    · exact t _ _
  set L := N + 18 with hL
  have hB : ∀ n, 0 < σ ^ n + σ ^ (L - n) := fun n => by positivity
  have hd : ∀ n < L, ‖e n - u n‖ ≤ 4 / σ ^ 9 * (σ ^ n + σ ^ (L - n)) := by
    intro n hn
    have h4 : ‖e n - u n‖ ≤ 4 := by
      refine (norm_sub_le _ _).trans ?_
      rw [nu]; linarith [ne n]
    by_cases c1 : n < 9
    · have : σ ^ 9 ≤ σ ^ n := pow_le_pow_of_le_one hσ.le hs2.le c1.le
      have h5 : 4 ≤ 4 / σ ^ 9 * σ ^ n := by
        rw [div_mul_eq_mul_div, le_div_iff₀ (by positivity)]; linarith
      have : 0 ≤ 4 / σ ^ 9 * σ ^ (L - n) := by positivity
      linarith
    · by_cases c2 : n < 9 + N
      · have : e n = u n := by
          have e1 : e n = x (n - 9) := by
            simp only [he, oddExt]
            rw [if_neg (show ¬ n < padLen from c1), if_pos (show n < padLen + N from c2)]
            rfl
          rw [e1]
          simp only [hx, hu]
          congr 3
          push_cast [Nat.cast_sub (not_lt.mp c1)]
          rfl
        rw [this, sub_self, norm_zero]
        positivity
      · have : σ ^ 9 ≤ σ ^ (L - n) := pow_le_pow_of_le_one hσ.le hs2.le (by omega)
        have h5 : 4 ≤ 4 / σ ^ 9 * σ ^ (L - n) := by
          rw [div_mul_eq_mul_div, le_div_iff₀ (by positivity)]; linarith
        have : 0 ≤ 4 / σ ^ 9 * σ ^ n := by positivity
        linarith
  have hzi1 : ‖q.zi.1‖ ≤ Z := le_add_of_nonneg_right (norm_nonneg _)
  have hzi2 : ‖q.zi.2‖ ≤ Z := le_add_of_nonneg_left (norm_nonneg _)
  set y := q.lfilter e (q.zi.1 * e 0, q.zi.2 * e 0) with hy
  set t := q.lfilter (fun k => e k - u k) (q.zi.1 * e 0 - (H - q.b0) * u 0, q.zi.2 * e 0 - ((H - q.b0) * z + q.a1 * H - q.b1) * u 0) with ht
  have hyt : ∀ n, y n = H * u n + t n := fun n => lfilter_split q hH u e hus _ n
  have hz1 : ‖z‖ = 1 := norm_exp _
  have hz1' : ‖z'‖ = 1 := norm_exp _
  have htb : ∀ n < L, ‖t n‖ ≤ C1 * (σ ^ n + σ ^ (L - n)) := by
    intro n hn
    refine hresp (4 / σ ^ 9) (3 * Z + T) L _ _ (by positivity) (by positivity) hd ?_ ?_ n hn
    · refine (norm_sub_le _ _).trans ?_
      rw [norm_mul, norm_mul, nu, mul_one]
      have := mul_le_mul hzi1 (ne 0) (norm_nonneg _) hZ
      linarith [fit1 H nH]
    · refine (norm_sub_le _ _).trans ?_
      rw [norm_mul, norm_mul, nu, mul_one]
      have := mul_le_mul hzi2 (ne 0) (norm_nonneg _) hZ
      linarith [fit2 H z nH hz1]
  -- backward
  have hlast : N + 2 * padLen - 1 = N + 17 := by unfold padLen; omega
  set v : ℕ → ℂ := fun m => H * Complex.exp (((θ * ((N : ℝ) + 8 - m) : ℝ) : ℂ) * Complex.I) with hv
  have hvs : ∀ m, v (m + 1) = z' * v m := by
    intro m
    simp only [hv, hz']
    rw [mul_left_comm, ← Complex.exp_add]
    congr 2
    push_cast
    ring
  have nv : ∀ m, ‖v m‖ ≤ 1 := by
    intro m
    simp only [hv]
    rw [norm_mul, norm_exp, mul_one]; exact nH
  have hvu : ∀ m ≤ N + 17, H * u (N + 17 - m) = v m := by
    intro m hm
    simp only [hv, hu]
    congr 3
    push_cast [Nat.cast_sub hm]
    ring_nf
  have nt : ‖t (N + 17)‖ ≤ 2 * C1 := by
    refine (htb _ (by omega)).trans ?_
    have a1 : σ ^ (N + 17) ≤ 1 := pow_le_one₀ hσ.le hs2.le
    have a2 : σ ^ (L - (N + 17)) ≤ 1 := pow_le_one₀ hσ.le hs2.le
    nlinarith
  have ny : ‖y (N + 17)‖ ≤ 1 + 2 * C1 := by
    rw [hyt]
    refine (norm_add_le _ _).trans ?_
    rw [norm_mul, nu, mul_one]
    linarith
  have hout : q.twoPass x N i = q.lfilter (fun m => y (N + 17 - m)) (q.zi.1 * y (N + 17), q.zi.2 * y (N + 17)) (N + 8 - i) := by
    unfold Biquad.twoPass
    simp only [hlast]
    congr 1
    unfold padLen
    omega
  have hsplit := lfilter_split q hH' v (fun m => y (N + 17 - m)) hvs (q.zi.1 * y (N + 17), q.zi.2 * y (N + 17)) (N + 8 - i)
  have hlead : H' * v (N + 8 - i) = ((Spec.butterGain wn θ : ℝ) : ℂ) * Complex.exp (((θ * i : ℝ) : ℂ) * Complex.I) := by
    rw [← resp_mul h0 h1 θ, ← hkd, ← hHd, ← hHd']
    simp only [hv]
    rw [mul_assoc]
    congr 4
    push_cast [Nat.cast_sub (by omega : i ≤ N + 8)]
    ring
  rw [hout, hsplit, hlead, add_sub_cancel_left]
  have hb : ∀ m < L, ‖y (N + 17 - m) - v m‖ ≤ C1 / σ * (σ ^ m + σ ^ (L - m)) := by
    intro m hm
    rw [hyt, hvu m (by omega), add_sub_cancel_left]
    refine (htb _ (by omega)).trans ?_
    have e1 : L - (N + 17 - m) = m + 1 := by omega
    have e2 : L - m = (N + 17 - m) + 1 := by omega
    rw [e1, e2, div_mul_eq_mul_div, le_div_iff₀ hσ, pow_succ, pow_succ]
    have a1 : 0 < σ ^ m := by positivity
    have a2 : 0 < σ ^ (N + 17 - m) := by positivity
    have : (σ ^ (N + 17 - m) + σ ^ m * σ) * σ ≤ σ ^ m + σ ^ (N + 17 - m) * σ := by nlinarith [mul_pos a1 hσ]
    nlinarith
  refine (hresp (C1 / σ) (Z * (1 + 2 * C1) + T) L _ _ (by positivity) (by positivity) hb ?_ ?_ (N + 8 - i) (by omega)).trans ?_
  · refine (norm_sub_le _ _).trans ?_
    rw [norm_mul, norm_mul]
    have b1 := mul_le_mul hzi1 ny (norm_nonneg _) hZ
    have b2 := mul_le_mul (fit1 H' nH') (nv 0) (norm_nonneg _) hT
    linarith
  · refine (norm_sub_le _ _).trans ?_
    rw [norm_mul, norm_mul]
    have b1 := mul_le_mul hzi2 ny (norm_nonneg _) hZ
    have b2 := mul_le_mul (fit2 H' z' nH' hz1') (nv 0) (norm_nonneg _) hT
    linarith
  · have a1 : σ ^ (N + 8 - i) ≤ σ ^ (N - i) := pow_le_pow_of_le_one hσ.le hs2.le (by omega)
    have a2 : σ ^ (L - (N + 8 - i)) ≤ σ ^ i := pow_le_pow_of_le_one hσ.le hs2.le (by omega)
    have a3 : 0 ≤ σ ^ i := by positivity
    have a4 : 0 ≤ σ ^ (N - i) := by positivity
    calc _ ≤ C2 * (σ ^ i + σ ^ (N - i)) := mul_le_mul_of_nonneg_left (by linarith) hC2
      _ ≤ _ := mul_le_mul_of_nonneg_right (by linarith) (by positivity)

private theorem applyDrift_ok (g : Gen) (hn : 9 < g.n) (input : Option (ℕ → ℝ)) (scale : ℝ) (z : ℕ → ℝ) :
    g.applyDrift input scale z =
      .ok fun i => g.resolve input i + (butter2 (1 / 1000)).twoPass (fun j => ∑ k ∈ range (j + 1), z k * scale) g.n i := by
  unfold Gen.applyDrift Biquad.filtfilt
  simp only
  rw [if_neg (by unfold padLen; omega)]
  rfl

/-- **C145 (length).** `apply_drift` returns for every record of more than nine samples and raises `ValueError` for every shorter one. -/
theorem C145_length (g : Gen) (input : Option (ℕ → ℝ)) (scale : ℝ) (z : ℕ → ℝ) :
    (g.n ≤ 9 → g.applyDrift input scale z = .error .valueError) ∧ (9 < g.n → ∃ r, g.applyDrift input scale z = .ok r) := by
  refine ⟨fun h => ?_, fun h => ⟨_, applyDrift_ok g h input scale z⟩⟩
  unfold Gen.applyDrift Biquad.filtfilt
  simp only
  rw [if_pos (by unfold padLen; omega)]
  rfl

/-- **C145 (linear).** For each record length there is one matrix through which the draws reach the record, whatever generator, signal, scale and draws:
the filter is of the kind C87 assumes. So over integrable draws of mean zero every sample has the clean sample as mean, and the drift is proportional to
`drift_scale`. -/
theorem C145_linear (N : ℕ) (hN : 9 < N) :
    (∃ h : ℕ → ℕ → ℝ, ∀ g : Gen, g.n = N → ∀ input scale z, g.applyDrift input scale z = .ok (g.drift input scale h z)) ∧
    ∀ g : Gen, g.n = N → ∀ input scale, ∀ {Ω : Type} [MeasurableSpace Ω] (μ : Measure Ω) [IsProbabilityMeasure μ] (Z : ℕ → Ω → ℝ),
      (∀ k, Integrable (Z k) μ) → (∀ k, ∫ ω, Z k ω ∂μ = 0) →
      ∃ r : Ω → ℕ → ℝ, (∀ ω, g.applyDrift input scale (fun k => Z k ω) = .ok (r ω)) ∧ (∀ i, ∫ ω, r ω i ∂μ = g.resolve input i) ∧
        ∀ c ω, ∃ r', g.applyDrift input (c * scale) (fun k => Z k ω) = .ok r' ∧ ∀ i, r' i - g.resolve input i = c * (r ω i - g.resolve input i) := by
  have key : ∀ g : Gen, g.n = N → ∀ input scale z,
      g.applyDrift input scale z = .ok (g.drift input scale (filterMatrix (butter2 (1 / 1000)) N) z) := by
    intro g hg input scale z
    rw [applyDrift_ok g (by omega)]
    congr 1
    funext i
    unfold Gen.drift
    simp only
    rw [twoPass_matrix _ _ (by unfold padLen; omega), hg]
  refine ⟨⟨_, key⟩, ?_⟩
  intro g hg input scale Ω _ μ _ Z hZ hm
  refine ⟨fun ω => g.drift input scale (filterMatrix (butter2 (1 / 1000)) N) (fun k => Z k ω), fun ω => key g hg input scale _, ?_, ?_⟩
  · intro i
    exact (C87_drift μ g input scale _ i).1 Z hZ hm
  · intro c ω
    exact ⟨_, key g hg input (c * scale) _, fun i => (C87_drift μ g input scale _ i).2 c _⟩

/-- **C145 (offset).** The filter has gain one at zero frequency up to the ends of the record: a walk that stays at its first step moves every sample by
that step. -/
theorem C145_offset (g : Gen) (hn : 9 < g.n) (input : Option (ℕ → ℝ)) (scale : ℝ) (z : ℕ → ℝ) (hz : ∀ k, 0 < k → k < g.n → z k = 0) :
    g.applyDrift input scale z = .ok fun i => g.resolve input i + z 0 * scale := by
  rw [applyDrift_ok g hn]
  congr 1
  funext i
  obtain ⟨hd, hg⟩ := butter_dc (wn := 1 / 1000) (by norm_num) (by norm_num)
  rw [twoPass_congr (y := fun _ => z 0 * scale) _ (by unfold padLen; omega), twoPass_const _ hd hg]
  intro k hk
  rw [sum_range_succ', sum_eq_zero, zero_add]
  intro j hj
  rw [hz (j + 1) (by omega) (by rw [mem_range] at hj; omega), zero_mul]

/-- **C145 (smoothing).** Away from the ends of the record each sine in the walk reaches the signal with its phase unchanged and its amplitude multiplied
by the Butterworth factor for a cutoff of 0.001 of half the sampling rate. The deviation decays geometrically with the distance from either end, with
constants that do not depend on the record, its length, the draws or the frequencies. Every walk is a finite sum of sines. -/
theorem C145_smoothing : ∃ C σ : ℝ, 0 < C ∧ 0 < σ ∧ σ < 1 ∧ ∀ (g : Gen), 9 < g.n → ∀ (input : Option (ℕ → ℝ)) (scale : ℝ) (z : ℕ → ℝ)
    (R : ℕ) (A θ φ : ℕ → ℝ), (∀ n < g.n, ∑ k ∈ range (n + 1), z k * scale = ∑ m ∈ range R, A m * Real.sin (θ m * n + φ m)) →
    ∃ r, g.applyDrift input scale z = .ok r ∧ ∀ i < g.n,
      |r i - (g.resolve input i + ∑ m ∈ range R, Spec.butterGain (1 / 1000) (θ m) * (A m * Real.sin (θ m * i + φ m)))| ≤
        (∑ m ∈ range R, |A m|) * C * (σ ^ i + σ ^ (g.n - i)) := by
  obtain ⟨C, σ, hC, h0, h1, h⟩ := exp_core (wn := 1 / 1000) (by norm_num) (by norm_num)
  refine ⟨C, σ, hC, h0, h1, ?_⟩
  intro g hn input scale z R A θ φ hw
  refine ⟨_, applyDrift_ok g hn input scale z, fun i hi => ?_⟩
  have hp : padLen < g.n := hn
  have one : ∀ m, |(butter2 (1 / 1000)).twoPass (fun n => Real.sin (θ m * n + φ m)) g.n i -
      Spec.butterGain (1 / 1000) (θ m) * Real.sin (θ m * i + φ m)| ≤ C * (σ ^ i + σ ^ (g.n - i)) := by
    intro m
    have e1 : ∀ n : ℝ, Real.sin (θ m * n + φ m) =
        (Complex.exp ((φ m : ℂ) * Complex.I) * Complex.exp (((θ m * n : ℝ) : ℂ) * Complex.I)).im := by
      intro n
      rw [← Complex.exp_add, ← add_mul, ← Complex.ofReal_add, Complex.exp_ofReal_mul_I_im, add_comm]
    simp only [e1]
    rw [← twoPass_im (butter2 (1 / 1000)) fun n : ℕ => Complex.exp ((φ m : ℂ) * Complex.I) * Complex.exp (((θ m * n : ℝ) : ℂ) * Complex.I)]
    have e2 := twoPass_lin (Biquad.toComplex (butter2 (1 / 1000))) (Complex.exp ((φ m : ℂ) * Complex.I))
      (fun n : ℕ => Complex.exp (((θ m * n : ℝ) : ℂ) * Complex.I)) (fun _ => 0) g.n i
    simp only [add_zero, twoPass_zero] at e2
    rw [e2, ← Complex.im_ofReal_mul, ← Complex.sub_im, mul_left_comm, ← mul_sub]
    refine (Complex.abs_im_le_norm _).trans ?_
    rw [norm_mul, norm_exp, one_mul]
    exact h (θ m) g.n hp i hi
  have e3 : (butter2 (1 / 1000)).twoPass (fun j => ∑ k ∈ range (j + 1), z k * scale) g.n i =
      ∑ m ∈ range R, A m * (butter2 (1 / 1000)).twoPass (fun n : ℕ => Real.sin (θ m * n + φ m)) g.n i := by
    rw [twoPass_congr _ hp hw, twoPass_sum _ A (fun m (n : ℕ) => Real.sin (θ m * n + φ m))]
  rw [e3, add_sub_add_left_eq_sub, ← sum_sub_distrib, sum_mul, sum_mul]
  refine (abs_sum_le_sum_abs _ _).trans (sum_le_sum fun m _ => ?_)
  have e4 : A m * (butter2 (1 / 1000)).twoPass (fun n : ℕ => Real.sin (θ m * n + φ m)) g.n i -
      Spec.butterGain (1 / 1000) (θ m) * (A m * Real.sin (θ m * i + φ m)) =
      A m * ((butter2 (1 / 1000)).twoPass (fun n : ℕ => Real.sin (θ m * n + φ m)) g.n i -
        Spec.butterGain (1 / 1000) (θ m) * Real.sin (θ m * i + φ m)) := by ring
  rw [e4, abs_mul, mul_assoc]
  exact mul_le_mul_of_nonneg_left (one m) (abs_nonneg _)

/-- **C145 (low pass).** The factor is one at zero frequency, one half at the cutoff, zero at half the sampling rate, and falls in between: only slow
components of the walk remain. -/
theorem C145_lowpass : Spec.butterGain (1 / 1000) 0 = 1 ∧ Spec.butterGain (1 / 1000) (Real.pi / 1000) = 1 / 2 ∧ Spec.butterGain (1 / 1000) Real.pi = 0 ∧
    StrictAntiOn (Spec.butterGain (1 / 1000)) (Set.Icc 0 Real.pi) := by
  have hs : 0 < Real.sin (Real.pi * (1 / 1000) / 2) := Real.sin_pos_of_pos_of_lt_pi (by have := Real.pi_pos; positivity) (by linarith [Real.pi_pos])
  have hc : 0 < Real.cos (Real.pi * (1 / 1000) / 2) := Real.cos_pos_of_mem_Ioo ⟨by linarith [Real.pi_pos], by linarith [Real.pi_pos]⟩
  refine ⟨?_, ?_, ?_, ?_⟩
  · unfold Spec.butterGain
    rw [zero_div, Real.cos_zero, Real.sin_zero, mul_one, mul_zero, zero_pow (by norm_num), add_zero, div_self (by positivity)]
  · unfold Spec.butterGain
    rw [show Real.pi / 1000 / 2 = Real.pi * (1 / 1000) / 2 by ring, mul_comm (Real.cos _) (Real.sin _), ← two_mul]
    set s := Real.sin (Real.pi * (1 / 1000) / 2)
    set c := Real.cos (Real.pi * (1 / 1000) / 2)
    field_simp
  · unfold Spec.butterGain
    simp [Real.cos_pi_div_two]
  · intro a ha b hb hab
    obtain ⟨ha0, ha1⟩ := ha
    obtain ⟨hb0, hb1⟩ := hb
    unfold Spec.butterGain
    set s := Real.sin (Real.pi * (1 / 1000) / 2)
    set c := Real.cos (Real.pi * (1 / 1000) / 2)
    have ca : 0 < Real.cos (a / 2) := Real.cos_pos_of_mem_Ioo ⟨by linarith [Real.pi_pos], by linarith⟩
    have cb : 0 ≤ Real.cos (b / 2) := Real.cos_nonneg_of_mem_Icc ⟨by linarith [Real.pi_pos], by linarith⟩
    have sb : 0 < Real.sin (b / 2) := Real.sin_pos_of_pos_of_lt_pi (by linarith) (by linarith [Real.pi_pos])
    have sa : 0 ≤ Real.sin (a / 2) := Real.sin_nonneg_of_nonneg_of_le_pi (by linarith) (by linarith [Real.pi_pos])
    have hcab : Real.cos (b / 2) < Real.cos (a / 2) := Real.cos_lt_cos_of_nonneg_of_le_pi (by linarith) (by linarith [Real.pi_pos]) (by linarith)
    have hsab : Real.sin (a / 2) ≤ Real.sin (b / 2) :=
      Real.sin_le_sin_of_le_of_le_pi_div_two (by linarith [Real.pi_pos]) (by linarith) (by linarith)
    have pa : 0 < (s * Real.cos (a / 2)) ^ 4 := by positivity
    have pb : (s * Real.cos (b / 2)) ^ 4 < (s * Real.cos (a / 2)) ^ 4 := pow_lt_pow_left₀ (mul_lt_mul_of_pos_left hcab hs) (by positivity) (by norm_num)
    have qb : 0 < (c * Real.sin (b / 2)) ^ 4 := by positivity
    have qa : (c * Real.sin (a / 2)) ^ 4 ≤ (c * Real.sin (b / 2)) ^ 4 := pow_le_pow_left₀ (by positivity) (mul_le_mul_of_nonneg_left hsab hc.le) 4
    have pb0 : 0 ≤ (s * Real.cos (b / 2)) ^ 4 := by positivity
    have qa0 : 0 ≤ (c * Real.sin (a / 2)) ^ 4 := by positivity
    rw [div_lt_div_iff₀ (by linarith) (by linarith)]
    nlinarith [mul_le_mul_of_nonneg_left qa pb0, mul_lt_mul_of_pos_right pb qb]

/-- A record of a thousand samples, and draws whose walk is a sine. -/
example : ∃ (g : Gen) (z : ℕ → ℝ), 9 < g.n ∧ ∀ n < g.n, ∑ k ∈ range (n + 1), z k * 1 = ∑ m ∈ range 1, (fun _ => (1 : ℝ)) m * Real.sin (1 * n + 0) := by
  refine ⟨⟨1000, 1, 1 / 10, 1, 0⟩, fun k => Real.sin k - Real.sin ((k : ℝ) - 1) + if k = 0 then Real.sin (-1) else 0, by norm_num, fun n _ => ?_⟩
  simp only [sum_range_one, one_mul, mul_one, add_zero]
  induction n with
  | zero => simp
  | succ n ih =>
    rw [sum_range_succ, ih (by omega)]
    simp

/-- A record of ten samples whose walk stays at its first step. -/
example : ∃ (g : Gen) (z : ℕ → ℝ), 9 < g.n ∧ (∀ k, 0 < k → k < g.n → z k = 0) ∧ z 0 ≠ 0 :=
  ⟨⟨10, 1, 1 / 10, 1, 0⟩, fun k => if k = 0 then 1 else 0, by norm_num, fun k hk _ => if_neg (by omega), by norm_num⟩

end Verif
