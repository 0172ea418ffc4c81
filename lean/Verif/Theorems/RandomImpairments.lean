import Verif.Theorems.Pipeline
import Verif.Theorems.CapMismatch
import Verif.Theorems.Mismatch
import Mathlib.Probability.Moments.Covariance

/-!
# C87: statistics of the random impairments of the signal generator

Draws are random variables on an arbitrary probability space.
-/

namespace Verif

open Model Finset MeasureTheory ProbabilityTheory

variable {Ω : Type} [MeasurableSpace Ω] (μ : Measure Ω) [IsProbabilityMeasure μ]

/-! ## Thermal noise and drift -/

/-- **C87 (thermal noise).** Over draws of mean zero and variance one: every sample has the clean sample as mean, the variance is the square of the given
rms value at every sample, and for independent draws different samples are uncorrelated. -/
theorem C87_thermal (g : Gen) (input : Option (ℕ → ℝ)) (rms : ℝ) (Z : ℕ → Ω → ℝ) (hZ : ∀ i, MemLp (Z i) 2 μ) (hmean : ∀ i, ∫ ω, Z i ω ∂μ = 0)
    (hvar : ∀ i, Var[Z i; μ] = 1) (i : ℕ) :
    ∫ ω, g.thermal input rms (fun k => Z k ω) i ∂μ = g.resolve input i ∧
    Var[fun ω => g.thermal input rms (fun k => Z k ω) i; μ] = rms ^ 2 ∧
    ∀ j, IndepFun (Z i) (Z j) μ → cov[fun ω => g.thermal input rms (fun k => Z k ω) i, fun ω => g.thermal input rms (fun k => Z k ω) j; μ] = 0 := by
  have e : ∀ i, (fun ω => g.thermal input rms (fun k => Z k ω) i) = fun ω => g.resolve input i + rms * Z i ω := by
    intro i; funext ω; unfold Gen.thermal; ring
  simp only [e]
  refine ⟨?_, ?_, ?_⟩
  · rw [integral_add (integrable_const _) (((hZ i).integrable (by norm_num)).const_mul _), integral_const_mul, hmean]
    simp
  · rw [variance_const_add ((hZ i).aestronglyMeasurable.const_mul _), variance_const_mul, hvar, mul_one]
  · intro j hij
    have hi : ∀ i, Integrable (fun ω => rms * Z i ω) μ := fun i => ((hZ i).integrable (by norm_num)).const_mul _
    rw [covariance_const_add_left (hi i), covariance_const_add_right (hi j), covariance_const_mul_left, covariance_const_mul_right,
      hij.covariance_eq_zero (hZ i) (hZ j)]
    ring

/-- **C87 (drift).** Whatever linear filter smooths the walk: the drift is unbiased over draws of mean zero, and for each draw it scales with `drift_scale`
and vanishes with it. -/
theorem C87_drift (g : Gen) (input : Option (ℕ → ℝ)) (scale : ℝ) (h : ℕ → ℕ → ℝ) (i : ℕ) :
    (∀ (Z : ℕ → Ω → ℝ), (∀ k, Integrable (Z k) μ) → (∀ k, ∫ ω, Z k ω ∂μ = 0) →
      ∫ ω, g.drift input scale h (fun k => Z k ω) i ∂μ = g.resolve input i) ∧
    (∀ c z, g.drift input (c * scale) h z i - g.resolve input i = c * (g.drift input scale h z i - g.resolve input i)) := by
  constructor
  · intro Z hZ hm
    unfold Gen.drift
    simp only
    have hint : ∀ j, Integrable (fun ω => h i j * ∑ k ∈ range (j + 1), Z k ω * scale) μ := by
      intro j
      apply Integrable.const_mul
      exact integrable_finset_sum _ fun k _ => (hZ k).mul_const _
    rw [integral_add (integrable_const _) (integrable_finset_sum _ fun j _ => hint j), integral_finset_sum _ fun j _ => hint j]
    have : ∀ j ∈ range g.n, ∫ ω, h i j * ∑ k ∈ range (j + 1), Z k ω * scale ∂μ = 0 := by
      intro j _
      rw [integral_const_mul, integral_finset_sum _ fun k _ => (hZ k).mul_const _]
      rw [sum_eq_zero, mul_zero]
      intro k _
      rw [integral_mul_const, hm, zero_mul]
    rw [sum_congr rfl this]
    simp
  · intro c z
    unfold Gen.drift
    simp only [add_sub_cancel_left]
    rw [mul_sum]
    refine sum_congr rfl fun j _ => ?_
    rw [mul_sum, mul_sum, mul_sum]
    exact sum_congr rfl fun k _ => by ring

/-! ## Amplitude noise -/

/-- **C87 (amplitude noise).** The mean is the clean sample; the standard deviation is `strength` times the distance from the offset. -/
theorem C87_am_noise (g : Gen) (input : Option (ℕ → ℝ)) (strength : ℝ) (Z : ℕ → Ω → ℝ) (hZ : ∀ i, MemLp (Z i) 2 μ) (hmean : ∀ i, ∫ ω, Z i ω ∂μ = 0)
    (hvar : ∀ i, Var[Z i; μ] = 1) (i : ℕ) :
    ∫ ω, g.amNoise input strength (fun k => Z k ω) i ∂μ = g.resolve input i ∧
    Var[fun ω => g.amNoise input strength (fun k => Z k ω) i; μ] = (strength * (g.resolve input i - g.dc)) ^ 2 := by
  have e : (fun ω => g.amNoise input strength (fun k => Z k ω) i) = fun ω => g.resolve input i + strength * (g.resolve input i - g.dc) * Z i ω := by
    funext ω; unfold Gen.amNoise; ring
  rw [e]
  constructor
  · rw [integral_add (integrable_const _) (((hZ i).integrable (by norm_num)).const_mul _), integral_const_mul, hmean]
    simp
  · rw [variance_const_add ((hZ i).aestronglyMeasurable.const_mul _), variance_const_mul, hvar, mul_one]

/-- The generator's frequency is on FFT bin `k` of its record, strictly between zero and half the sampling rate. -/
def CoherentGen (g : Gen) (k : ℕ) : Prop := 0 < g.fs ∧ g.fin = k * g.fs / g.n ∧ 0 < k ∧ 2 * k < g.n

private theorem coherent_arg (g : Gen) (k : ℕ) (hg : CoherentGen g k) (i : ℕ) : 2 * Real.pi * g.fin * g.t i = 2 * Real.pi * (k * i / g.n) := by
  obtain ⟨hfs, hf, _, _⟩ := hg
  unfold Gen.t
  rw [hf]
  field_simp

private theorem sum_sin_sq (g : Gen) (k : ℕ) (hg : CoherentGen g k) : ∑ i ∈ range g.n, Real.sin (2 * Real.pi * g.fin * g.t i) ^ 2 = g.n / 2 := by
  have hz := sum_cos_zero g.n (by have := hg.2.2; omega) (2 * k : ℤ) (by
    obtain ⟨_, _, h1, h2⟩ := hg
    intro ⟨c, hc⟩
    have h2' : 2 * (k : ℤ) < g.n := by exact_mod_cast h2
    have h3 : 0 < (g.n : ℤ) * c := by rw [← hc]; positivity
    have h4 : 0 < c := by
      by_contra hneg
      have : (g.n : ℤ) * c ≤ 0 := mul_nonpos_of_nonneg_of_nonpos (by positivity) (by omega)
      omega
    nlinarith) 0
  have : ∀ i ∈ range g.n, Real.sin (2 * Real.pi * g.fin * g.t i) ^ 2 = 1 / 2 - 1 / 2 * Real.cos (2 * Real.pi * (((2 * k : ℤ) : ℝ) * i / g.n) + 0) := by
    intro i _
    rw [coherent_arg g k hg i, Real.sin_sq_eq_half_sub]
    have : 2 * (2 * Real.pi * ((k : ℝ) * i / g.n)) = 2 * Real.pi * (((2 * k : ℤ) : ℝ) * i / g.n) + 0 := by push_cast; ring
    rw [this]
    ring
  rw [sum_congr rfl this, sum_sub_distrib, ← mul_sum, hz]
  simp
  ring

/-- **C87 (amplitude noise of a coherent sine).** Averaged over the record, the noise power is `strength^2` times the power `A^2/2` of the sine: the
signal-to-noise ratio is `-20 log10 strength`. (The documentation calls `strength` relative to the amplitude; the rms value is `strength * A / sqrt 2`.) -/
theorem C87_am_noise_power (g : Gen) (k : ℕ) (hg : CoherentGen g k) (strength : ℝ) (Z : ℕ → Ω → ℝ) (hZ : ∀ i, MemLp (Z i) 2 μ)
    (hmean : ∀ i, ∫ ω, Z i ω ∂μ = 0) (hvar : ∀ i, Var[Z i; μ] = 1) :
    (∑ i ∈ range g.n, Var[fun ω => g.amNoise none strength (fun k => Z k ω) i; μ]) / g.n = strength ^ 2 * (g.a ^ 2 / 2) ∧
    (∑ i ∈ range g.n, (g.base i - g.dc) ^ 2) / g.n = g.a ^ 2 / 2 := by
  have hn : (g.n : ℝ) ≠ 0 := by have := hg.2.2; exact_mod_cast (by omega : g.n ≠ 0)
  have hs := sum_sin_sq g k hg
  constructor
  · have : ∀ i ∈ range g.n, Var[fun ω => g.amNoise none strength (fun k => Z k ω) i; μ]
        = strength ^ 2 * g.a ^ 2 * Real.sin (2 * Real.pi * g.fin * g.t i) ^ 2 := by
      intro i _
      rw [(C87_am_noise μ g none strength Z hZ hmean hvar i).2]
      simp only [Gen.resolve, Gen.base]
      ring
    rw [sum_congr rfl this, ← mul_sum, hs]
    field_simp
  · have : ∀ i ∈ range g.n, (g.base i - g.dc) ^ 2 = g.a ^ 2 * Real.sin (2 * Real.pi * g.fin * g.t i) ^ 2 := by
      intro i _
      unfold Gen.base
      ring
    rw [sum_congr rfl this, ← mul_sum, hs]
    field_simp

/-! ## Jitter -/

private theorem gauss_trig (X : Ω → ℝ) (hX : AEMeasurable X μ) (hlaw : Measure.map X μ = gaussianReal 0 1) (s : ℝ) :
    ∫ ω, Real.cos (s * X ω) ∂μ = Real.exp (-(s ^ 2 / 2)) ∧ ∫ ω, Real.sin (s * X ω) ∂μ = 0 := by
  have h := charFun_gaussianReal (μ := 0) (v := 1) s
  rw [← hlaw, charFun_apply_real, integral_map hX (by fun_prop)] at h
  have hint : Integrable (fun ω => Complex.exp (s * (X ω : ℂ) * Complex.I)) μ := by
    apply Integrable.of_bound (C := 1)
    · have : AEMeasurable (fun ω => Complex.exp (s * (X ω : ℂ) * Complex.I)) μ := by fun_prop
      exact this.aestronglyMeasurable
    · filter_upwards with ω
      rw [← Complex.ofReal_mul, Complex.norm_exp_ofReal_mul_I]
  have hr : ∀ ω, (Complex.exp (s * (X ω : ℂ) * Complex.I)).re = Real.cos (s * X ω) := by
    intro ω; rw [← Complex.ofReal_mul, Complex.exp_ofReal_mul_I_re]
  have hi : ∀ ω, (Complex.exp (s * (X ω : ℂ) * Complex.I)).im = Real.sin (s * X ω) := by
    intro ω; rw [← Complex.ofReal_mul, Complex.exp_ofReal_mul_I_im]
  have e : Complex.exp (s * ((0 : ℝ) : ℂ) * Complex.I - ((1 : NNReal) : ℂ) * s ^ 2 / 2) = ((Real.exp (-(s ^ 2 / 2)) : ℝ) : ℂ) := by
    push_cast
    congr 1
    ring
  have h2 := h.trans e
  constructor
  · have := congrArg Complex.re h2
    rw [← RCLike.re_eq_complex_re, ← integral_re hint] at this
    simp only [RCLike.re_eq_complex_re, hr, Complex.ofReal_re] at this
    exact this
  · have := congrArg Complex.im h2
    rw [← RCLike.im_eq_complex_im, ← integral_im hint] at this
    simp only [RCLike.im_eq_complex_im, hi, Complex.ofReal_im] at this
    exact this

theorem gauss_shift (X : Ω → ℝ) (hX : AEMeasurable X μ) (hlaw : Measure.map X μ = gaussianReal 0 1) (s φ : ℝ) :
    Integrable (fun ω => Real.cos (φ + s * X ω)) μ ∧ Integrable (fun ω => Real.sin (φ + s * X ω)) μ ∧
    ∫ ω, Real.cos (φ + s * X ω) ∂μ = Real.exp (-(s ^ 2 / 2)) * Real.cos φ ∧ ∫ ω, Real.sin (φ + s * X ω) ∂μ = Real.exp (-(s ^ 2 / 2)) * Real.sin φ := by
  obtain ⟨hc, hs⟩ := gauss_trig μ X hX hlaw s
  have ic : ∀ φ, Integrable (fun ω => Real.cos (φ + s * X ω)) μ := fun φ =>
    Integrable.of_bound (C := 1) (by fun_prop : AEMeasurable (fun ω => Real.cos (φ + s * X ω)) μ).aestronglyMeasurable
      (by filter_upwards with ω using Real.abs_cos_le_one _)
  have is : ∀ φ, Integrable (fun ω => Real.sin (φ + s * X ω)) μ := fun φ =>
    Integrable.of_bound (C := 1) (by fun_prop : AEMeasurable (fun ω => Real.sin (φ + s * X ω)) μ).aestronglyMeasurable
      (by filter_upwards with ω using Real.abs_sin_le_one _)
  have ic0 : Integrable (fun ω => Real.cos (s * X ω)) μ := by simpa using ic 0
  have is0 : Integrable (fun ω => Real.sin (s * X ω)) μ := by simpa using is 0
  refine ⟨ic φ, is φ, ?_, ?_⟩
  · simp only [Real.cos_add]
    rw [integral_sub (ic0.const_mul _) (is0.const_mul _), integral_const_mul, integral_const_mul, hc, hs]
    ring
  · simp only [Real.sin_add]
    rw [integral_add (ic0.const_mul _) (is0.const_mul _), integral_const_mul, integral_const_mul, hc, hs]
    ring

/-- **C87 (jitter, any distribution).** The mean-square error of every sample is at most `(2π Fin A)^2` times the mean-square time error. -/
theorem C87_jitter_bound (g : Gen) (T : ℕ → Ω → ℝ) (i : ℕ) (hT : MemLp (T i) 2 μ) :
    ∫ ω, (g.jitter (fun k => T k ω) i - g.base i) ^ 2 ∂μ ≤ (2 * Real.pi * g.fin * g.a) ^ 2 * ∫ ω, T i ω ^ 2 ∂μ := by
  rw [← integral_const_mul]
  apply integral_mono_of_nonneg
  · filter_upwards with ω using sq_nonneg _
  · exact hT.integrable_sq.const_mul _
  · filter_upwards with ω
    have h := (C71_jitter g (fun k => T k ω) i).1
    have h2 := pow_le_pow_left₀ (abs_nonneg _) h 2
    rw [sq_abs] at h2
    refine h2.trans (le_of_eq ?_)
    simp only [mul_pow, sq_abs]

/-- **C87 (jitter, normal draws).** With normal time errors of rms value `sigma`: the mean of each sample is the clean sample with its amplitude reduced by
`exp(-(2π Fin sigma)^2 / 2)`. -/
theorem C87_jitter_mean (g : Gen) (sigma : ℝ) (Z : ℕ → Ω → ℝ) (i : ℕ) (hZ : AEMeasurable (Z i) μ) (hlaw : Measure.map (Z i) μ = gaussianReal 0 1) :
    ∫ ω, g.jitter (fun k => Z k ω * sigma) i ∂μ
      = g.dc + g.a * Real.exp (-((2 * Real.pi * g.fin * sigma) ^ 2 / 2)) * Real.sin (2 * Real.pi * g.fin * g.t i) := by
  obtain ⟨_, hi, _, hs⟩ := gauss_shift μ (Z i) hZ hlaw (2 * Real.pi * g.fin * sigma) (2 * Real.pi * g.fin * g.t i)
  have e : (fun ω => g.jitter (fun k => Z k ω * sigma) i)
      = fun ω => g.dc + g.a * Real.sin (2 * Real.pi * g.fin * g.t i + 2 * Real.pi * g.fin * sigma * Z i ω) := by
    funext ω
    unfold Gen.jitter
    have : 2 * Real.pi * g.fin * (g.t i + Z i ω * sigma) = 2 * Real.pi * g.fin * g.t i + 2 * Real.pi * g.fin * sigma * Z i ω := by ring
    rw [this]
    ring
  rw [e, integral_add (integrable_const _) (hi.const_mul _), integral_const_mul, hs]
  simp
  ring

/-- **C87 (jitter noise power).** For a coherent sine and normal time errors of rms value `sigma`, the noise power averaged over the record is exactly
`A^2 (1 - exp(-(2π Fin sigma)^2 / 2))`, which is at most `(2π Fin sigma)^2` times the power of the sine: the signal-to-noise ratio is never below
`-20 log10 (2π Fin sigma)`. -/
theorem C87_jitter_power (g : Gen) (k : ℕ) (hg : CoherentGen g k) (sigma : ℝ) (Z : ℕ → Ω → ℝ) (hZ : ∀ i, AEMeasurable (Z i) μ)
    (hlaw : ∀ i, Measure.map (Z i) μ = gaussianReal 0 1) :
    (∑ i ∈ range g.n, ∫ ω, (g.jitter (fun k => Z k ω * sigma) i - g.base i) ^ 2 ∂μ) / g.n = g.a ^ 2 * (1 - Real.exp (-((2 * Real.pi * g.fin * sigma) ^ 2 / 2))) ∧
    g.a ^ 2 * (1 - Real.exp (-((2 * Real.pi * g.fin * sigma) ^ 2 / 2))) ≤ (2 * Real.pi * g.fin * sigma) ^ 2 * (g.a ^ 2 / 2) := by
  set w := 2 * Real.pi * g.fin * sigma with hw
  have hn : (g.n : ℝ) ≠ 0 := by have := hg.2.2; exact_mod_cast (by omega : g.n ≠ 0)
  constructor
  · have key : ∀ i ∈ range g.n, ∫ ω, (g.jitter (fun k => Z k ω * sigma) i - g.base i) ^ 2 ∂μ
        = g.a ^ 2 * (1 / 2 - 1 / 2 * Real.exp (-((2 * w) ^ 2 / 2)))
          + g.a ^ 2 * (Real.exp (-((2 * w) ^ 2 / 2)) - 2 * Real.exp (-(w ^ 2 / 2)) + 1) * Real.sin (2 * Real.pi * g.fin * g.t i) ^ 2 := by
      intro i _
      set φ := 2 * Real.pi * g.fin * g.t i with hφ
      obtain ⟨_, hi1, _, hs1⟩ := gauss_shift μ (Z i) (hZ i) (hlaw i) w φ
      obtain ⟨hi2, _, hs2, _⟩ := gauss_shift μ (Z i) (hZ i) (hlaw i) (2 * w) (2 * φ)
      have e : (fun ω => (g.jitter (fun k => Z k ω * sigma) i - g.base i) ^ 2)
          = fun ω => (g.a ^ 2 * (1 / 2 + Real.sin φ ^ 2) - g.a ^ 2 / 2 * Real.cos (2 * φ + 2 * w * Z i ω)) - 2 * g.a ^ 2 * Real.sin φ * Real.sin (φ + w * Z i ω) := by
        funext ω
        unfold Gen.jitter Gen.base
        have h1 : 2 * Real.pi * g.fin * (g.t i + Z i ω * sigma) = φ + w * Z i ω := by rw [hφ, hw]; ring
        have h2 : 2 * φ + 2 * w * Z i ω = 2 * (φ + w * Z i ω) := by ring
        rw [h1, h2, ← hφ, Real.cos_two_mul, Real.cos_sq']
        ring
      have hi3 : Integrable (fun ω => g.a ^ 2 * (1 / 2 + Real.sin φ ^ 2) - g.a ^ 2 / 2 * Real.cos (2 * φ + 2 * w * Z i ω)) μ :=
        (integrable_const _).sub (hi2.const_mul _)
      rw [e, integral_sub hi3 (hi1.const_mul _), integral_sub (integrable_const _) (hi2.const_mul _),
        integral_const_mul, integral_const_mul, integral_const_mul, hs1, hs2, Real.cos_two_mul, Real.cos_sq']
      simp
      ring
    rw [sum_congr rfl key, sum_add_distrib, ← mul_sum (range g.n) (fun i => Real.sin (2 * Real.pi * g.fin * g.t i) ^ 2), sum_sin_sq g k hg]
    simp only [sum_const, card_range, nsmul_eq_mul]
    field_simp
    ring
  · have h := Real.add_one_le_exp (-(w ^ 2 / 2))
    have : 1 - Real.exp (-(w ^ 2 / 2)) ≤ w ^ 2 / 2 := by linarith
    calc g.a ^ 2 * (1 - Real.exp (-(w ^ 2 / 2))) ≤ g.a ^ 2 * (w ^ 2 / 2) := mul_le_mul_of_nonneg_left this (sq_nonneg _)
      _ = _ := by ring

/-! ## Glitches -/

/-- **C87 (glitches).** With uniform draws on `[0, 1]` and a probability between 0 and 1, each sample is raised with exactly that probability; its mean is
the clean sample plus probability times amplitude. -/
theorem C87_glitch (g : Gen) (input : Option (ℕ → ℝ)) (prob amp : ℝ) (h0 : 0 ≤ prob) (h1 : prob ≤ 1) (hamp : amp ≠ 0) (U : ℕ → Ω → ℝ) (i : ℕ) (hU : Measurable (U i))
    (hlaw : Measure.map (U i) μ = volume.restrict (Set.Icc 0 1)) :
    μ.real {ω | g.glitch input prob amp (fun k => U k ω) i ≠ g.resolve input i} = prob ∧
    ∫ ω, g.glitch input prob amp (fun k => U k ω) i ∂μ = g.resolve input i + prob * amp := by
  have hP : μ.real {ω | U i ω < prob} = prob := by
    have h := congrArg (fun ν : Measure ℝ => ν (Set.Iio prob)) hlaw
    rw [Measure.map_apply hU measurableSet_Iio, Measure.restrict_apply measurableSet_Iio] at h
    have hs : Set.Iio prob ∩ Set.Icc 0 1 = Set.Ico 0 prob := by
      ext x
      simp only [Set.mem_inter_iff, Set.mem_Iio, Set.mem_Icc, Set.mem_Ico]
      constructor
      · rintro ⟨a, b, c⟩; exact ⟨b, a⟩
      · rintro ⟨a, b⟩; exact ⟨b, a, by linarith⟩
    rw [hs, Real.volume_Ico, sub_zero] at h
    have : {ω | U i ω < prob} = U i ⁻¹' Set.Iio prob := rfl
    rw [this, Measure.real, h, ENNReal.toReal_ofReal h0]
  have hset : {ω | g.glitch input prob amp (fun k => U k ω) i ≠ g.resolve input i} = {ω | U i ω < prob} := by
    ext ω
    simp only [Set.mem_setOf_eq]
    unfold Gen.glitch
    by_cases h : U i ω < prob
    · simp [h, hamp]
    · simp [h]
  refine ⟨by rw [hset, hP], ?_⟩
  have e : (fun ω => g.glitch input prob amp (fun k => U k ω) i) = fun ω => g.resolve input i + Set.indicator {ω | U i ω < prob} (fun _ => amp) ω := by
    funext ω
    unfold Gen.glitch
    by_cases h : U i ω < prob
    · simp [h]
    · simp [h]
  have hm : MeasurableSet {ω | U i ω < prob} := hU measurableSet_Iio
  rw [e, integral_add (integrable_const _) ((integrable_const amp).indicator hm), integral_indicator_const amp hm, hP]
  simp

/-! ## Concrete cases -/

/-- A coherent generator: bin 7 of 64 samples at 1 GHz. -/
example : CoherentGen ⟨64, 1000000000, 7 * 1000000000 / 64, 1 / 2, 1 / 2⟩ 7 := ⟨by norm_num, by norm_num, by norm_num, by norm_num⟩

/-- Independent normal draws meet the hypotheses: jitter of 2 ps and thermal noise of 50 microvolts on that generator. -/
example : ∃ (Ω : Type) (_ : MeasurableSpace Ω) (μ : Measure Ω) (Z : ℕ → Ω → ℝ),
    Var[fun ω => (Gen.mk 64 1000000000 (7 * 1000000000 / 64) (1 / 2) (1 / 2)).thermal none (5 / 100000) (fun k => Z k ω) 3; μ] = (5 / 100000) ^ 2 ∧
    ∫ ω, (Gen.mk 64 1000000000 (7 * 1000000000 / 64) (1 / 2) (1 / 2)).jitter (fun k => Z k ω * (2 / 10 ^ 12)) 0 ∂μ = 1 / 2 := by
  obtain ⟨Ω, m, μ, hμ, Z, h1, h2, h3, h4, h5⟩ := exists_normal_draws
  refine ⟨Ω, m, μ, Z, (C87_thermal μ _ none _ Z h1 h2 h3 3).2.1, ?_⟩
  rw [C87_jitter_mean μ _ _ Z 0 (h1 0).aestronglyMeasurable.aemeasurable (h5 0)]
  simp [Gen.t]

/-- A uniform draw on the unit interval raises a sample with probability one quarter. -/
example : (volume.restrict (Set.Icc (0 : ℝ) 1)).real {u | (Gen.mk 4 1 0 0 0).glitch none (1 / 4) 1 (fun _ => u) 0 ≠ (Gen.mk 4 1 0 0 0).resolve none 0} = 1 / 4 := by
  haveI : IsProbabilityMeasure (volume.restrict (Set.Icc (0 : ℝ) 1)) := ⟨by simp⟩
  exact (C87_glitch (volume.restrict (Set.Icc (0 : ℝ) 1)) (Gen.mk 4 1 0 0 0) none (1 / 4) 1 (by norm_num) (by norm_num) (by norm_num) (fun _ u => u) 0 measurable_id
    Measure.map_id).1

end Verif
