import Verif.Model.SineNoise
import Verif.Theorems.RandomImpairments

/-! # C168: how much noise the three noise files hold -/

namespace Verif

open Model Finset MeasureTheory ProbabilityTheory

variable {Ω : Type} [MeasurableSpace Ω] (μ : Measure Ω) [IsProbabilityMeasure μ]

namespace Spec

/-- Noise power of a record of `n` samples: mean over the record of the expected square of the distance to the clean sample. -/
noncomputable def noisePower (μ : Measure Ω) (n : ℕ) (noisy : ℕ → Ω → ℝ) (clean : ℕ → ℝ) : ℝ := (∑ i ∈ range n, ∫ ω, (noisy i ω - clean i) ^ 2 ∂μ) / n

end Spec

open Spec

private theorem ideal_phase (fs : ℝ) (hfs : 0 < fs) (n k i : ℕ) : idealPhase fs n k i = 2 * Real.pi * (k * i / n) := by
  unfold idealPhase
  field_simp

private theorem phase_sin_sq (fs : ℝ) (hfs : 0 < fs) (n k : ℕ) (hk : 0 < k) (hkn : 2 * k < n) : ∑ i ∈ range n, Real.sin (idealPhase fs n k i) ^ 2 = n / 2 := by
  have hz := sum_cos_zero n (by omega) ((2 * k : ℕ) : ℤ) (by
    intro h
    have h' : n ∣ 2 * k := by exact_mod_cast h
    have := Nat.le_of_dvd (by omega) h'
    omega) 0
  have : ∀ i ∈ range n, Real.sin (idealPhase fs n k i) ^ 2 = 1 / 2 - 1 / 2 * Real.cos (2 * Real.pi * ((((2 * k : ℕ) : ℤ) : ℝ) * i / n) + 0) := by
    intro i _
    rw [ideal_phase fs hfs, Real.sin_sq_eq_half_sub]
    have : 2 * (2 * Real.pi * ((k : ℝ) * i / n)) = 2 * Real.pi * ((((2 * k : ℕ) : ℤ) : ℝ) * i / n) + 0 := by push_cast; ring
    rw [this]
    ring
  rw [sum_congr rfl this, sum_sub_distrib, ← mul_sum, hz]
  simp
  ring

private theorem draw_sq (X : Ω → ℝ) (h2 : MemLp X 2 μ) (hmean : ∫ ω, X ω ∂μ = 0) (hvar : Var[X; μ] = 1) : ∫ ω, X ω ^ 2 ∂μ = 1 := by
  have h := variance_eq_sub h2
  rw [hvar, hmean] at h
  simp only [Pi.pow_apply] at h
  linarith

/-- **C168 (thermal).** The thermal file holds noise of exactly `v²`; the amplitude file, for a coherent sine, exactly half of it. -/
theorem C168_thermal_amplitude (fs : ℝ) (hfs : 0 < fs) (n k : ℕ) (hk : 0 < k) (hkn : 2 * k < n) (A dc v : ℝ) (Z : ℕ → Ω → ℝ) (hZ : ∀ i, MemLp (Z i) 2 μ)
    (hmean : ∀ i, ∫ ω, Z i ω ∂μ = 0) (hvar : ∀ i, Var[Z i; μ] = 1) :
    noisePower μ n (fun i ω => noiseThermal A dc v (idealPhase fs n k i) (Z i ω)) (fun i => A * Real.sin (idealPhase fs n k i) + dc) = v ^ 2 ∧
    noisePower μ n (fun i ω => noiseAmplitude A dc v (idealPhase fs n k i) (Z i ω)) (fun i => A * Real.sin (idealPhase fs n k i) + dc) = v ^ 2 / 2 := by
  have hn : (n : ℝ) ≠ 0 := by exact_mod_cast (by omega : n ≠ 0)
  unfold noisePower
  constructor
  · have : ∀ i ∈ range n, ∫ ω, (noiseThermal A dc v (idealPhase fs n k i) (Z i ω) - (A * Real.sin (idealPhase fs n k i) + dc)) ^ 2 ∂μ = v ^ 2 := by
      intro i _
      have e : (fun ω => (noiseThermal A dc v (idealPhase fs n k i) (Z i ω) - (A * Real.sin (idealPhase fs n k i) + dc)) ^ 2) = fun ω => v ^ 2 * Z i ω ^ 2 := by
        funext ω
        unfold noiseThermal
        ring
      rw [e, integral_const_mul, draw_sq μ _ (hZ i) (hmean i) (hvar i), mul_one]
    rw [sum_congr rfl this]
    simp only [sum_const, card_range, nsmul_eq_mul]
    field_simp
  · have : ∀ i ∈ range n, ∫ ω, (noiseAmplitude A dc v (idealPhase fs n k i) (Z i ω) - (A * Real.sin (idealPhase fs n k i) + dc)) ^ 2 ∂μ =
        v ^ 2 * Real.sin (idealPhase fs n k i) ^ 2 := by
      intro i _
      have e : (fun ω => (noiseAmplitude A dc v (idealPhase fs n k i) (Z i ω) - (A * Real.sin (idealPhase fs n k i) + dc)) ^ 2) =
          fun ω => v ^ 2 * Real.sin (idealPhase fs n k i) ^ 2 * Z i ω ^ 2 := by
        funext ω
        unfold noiseAmplitude
        ring
      rw [e, integral_const_mul, draw_sq μ _ (hZ i) (hmean i) (hvar i), mul_one]
    rw [sum_congr rfl this, ← mul_sum, phase_sin_sq fs hfs n k hk hkn]
    field_simp

/-- **C168 (phase).** With normal draws the phase file holds noise of exactly `A² (1 - exp(-(v/A)²/2))`: a little less than the amplitude file, by less than a share `(v/A)²/4`. -/
theorem C168_phase (fs : ℝ) (hfs : 0 < fs) (n k : ℕ) (hk : 0 < k) (hkn : 2 * k < n) (A dc v : ℝ) (hA : 0 < A) (hv : 0 < v) (Z : ℕ → Ω → ℝ) (hZ : ∀ i, AEMeasurable (Z i) μ)
    (hlaw : ∀ i, Measure.map (Z i) μ = gaussianReal 0 1) :
    ∃ p, noisePower μ n (fun i ω => noisePhase A dc v (idealPhase fs n k i) (Z i ω)) (fun i => A * Real.sin (idealPhase fs n k i) + dc) = p ∧
      p = A ^ 2 * (1 - Real.exp (-((v / A) ^ 2 / 2))) ∧ p < v ^ 2 / 2 ∧ v ^ 2 / 2 * (1 - (v / A) ^ 2 / 4) < p := by
  have hn : (0 : ℝ) < n := by exact_mod_cast (by omega : 0 < n)
  have hkR : (0 : ℝ) < k := by exact_mod_cast hk
  have hfin : (0 : ℝ) < 2 * Real.pi * (k * fs / n) := by have := Real.pi_pos; positivity
  have hp : noisePower μ n (fun i ω => noisePhase A dc v (idealPhase fs n k i) (Z i ω)) (fun i => A * Real.sin (idealPhase fs n k i) + dc) =
      A ^ 2 * (1 - Real.exp (-((v / A) ^ 2 / 2))) := by
    have hj := (C87_jitter_power μ ⟨n, fs, k * fs / n, A, dc⟩ k ⟨hfs, rfl, hk, hkn⟩ (v / A / (2 * Real.pi * (k * fs / n))) Z hZ hlaw).1
    simp only at hj
    rw [mul_div_cancel₀ _ hfin.ne'] at hj
    rw [← hj]
    unfold noisePower
    congr 1
    refine sum_congr rfl fun i _ => ?_
    congr 1
    funext ω
    have e1 : 2 * Real.pi * (k * fs / n) * ((i : ℝ) / fs + Z i ω * (v / A / (2 * Real.pi * (k * fs / n)))) = idealPhase fs n k i + Z i ω * (v / A) := by
      have : 2 * Real.pi * (k * fs / n) * (Z i ω * (v / A / (2 * Real.pi * (k * fs / n)))) = Z i ω * (v / A) := by
        rw [mul_left_comm, mul_div_cancel₀ _ hfin.ne']
      rw [mul_add, this]
      unfold idealPhase
      ring
    have e2 : 2 * Real.pi * (k * fs / n) * ((i : ℝ) / fs) = idealPhase fs n k i := by unfold idealPhase; ring
    simp only [Gen.jitter, Gen.base, Gen.t, noisePhase]
    rw [e1, e2]
  have hx : 0 < (v / A) ^ 2 / 2 := by positivity
  have hA2 : 0 < A ^ 2 := by positivity
  have e1 : v ^ 2 / 2 = A ^ 2 * ((v / A) ^ 2 / 2) := by field_simp
  have e2 : (v / A) ^ 2 / 4 = (v / A) ^ 2 / 2 / 2 := by ring
  refine ⟨_, hp, rfl, ?_, ?_⟩
  · rw [e1]
    have := Real.add_one_lt_exp (neg_ne_zero.mpr hx.ne')
    exact mul_lt_mul_of_pos_left (by linarith) hA2
  · rw [e1, e2, mul_assoc]
    generalize (v / A) ^ 2 / 2 = x at hx
    have h1 := Real.quadratic_le_exp_of_nonneg hx.le
    have h2 : Real.exp (-x) * Real.exp x = 1 := by rw [← Real.exp_add]; simp
    have h3 := Real.exp_pos (-x)
    have h4 : Real.exp (-x) * (1 + x + x ^ 2 / 2) ≤ 1 := (mul_le_mul_of_nonneg_left h1 h3.le).trans_eq h2
    have h5 : (1 - x + x ^ 2 / 2) * (1 + x + x ^ 2 / 2) = 1 + x ^ 4 / 4 := by ring
    have h6 : 0 < 1 + x + x ^ 2 / 2 := by positivity
    have h7 : 0 < x ^ 4 / 4 := by positivity
    have h8 : Real.exp (-x) < 1 - x + x ^ 2 / 2 := by
      by_contra hc
      have := mul_le_mul_of_nonneg_right (not_lt.mp hc) h6.le
      linarith
    exact mul_lt_mul_of_pos_left (by nlinarith) hA2

/-- **C168 (comparison).** So the files named by the same number of microvolts do not hold the same noise: the thermal one has exactly 3.01 dB (`10 log₁₀ 2`) more than the
amplitude one, and more than that over the phase one. -/
theorem C168_comparison (fs : ℝ) (hfs : 0 < fs) (n k : ℕ) (hk : 0 < k) (hkn : 2 * k < n) (A dc v : ℝ) (hA : 0 < A) (hv : 0 < v) (Z : ℕ → Ω → ℝ) (hZ : ∀ i, MemLp (Z i) 2 μ)
    (hmean : ∀ i, ∫ ω, Z i ω ∂μ = 0) (hvar : ∀ i, Var[Z i; μ] = 1) (hlaw : ∀ i, Measure.map (Z i) μ = gaussianReal 0 1) :
    let clean := fun i => A * Real.sin (idealPhase fs n k i) + dc
    let thermal := noisePower μ n (fun i ω => noiseThermal A dc v (idealPhase fs n k i) (Z i ω)) clean
    let amplitude := noisePower μ n (fun i ω => noiseAmplitude A dc v (idealPhase fs n k i) (Z i ω)) clean
    let phase := noisePower μ n (fun i ω => noisePhase A dc v (idealPhase fs n k i) (Z i ω)) clean
    10 * Real.logb 10 (thermal / amplitude) = 10 * Real.logb 10 2 ∧ 10 * Real.logb 10 2 < 10 * Real.logb 10 (thermal / phase) := by
  intro clean thermal amplitude phase
  obtain ⟨h1, h2⟩ := C168_thermal_amplitude μ fs hfs n k hk hkn A dc v Z hZ hmean hvar
  obtain ⟨p, hp, hpe, hlt, -⟩ := C168_phase μ fs hfs n k hk hkn A dc v hA hv Z (fun i => (hZ i).aestronglyMeasurable.aemeasurable) hlaw
  have t1 : thermal = v ^ 2 := h1
  have t2 : amplitude = v ^ 2 / 2 := h2
  have t3 : phase = p := hp
  have hv2 : 0 < v ^ 2 := by positivity
  have hx : 0 < (v / A) ^ 2 / 2 := by positivity
  have hp0 : 0 < p := by
    rw [hpe]
    have h := (Real.exp_lt_exp.mpr (neg_lt_zero.mpr hx)).trans_eq Real.exp_zero
    exact mul_pos (by positivity) (by linarith)
  rw [t1, t2, t3]
  constructor
  · congr 2
    field_simp
  · have : 2 < v ^ 2 / p := by rw [lt_div_iff₀ hp0]; linarith
    have := Real.logb_lt_logb (b := 10) (by norm_num) (by norm_num) this
    linarith

/-! ## A concrete case -/

/-- Normal draws on the script's record: bin 3277 of 8192 samples at 2.5 GHz, amplitude 0.49, 50 microvolts. -/
example : ∃ (Ω : Type) (_ : MeasurableSpace Ω) (μ : Measure Ω) (Z : ℕ → Ω → ℝ),
    noisePower μ 8192 (fun i ω => noiseAmplitude (49 / 100) (1 / 2) (5 / 100000) (idealPhase 2500000000 8192 3277 i) (Z i ω))
      (fun i => 49 / 100 * Real.sin (idealPhase 2500000000 8192 3277 i) + 1 / 2) = (5 / 100000) ^ 2 / 2 := by
  obtain ⟨Ω, m, μ, hμ, Z, h1, h2, h3, h4, h5⟩ := exists_normal_draws
  exact ⟨Ω, m, μ, Z, (C168_thermal_amplitude μ _ (by norm_num) 8192 3277 (by norm_num) (by norm_num) _ _ _ Z h1 h2 h3).2⟩

end Verif
