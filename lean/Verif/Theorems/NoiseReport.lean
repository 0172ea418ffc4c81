import Verif.Model.Metrics
import Verif.Theorems.RandomImpairments
import Verif.Theorems.Sinad

/-!
# C141: what the spectrum reports of a sine with random noise
-/

namespace Verif

open Model Finset MeasureTheory ProbabilityTheory

/-! ## Sums of squares of independent errors -/

section prob
variable {Ω : Type} [MeasurableSpace Ω] (μ : Measure Ω) [IsProbabilityMeasure μ]

/-- Chebyshev's inequality for the sum of squares. -/
theorem sum_sq_tail (N : ℕ) (e : ℕ → Ω → ℝ) (h4 : ∀ i < N, MemLp (fun ω => e i ω ^ 2) 2 μ)
    (hind : ∀ i < N, ∀ j < N, i ≠ j → IndepFun (e i) (e j) μ) (t : ℝ) (ht : 0 < t) :
    μ.real {ω | t ≤ |∑ i ∈ range N, e i ω ^ 2 - ∑ i ∈ range N, ∫ ω, e i ω ^ 2 ∂μ|} ≤ (∑ i ∈ range N, Var[fun ω => e i ω ^ 2; μ]) / t ^ 2 := by
  have hm : MemLp (∑ i ∈ range N, fun ω => e i ω ^ 2) 2 μ := memLp_finset_sum' _ fun i hi => h4 i (mem_range.mp hi)
  have h := meas_ge_le_variance_div_sq hm ht
  have hv := IndepFun.variance_sum (μ := μ) (X := fun i ω => e i ω ^ 2) (s := range N) (fun i hi => h4 i (mem_range.mp hi)) (by
    intro i hi j hj hij
    exact (hind i (mem_range.mp hi) j (mem_range.mp hj) hij).comp (measurable_id.pow_const 2) (measurable_id.pow_const 2))
  have hE : μ[∑ i ∈ range N, fun ω => e i ω ^ 2] = ∑ i ∈ range N, ∫ ω, e i ω ^ 2 ∂μ := by
    rw [← integral_finset_sum _ fun i hi => (h4 i (mem_range.mp hi)).integrable (by norm_num)]
    simp
  rw [hv, hE] at h
  have hnn : 0 ≤ (∑ i ∈ range N, Var[fun ω => e i ω ^ 2; μ]) / t ^ 2 := div_nonneg (sum_nonneg fun i _ => variance_nonneg _ _) (sq_nonneg _)
  have := ENNReal.toReal_mono ENNReal.ofReal_ne_top h
  rw [ENNReal.toReal_ofReal hnn] at this
  simpa [Measure.real] using this

/-- Mean square of a weighted sum of independent errors of mean zero. -/
theorem weighted_sq (N : ℕ) (e : ℕ → Ω → ℝ) (σ : ℝ) (h2 : ∀ i < N, MemLp (e i) 2 μ) (hmean : ∀ i < N, ∫ ω, e i ω ∂μ = 0)
    (hvar : ∀ i < N, Var[e i; μ] = σ ^ 2) (hind : ∀ i < N, ∀ j < N, i ≠ j → IndepFun (e i) (e j) μ) (c : ℕ → ℝ) :
    Integrable (fun ω => (∑ i ∈ range N, e i ω * c i) ^ 2) μ ∧ ∫ ω, (∑ i ∈ range N, e i ω * c i) ^ 2 ∂μ = σ ^ 2 * ∑ i ∈ range N, c i ^ 2 := by
  have hm : ∀ i ∈ range N, MemLp (fun ω => e i ω * c i) 2 μ := fun i hi => (h2 i (mem_range.mp hi)).mul_const _
  have hs : MemLp (fun ω => ∑ i ∈ range N, e i ω * c i) 2 μ := memLp_finset_sum _ hm
  have hz : ∫ ω, (∑ i ∈ range N, e i ω * c i) ∂μ = 0 := by
    rw [integral_finset_sum _ fun i hi => (hm i hi).integrable (by norm_num)]
    apply sum_eq_zero
    intro i hi
    rw [integral_mul_const, hmean i (mem_range.mp hi), zero_mul]
  refine ⟨hs.integrable_sq, ?_⟩
  rw [← variance_of_integral_eq_zero hs.aestronglyMeasurable.aemeasurable hz]
  have hv := IndepFun.variance_sum (μ := μ) (X := fun i ω => e i ω * c i) (s := range N) hm (by
    intro i hi j hj hij
    exact (hind i (mem_range.mp hi) j (mem_range.mp hj) hij).comp (measurable_id.mul_const _) (measurable_id.mul_const _))
  have he : (∑ i ∈ range N, fun ω => e i ω * c i) = fun ω => ∑ i ∈ range N, e i ω * c i := by
    funext ω
    simp
  rw [he] at hv
  rw [hv, mul_sum]
  refine sum_congr rfl fun i hi => ?_
  rw [show (fun ω => e i ω * c i) = fun ω => c i * e i ω by funext ω; ring, variance_const_mul, hvar i (mem_range.mp hi)]
  ring

private theorem integral_three (f g h : Ω → ℝ) (x y z : ℝ) (hf : Integrable f μ) (hg : Integrable g μ) (hh : Integrable h μ) :
    Integrable (fun ω => x * f ω + y * g ω + z * h ω) μ ∧
    ∫ ω, (x * f ω + y * g ω + z * h ω) ∂μ = x * ∫ ω, f ω ∂μ + y * ∫ ω, g ω ∂μ + z * ∫ ω, h ω ∂μ := by
  have hfg : Integrable (fun ω => x * f ω + y * g ω) μ := (hf.const_mul x).add (hg.const_mul y)
  refine ⟨hfg.add (hh.const_mul z), ?_⟩
  rw [integral_add hfg (hh.const_mul z), integral_add (hf.const_mul x) (hg.const_mul y), integral_const_mul, integral_const_mul, integral_const_mul]

/-- Markov's inequality for the part of the noise that falls on the tone and on the offset. -/
theorem projection_tail (N b : ℕ) (hb : 0 < b) (hbN : 2 * b < N) (e : ℕ → Ω → ℝ) (σ : ℝ) (h2 : ∀ i < N, MemLp (e i) 2 μ)
    (hmean : ∀ i < N, ∫ ω, e i ω ∂μ = 0) (hvar : ∀ i < N, Var[e i; μ] = σ ^ 2) (hind : ∀ i < N, ∀ j < N, i ≠ j → IndepFun (e i) (e j) μ)
    (t : ℝ) (ht : 0 < t) :
    μ.real {ω | t ≤ binCos N b (fun i => e i ω) ^ 2 + binSin N b (fun i => e i ω) ^ 2 + 2 * recMean N (fun i => e i ω) ^ 2} ≤ 6 * σ ^ 2 / N / t := by
  have hN : (0 : ℝ) < N := by exact_mod_cast (by omega : 0 < N)
  obtain ⟨s1, s2, s3, s4, s5⟩ := bin_sums (N := N) (b := b) hb hbN
  obtain ⟨i1, v1⟩ := weighted_sq μ N e σ h2 hmean hvar hind (fun n => Real.cos (2 * Real.pi * (b * n / N)))
  obtain ⟨i2, v2⟩ := weighted_sq μ N e σ h2 hmean hvar hind (fun n => Real.sin (2 * Real.pi * (b * n / N)))
  obtain ⟨i3, v3⟩ := weighted_sq μ N e σ h2 hmean hvar hind (fun _ => 1)
  rw [s3] at v1
  rw [s4] at v2
  simp only [one_pow, sum_const, card_range, nsmul_eq_mul, mul_one] at v3
  have hf : (fun ω => binCos N b (fun i => e i ω) ^ 2 + binSin N b (fun i => e i ω) ^ 2 + 2 * recMean N (fun i => e i ω) ^ 2)
      = fun ω => 4 / (N : ℝ) ^ 2 * (∑ i ∈ range N, e i ω * Real.cos (2 * Real.pi * (b * i / N))) ^ 2
        + 4 / (N : ℝ) ^ 2 * (∑ i ∈ range N, e i ω * Real.sin (2 * Real.pi * (b * i / N))) ^ 2 + 2 / (N : ℝ) ^ 2 * (∑ i ∈ range N, e i ω * 1) ^ 2 := by
    funext ω
    unfold binCos binSin recMean
    simp only [mul_one]
    ring
  obtain ⟨hI, hint⟩ := integral_three μ _ _ _ (4 / (N : ℝ) ^ 2) (4 / (N : ℝ) ^ 2) (2 / (N : ℝ) ^ 2) i1 i2 i3
  rw [← hf] at hI
  have hint2 : ∫ ω, (binCos N b (fun i => e i ω) ^ 2 + binSin N b (fun i => e i ω) ^ 2 + 2 * recMean N (fun i => e i ω) ^ 2) ∂μ = 6 * σ ^ 2 / N := by
    rw [hf, hint, v1, v2]
    simp only [mul_one]
    rw [v3]
    field_simp
    ring
  have hmk := mul_meas_ge_le_integral_of_nonneg (Filter.Eventually.of_forall fun ω => by positivity) hI t
  rw [hint2] at hmk
  rw [le_div_iff₀ ht, mul_comm]
  exact hmk

end prob

/-! ## One record -/

/-- A coherent sine with an error below half its amplitude (rms): the report in terms of the error. -/
theorem noisy_report (lib : WinLib) (a : SpectrumArgs) (ha : PlainCall a) (row : List ℝ) (V : ℝ) (hV : 0 < V)
    (hpk : peakAmplitude [row] a.scale = .ok V) (b : ℕ) (hb : 0 < b) (hbN : 2 * b < row.length) (A φ D : ℝ) (hA : 0 < A) (e : ℕ → ℝ)
    (hrow : ∀ n < row.length, row.getD n 0 = sineAt A ((b : ℝ) / row.length) φ D n + e n)
    (he : 4 * ∑ n ∈ range row.length, e n ^ 2 < row.length * A ^ 2) :
    ∃ r, computeSpectrum lib [row] a = .ok r ∧ r.fundamentalBin = b ∧
      (∃ Am, 0 ≤ Am ∧ (Am - A) ^ 2 ≤ binCos row.length b e ^ 2 + binSin row.length b e ^ 2 ∧
        0 ≤ (∑ n ∈ range row.length, e n ^ 2) / row.length - (binCos row.length b e ^ 2 + binSin row.length b e ^ 2) / 2 - recMean row.length e ^ 2 ∧
        r.sndr = dB (Am ^ 2 / 2 / ((∑ n ∈ range row.length, e n ^ 2) / row.length - (binCos row.length b e ^ 2 + binSin row.length b e ^ 2) / 2
          - recMean row.length e ^ 2 + V ^ 2 / 2 / 10 ^ 20))) ∧
      dB (max (A ^ 2 / 2 / ((∑ n ∈ range row.length, e n ^ 2) / row.length + V ^ 2 / 2 / 10 ^ 20) - 1) 0) ≤ r.sndr := by
  have hN : (0 : ℝ) < row.length := by exact_mod_cast (by omega : 0 < row.length)
  have hG : 0 ≤ ∑ n ∈ range row.length, e n ^ 2 := sum_nonneg fun _ _ => sq_nonneg _
  have hsq := Real.sq_sqrt (div_nonneg hG hN.le)
  have hs0 := Real.sqrt_nonneg ((∑ n ∈ range row.length, e n ^ 2) / row.length)
  have hlt : 4 * ((∑ n ∈ range row.length, e n ^ 2) / row.length) < A ^ 2 := by
    rw [← mul_div_assoc, div_lt_iff₀ hN]
    linarith
  obtain ⟨r, t1, t2, _, t4⟩ := C95_bounded_error lib a ha row V hV hpk b hb hbN A φ D (Real.sqrt ((∑ n ∈ range row.length, e n ^ 2) / row.length)) e hrow hs0
    (by rw [hsq, mul_div_cancel₀ _ hN.ne']) (by
      by_contra hc
      push Not at hc
      have := pow_le_pow_left₀ hA.le hc 2
      rw [mul_pow, hsq] at this
      linarith)
  rw [hsq] at t4
  refine ⟨r, t1, t2, ?_, t4⟩
  obtain ⟨Am, φ', C', hAm, hbest⟩ := exists_bestSine row.length b hb hbN (fun n => row.getD n 0)
  obtain ⟨u1, u2⟩ := best_sine row.length b hb hbN _ Am φ' C' hbest
  obtain ⟨v1, _⟩ := C95_sndr_is_sinad lib a ha row V hV.ne' hpk r t1 (by rw [t2]; exact hb) (by rw [t2]; exact hbN) Am φ' C' (by rw [t2]; exact hbest)
  obtain ⟨c1, c2⟩ := bin_congr row.length b (fun n => row.getD n 0) (fun n => sineAt A ((b : ℝ) / row.length) φ D n + e n) hrow
  obtain ⟨a1, a2⟩ := bin_add row.length b (sineAt A ((b : ℝ) / row.length) φ D) e
  obtain ⟨b1, b2⟩ := bin_sine row.length b hb hbN A φ D
  rw [a1, b1] at c1
  rw [a2, b2] at c2
  have hmean : recMean row.length (fun n => row.getD n 0) = D + recMean row.length e := by
    obtain ⟨s1, s2, _, _, _⟩ := bin_sums (N := row.length) (b := b) hb hbN
    unfold recMean
    have ex : ∑ n ∈ range row.length, row.getD n 0 = A * Real.cos φ * ∑ n ∈ range row.length, Real.cos (2 * Real.pi * (b * n / row.length))
        + -(A * Real.sin φ) * ∑ n ∈ range row.length, Real.sin (2 * Real.pi * (b * n / row.length)) + ∑ n ∈ range row.length, D + ∑ n ∈ range row.length, e n := by
      rw [mul_sum, mul_sum, ← sum_add_distrib, ← sum_add_distrib, ← sum_add_distrib]
      refine sum_congr rfl fun n hn => ?_
      rw [hrow n (mem_range.mp hn), sineAt_parts]
    rw [ex, s1, s2, sum_const, card_range, nsmul_eq_mul]
    field_simp
    ring
  have hpy := bin_pythagoras (fun n => row.getD n 0) hb hbN (A * Real.cos φ) (-(A * Real.sin φ)) D
  have hes : ∑ n ∈ range row.length, (row.getD n 0 - (A * Real.cos φ * Real.cos (2 * Real.pi * (b * n / row.length))
      + -(A * Real.sin φ) * Real.sin (2 * Real.pi * (b * n / row.length)) + D)) ^ 2 = ∑ n ∈ range row.length, e n ^ 2 := by
    refine sum_congr rfl fun n hn => ?_
    rw [← sineAt_parts, hrow n (mem_range.mp hn)]
    ring
  rw [hes, ← u2, hmean, c1, c2] at hpy
  have hR : residualPower row.length b (fun n => row.getD n 0) Am φ' C' = (∑ n ∈ range row.length, e n ^ 2) / row.length
      - (binCos row.length b e ^ 2 + binSin row.length b e ^ 2) / 2 - recMean row.length e ^ 2 := by
    unfold residualPower
    rw [div_eq_iff hN.ne']
    have : ((∑ n ∈ range row.length, e n ^ 2) / row.length - (binCos row.length b e ^ 2 + binSin row.length b e ^ 2) / 2 - recMean row.length e ^ 2) * row.length
        = ∑ n ∈ range row.length, e n ^ 2 - row.length / 2 * (binCos row.length b e ^ 2 + binSin row.length b e ^ 2) - row.length * recMean row.length e ^ 2 := by
      field_simp
    rw [this, hpy]
    ring
  refine ⟨Am, hAm, ?_, ?_, ?_⟩
  · rw [c1, c2] at u1
    have hcs := Real.sin_sq_add_cos_sq φ
    generalize binCos row.length b e = x at *
    generalize binSin row.length b e = y at *
    have hX : (A * Real.cos φ + x) * Real.cos φ - (-(A * Real.sin φ) + y) * Real.sin φ ≤ Am := by
      apply le_of_sq_le_sq _ hAm
      rw [u1]
      have : (A * Real.cos φ + x) ^ 2 + (-(A * Real.sin φ) + y) ^ 2 - ((A * Real.cos φ + x) * Real.cos φ - (-(A * Real.sin φ) + y) * Real.sin φ) ^ 2
          = ((A * Real.cos φ + x) * Real.sin φ + (-(A * Real.sin φ) + y) * Real.cos φ) ^ 2 := by
        linear_combination (-(A * Real.cos φ + x) ^ 2 - (-(A * Real.sin φ) + y) ^ 2) * hcs
      nlinarith [sq_nonneg ((A * Real.cos φ + x) * Real.sin φ + (-(A * Real.sin φ) + y) * Real.cos φ)]
    have hkey : x ^ 2 + y ^ 2 - (Am - A) ^ 2 = 2 * A * (Am - ((A * Real.cos φ + x) * Real.cos φ - (-(A * Real.sin φ) + y) * Real.sin φ)) := by
      linear_combination -u1 + A ^ 2 * hcs
    have : 0 ≤ 2 * A * (Am - ((A * Real.cos φ + x) * Real.cos φ - (-(A * Real.sin φ) + y) * Real.sin φ)) := by
      apply mul_nonneg (by linarith)
      linarith
    linarith
  · rw [← hR]
    exact div_nonneg (sum_nonneg fun _ _ => sq_nonneg _) hN.le
  · rw [v1, t2, hR]

/-! ## Random records -/

theorem base_sine (g : Gen) (k : ℕ) (hg : CoherentGen g k) (i : ℕ) : g.base i = sineAt g.a ((k : ℝ) / g.n) (-(Real.pi / 2)) g.dc i := by
  obtain ⟨hfs, hf, _, _⟩ := hg
  unfold Gen.base sineAt Gen.t
  rw [hf, ← sub_eq_add_neg, Real.cos_sub_pi_div_two]
  congr 3
  field_simp

section draws
variable {Ω : Type} [MeasurableSpace Ω] (μ : Measure Ω) [IsProbabilityMeasure μ]

/-- **C141 (thermal noise).** A coherent sine of amplitude `A` with independent noise of rms value `rms < A / √8` and kurtosis at most `K`, analysed
without window at a fixed full scale `V`: except with probability `(K + 5) / (N η²)` the call succeeds, finds the tone, and reports an SNDR between
`(A - √η rms)² / (2 rms² (1 + η))` (with the floor of 1e-20 of full scale) and `(A + √η rms)² / (2 rms² (1 - 3η/2))`. -/
theorem C141_thermal (g : Gen) (k : ℕ) (hg : CoherentGen g k) (hA : 0 < g.a) (rms : ℝ) (hr : 0 < rms) (hsmall : 8 * rms ^ 2 < g.a ^ 2) (Z : ℕ → Ω → ℝ)
    (h2 : ∀ i, MemLp (Z i) 2 μ) (hmean : ∀ i, ∫ ω, Z i ω ∂μ = 0) (hvar : ∀ i, Var[Z i; μ] = 1) (h4 : ∀ i, MemLp (fun ω => Z i ω ^ 2) 2 μ)
    (K : ℝ) (hK : ∀ i, ∫ ω, Z i ω ^ 4 ∂μ ≤ K) (hind : Pairwise fun i j => IndepFun (Z i) (Z j) μ)
    (lib : WinLib) (a : SpectrumArgs) (ha : PlainCall a) (V : ℝ) (hV : 0 < V) (hpk : ∀ row, peakAmplitude [row] a.scale = .ok V)
    (η : ℝ) (hη : 0 < η) (hη1 : η ≤ 1 / 2) :
    μ.real {ω | ¬ ∃ r, computeSpectrum lib [(List.range g.n).map (g.thermal none rms fun i => Z i ω)] a = .ok r ∧ r.fundamentalBin = k ∧
      dB ((g.a - Real.sqrt η * rms) ^ 2 / 2 / (rms ^ 2 * (1 + η) + V ^ 2 / 2 / 10 ^ 20)) ≤ r.sndr ∧
      r.sndr ≤ dB ((g.a + Real.sqrt η * rms) ^ 2 / 2 / (rms ^ 2 * (1 - 3 / 2 * η)))} ≤ (K + 5) / (g.n * η ^ 2) := by
  obtain ⟨_, _, hk, hkN⟩ := id hg
  have hN : (0 : ℝ) < g.n := by exact_mod_cast (by omega : 0 < g.n)
  set e : ℕ → Ω → ℝ := fun i ω => rms * Z i ω with he
  have e2 : ∀ i < g.n, MemLp (e i) 2 μ := fun i _ => (h2 i).const_mul _
  have eind : ∀ i < g.n, ∀ j < g.n, i ≠ j → IndepFun (e i) (e j) μ := fun i _ j _ hij =>
    (hind hij).comp (measurable_const_mul rms) (measurable_const_mul rms)
  have emean : ∀ i < g.n, ∫ ω, e i ω ∂μ = 0 := fun i _ => by rw [he]; simp only; rw [integral_const_mul, hmean, mul_zero]
  have evar : ∀ i < g.n, Var[e i; μ] = rms ^ 2 := fun i _ => by rw [he]; simp only; rw [variance_const_mul, hvar, mul_one]
  have e4 : ∀ i < g.n, MemLp (fun ω => e i ω ^ 2) 2 μ := fun i _ => by
    have : (fun ω => e i ω ^ 2) = fun ω => rms ^ 2 * Z i ω ^ 2 := by funext ω; rw [he]; ring
    rw [this]
    exact (h4 i).const_mul _
  have hZ2 : ∀ i, ∫ ω, Z i ω ^ 2 ∂μ = 1 := by
    intro i
    rw [← variance_of_integral_eq_zero (h2 i).aestronglyMeasurable.aemeasurable (hmean i), hvar]
  have hsum : ∑ i ∈ range g.n, ∫ ω, e i ω ^ 2 ∂μ = g.n * rms ^ 2 := by
    have : ∀ i ∈ range g.n, ∫ ω, e i ω ^ 2 ∂μ = rms ^ 2 := by
      intro i _
      rw [he]
      simp only [mul_pow]
      rw [integral_const_mul, hZ2, mul_one]
    rw [sum_congr rfl this, sum_const, card_range, nsmul_eq_mul]
  have hvar4 : ∑ i ∈ range g.n, Var[fun ω => e i ω ^ 2; μ] ≤ g.n * (rms ^ 4 * (K - 1)) := by
    have : ∀ i ∈ range g.n, Var[fun ω => e i ω ^ 2; μ] ≤ rms ^ 4 * (K - 1) := by
      intro i _
      have h5 : (fun ω => e i ω ^ 2) = fun ω => rms ^ 2 * Z i ω ^ 2 := by funext ω; rw [he]; ring
      rw [h5, variance_const_mul, variance_eq_sub (h4 i)]
      have h6 : μ[(fun ω => Z i ω ^ 2) ^ 2] = ∫ ω, Z i ω ^ 4 ∂μ := by
        apply integral_congr_ae
        filter_upwards with ω
        simp only [Pi.pow_apply]
        ring
      rw [h6, hZ2]
      have := hK i
      have h7 : (rms ^ 2) ^ 2 = rms ^ 4 := by ring
      rw [h7]
      apply mul_le_mul_of_nonneg_left _ (by positivity)
      linarith
    refine (sum_le_sum this).trans (le_of_eq ?_)
    rw [sum_const, card_range, nsmul_eq_mul]
  have p1 := sum_sq_tail μ g.n e e4 eind (g.n * (η * rms ^ 2)) (by positivity)
  have p2 := projection_tail μ g.n k hk hkN e rms e2 emean evar eind (η * rms ^ 2) (by positivity)
  rw [hsum] at p1
  set B1 := {ω | g.n * (η * rms ^ 2) ≤ |∑ i ∈ range g.n, e i ω ^ 2 - g.n * rms ^ 2|} with hB1
  set B2 := {ω | η * rms ^ 2 ≤ binCos g.n k (fun i => e i ω) ^ 2 + binSin g.n k (fun i => e i ω) ^ 2 + 2 * recMean g.n (fun i => e i ω) ^ 2} with hB2
  have hsub : {ω | ¬ ∃ r, computeSpectrum lib [(List.range g.n).map (g.thermal none rms fun i => Z i ω)] a = .ok r ∧ r.fundamentalBin = k ∧
      dB ((g.a - Real.sqrt η * rms) ^ 2 / 2 / (rms ^ 2 * (1 + η) + V ^ 2 / 2 / 10 ^ 20)) ≤ r.sndr ∧
      r.sndr ≤ dB ((g.a + Real.sqrt η * rms) ^ 2 / 2 / (rms ^ 2 * (1 - 3 / 2 * η)))} ⊆ B1 ∪ B2 := by
    intro ω hω
    by_contra hc
    rw [Set.mem_union, not_or] at hc
    obtain ⟨c1, c2⟩ := hc
    rw [hB1, Set.mem_setOf_eq] at c1
    rw [hB2, Set.mem_setOf_eq] at c2
    push Not at c1 c2
    apply hω
    set row := (List.range g.n).map (g.thermal none rms fun i => Z i ω) with hrow
    have hl : row.length = g.n := by rw [hrow]; simp
    obtain ⟨d1, d2⟩ := abs_lt.mp c1
    have hrow' : ∀ n < row.length, row.getD n 0 = sineAt g.a ((k : ℝ) / row.length) (-(Real.pi / 2)) g.dc n + e n ω := by
      intro n hn
      rw [hl] at hn ⊢
      rw [hrow, List.getD_eq_getElem?_getD, List.getElem?_map, List.getElem?_range hn]
      simp only [Option.map_some, Option.getD_some]
      unfold Gen.thermal
      simp only [Gen.resolve]
      rw [base_sine g k hg, he]
      ring
    obtain ⟨r, t1, t2, ⟨Am, g0, g1, g2, g3⟩, _⟩ := noisy_report lib a ha row V hV (hpk row) k hk (by rw [hl]; exact hkN) g.a (-(Real.pi / 2)) g.dc hA (fun n => e n ω) hrow'
      (by
        rw [hl]
        have h8 : (g.n : ℝ) * (8 * rms ^ 2) < g.n * g.a ^ 2 := mul_lt_mul_of_pos_left hsmall hN
        have h9 : (g.n : ℝ) * (η * rms ^ 2) ≤ g.n * rms ^ 2 := by
          apply mul_le_mul_of_nonneg_left _ hN.le
          nlinarith [sq_nonneg rms]
        linarith)
    refine ⟨r, t1, t2, ?_⟩
    rw [hl] at g1 g2 g3
    have q1 : (∑ n ∈ range g.n, e n ω ^ 2) / g.n < rms ^ 2 * (1 + η) := by
      rw [div_lt_iff₀ hN]
      linarith
    have q2 : rms ^ 2 * (1 - η) < (∑ n ∈ range g.n, e n ω ^ 2) / g.n := by
      rw [lt_div_iff₀ hN]
      linarith
    have hm0 := sq_nonneg (recMean g.n (fun i => e i ω))
    have hc0 := sq_nonneg (binCos g.n k (fun i => e i ω))
    have hs0 := sq_nonneg (binSin g.n k (fun i => e i ω))
    have hd : |Am - g.a| ≤ Real.sqrt η * rms := by
      apply abs_le_of_sq_le_sq _ (by positivity)
      rw [mul_pow, Real.sq_sqrt hη.le]
      linarith
    obtain ⟨w1, w2⟩ := abs_le.mp hd
    have hlow0 : 0 ≤ g.a - Real.sqrt η * rms := by
      have h10 : Real.sqrt η * rms ≤ g.a := by
        apply le_of_sq_le_sq _ hA.le
        rw [mul_pow, Real.sq_sqrt hη.le]
        nlinarith [sq_nonneg rms]
      linarith
    have hV2 : 0 < V ^ 2 / 2 / 10 ^ 20 := by positivity
    rw [g3]
    generalize (∑ n ∈ range g.n, e n ω ^ 2) / (g.n : ℝ) = G at *
    generalize binCos g.n k (fun i => e i ω) ^ 2 = x at *
    generalize binSin g.n k (fun i => e i ω) ^ 2 = y at *
    generalize recMean g.n (fun i => e i ω) ^ 2 = m at *
    constructor
    · apply dB_mono (by positivity)
      apply div_le_div₀ (by positivity) _ (by linarith) (by linarith)
      have := pow_le_pow_left₀ hlow0 (by linarith : g.a - Real.sqrt η * rms ≤ Am) 2
      linarith
    · have hpos : 0 < rms ^ 2 * (1 - 3 / 2 * η) := mul_pos (by positivity) (by linarith)
      apply dB_mono (div_nonneg (by positivity) (by linarith))
      apply div_le_div₀ (by positivity) _ hpos (by linarith)
      have := pow_le_pow_left₀ g0 (by linarith : Am ≤ g.a + Real.sqrt η * rms) 2
      linarith
  refine (measureReal_mono hsub).trans ((measureReal_union_le _ _).trans ?_)
  have b1 : μ.real B1 ≤ (K - 1) / (g.n * η ^ 2) := by
    refine p1.trans ((div_le_div_of_nonneg_right hvar4 (by positivity)).trans (le_of_eq ?_))
    field_simp
  have b2 : μ.real B2 ≤ 6 / (g.n * η ^ 2) := by
    refine p2.trans ?_
    have h11 : 6 * rms ^ 2 / (g.n : ℝ) / (η * rms ^ 2) = 6 / (g.n * η) := by field_simp
    rw [h11]
    apply div_le_div_of_nonneg_left (by norm_num) (by positivity)
    apply mul_le_mul_of_nonneg_left _ hN.le
    nlinarith
  have : (K + 5) / (g.n * η ^ 2) = (K - 1) / (g.n * η ^ 2) + 6 / (g.n * η ^ 2) := by
    rw [← add_div]
    congr 1
    ring
  rw [this]
  exact add_le_add b1 b2

/-! ### Normal draws -/

private theorem normal_fourth : ∫ x, x ^ 4 ∂(gaussianReal 0 1) = 3 := by
  have h1 : ∫ x, x ^ 4 ∂(gaussianReal 0 1) = iteratedDeriv 4 (mgf (fun x : ℝ => x) (gaussianReal 0 1)) 0 := by
    rw [iteratedDeriv_mgf_zero] <;> simp
  have h2 : mgf (fun x : ℝ => x) (gaussianReal 0 1) = fun t => Real.exp (t ^ 2 / 2) := by
    rw [mgf_fun_id_gaussianReal]
    funext t
    simp
  have hd0 : ∀ t : ℝ, HasDerivAt (fun t : ℝ => Real.exp (t ^ 2 / 2)) (t * Real.exp (t ^ 2 / 2)) t := by
    intro t
    have := ((hasDerivAt_pow 2 t).div_const 2).exp
    convert this using 1
    norm_num
    ring
  have hd : ∀ (p p' : ℝ → ℝ), (∀ t, HasDerivAt p (p' t) t) → deriv (fun t => p t * Real.exp (t ^ 2 / 2)) = fun t => (p' t + p t * t) * Real.exp (t ^ 2 / 2) := by
    intro p p' hp
    funext t
    have := ((hp t).mul (hd0 t)).deriv
    rw [show (fun t => p t * Real.exp (t ^ 2 / 2)) = p * fun t => Real.exp (t ^ 2 / 2) from rfl, this]
    ring
  have k1 : deriv (fun t : ℝ => Real.exp (t ^ 2 / 2)) = fun t => t * Real.exp (t ^ 2 / 2) := by
    funext t
    exact (hd0 t).deriv
  have k2 := hd (fun t => t) (fun _ => 1) (fun t => hasDerivAt_id t)
  have k3 := hd (fun t => 1 + t * t) (fun t => 2 * t) (fun t => by
    have : HasDerivAt (fun t : ℝ => 1 + t * t) (1 * t + t * 1) t := ((hasDerivAt_id' t).mul (hasDerivAt_id' t)).const_add 1
    exact this.congr_deriv (by ring))
  have k4 := hd (fun t => 2 * t + (1 + t * t) * t) (fun t => 3 + 3 * t ^ 2) (fun t => by
    have h2 : HasDerivAt (fun t : ℝ => 1 + t * t) (1 * t + t * 1) t := ((hasDerivAt_id' t).mul (hasDerivAt_id' t)).const_add 1
    have h3 : HasDerivAt (fun t : ℝ => 2 * t + (1 + t * t) * t) (2 * 1 + ((1 * t + t * 1) * t + (1 + t * t) * 1)) t :=
      ((hasDerivAt_id' t).const_mul 2).add (h2.mul (hasDerivAt_id' t))
    exact h3.congr_deriv (by ring))
  rw [h1, h2, iteratedDeriv_succ, iteratedDeriv_succ, iteratedDeriv_succ, iteratedDeriv_one, k1, k2, k3, k4]
  norm_num

/-- Normal draws have a fourth moment of 3. -/
theorem normal_draw (Y : Ω → ℝ) (hY : AEMeasurable Y μ) (hlaw : Measure.map Y μ = gaussianReal 0 1) :
    MemLp Y 2 μ ∧ ∫ ω, Y ω ∂μ = 0 ∧ Var[Y; μ] = 1 ∧ MemLp (fun ω => Y ω ^ 2) 2 μ ∧ ∫ ω, Y ω ^ 4 ∂μ = 3 := by
  have hl : ∀ p : ENNReal, p ≠ ⊤ → MemLp Y p μ := by
    intro p hp
    have := memLp_id_gaussianReal' (μ := 0) (v := 1) p hp
    rw [← hlaw] at this
    exact (memLp_map_measure_iff (by fun_prop) hY).mp this
  have h4 : MemLp (fun ω => Y ω ^ 2) 2 μ := by
    have hI : Integrable (fun ω => Y ω ^ 4) μ := by
      have := (hl 4 (by norm_num)).integrable_norm_pow (by norm_num : (4 : ℕ) ≠ 0)
      refine this.congr ?_
      filter_upwards with ω
      rw [Real.norm_eq_abs, show (4 : ℕ) = 2 * 2 from rfl, pow_mul, sq_abs, ← pow_mul]
    rw [memLp_two_iff_integrable_sq (hY.pow_const 2).aestronglyMeasurable]
    refine hI.congr ?_
    filter_upwards with ω
    ring
  refine ⟨hl 2 (by norm_num), ?_, ?_, h4, ?_⟩
  · have := integral_map hY (f := fun x : ℝ => x) (by fun_prop)
    rw [hlaw] at this
    rw [← this]
    simp
  · have := variance_map (X := fun x : ℝ => x) (μ := μ) (Y := Y) (by fun_prop) hY
    rw [hlaw] at this
    simp at this
    rw [show Y = (fun x => x) ∘ Y from rfl]
    exact this.symm
  · have := integral_map hY (f := fun x : ℝ => x ^ 4) (by fun_prop)
    rw [hlaw, normal_fourth] at this
    exact this.symm

/-- **C141 (normal noise).** `apply_thermal_noise` with independent standard normal draws: the bounds of `C141_thermal` fail with probability at most
`8 / (N η²)`. -/
theorem C141_normal (g : Gen) (k : ℕ) (hg : CoherentGen g k) (hA : 0 < g.a) (rms : ℝ) (hr : 0 < rms) (hsmall : 8 * rms ^ 2 < g.a ^ 2) (Z : ℕ → Ω → ℝ)
    (hZ : ∀ i, AEMeasurable (Z i) μ) (hlaw : ∀ i, Measure.map (Z i) μ = gaussianReal 0 1) (hind : Pairwise fun i j => IndepFun (Z i) (Z j) μ)
    (lib : WinLib) (a : SpectrumArgs) (ha : PlainCall a) (V : ℝ) (hV : 0 < V) (hpk : ∀ row, peakAmplitude [row] a.scale = .ok V)
    (η : ℝ) (hη : 0 < η) (hη1 : η ≤ 1 / 2) :
    μ.real {ω | ¬ ∃ r, computeSpectrum lib [(List.range g.n).map (g.thermal none rms fun i => Z i ω)] a = .ok r ∧ r.fundamentalBin = k ∧
      dB ((g.a - Real.sqrt η * rms) ^ 2 / 2 / (rms ^ 2 * (1 + η) + V ^ 2 / 2 / 10 ^ 20)) ≤ r.sndr ∧
      r.sndr ≤ dB ((g.a + Real.sqrt η * rms) ^ 2 / 2 / (rms ^ 2 * (1 - 3 / 2 * η)))} ≤ 8 / (g.n * η ^ 2) := by
  have h := fun i => normal_draw μ (Z i) (hZ i) (hlaw i)
  have := C141_thermal μ g k hg hA rms hr hsmall Z (fun i => (h i).1) (fun i => (h i).2.1) (fun i => (h i).2.2.1) (fun i => (h i).2.2.2.1) 3
    (fun i => (h i).2.2.2.2.le) hind lib a ha V hV hpk η hη hη1
  norm_num at this ⊢
  exact this

/-- **C141 (sampling jitter).** `apply_jitter` with independent normal time errors of rms value `sigma`, `w = 2π Fin sigma`: except with probability
`12 / (N η²)` the call succeeds, finds the tone, and reports an SNDR of at least `1 / (w² (1 + η)) - 1` (with the floor of 1e-20 of full scale), where
`1 / w²` is the limit that `calculate_jitter_limit` gives. -/
theorem C141_jitter (g : Gen) (k : ℕ) (hg : CoherentGen g k) (hA : 0 < g.a) (sigma : ℝ) (hsig : 0 < sigma) (Z : ℕ → Ω → ℝ)
    (hZ : ∀ i, AEMeasurable (Z i) μ) (hlaw : ∀ i, Measure.map (Z i) μ = gaussianReal 0 1) (hind : Pairwise fun i j => IndepFun (Z i) (Z j) μ)
    (lib : WinLib) (a : SpectrumArgs) (ha : PlainCall a) (V : ℝ) (hV : 0 < V) (hpk : ∀ row, peakAmplitude [row] a.scale = .ok V)
    (η : ℝ) (hη : 0 < η) (hsmall : 2 * (1 + η) * (2 * Real.pi * g.fin * sigma) ^ 2 ≤ 1) :
    dB (1 / (2 * Real.pi * g.fin * sigma) ^ 2) = ((jitterLimit g.fin sigma : ℝ) : EReal) ∧
    μ.real {ω | ¬ ∃ r, computeSpectrum lib [(List.range g.n).map (g.jitter fun i => Z i ω * sigma)] a = .ok r ∧ r.fundamentalBin = k ∧
      dB (max (1 / ((2 * Real.pi * g.fin * sigma) ^ 2 * (1 + η) + (V / g.a) ^ 2 / 10 ^ 20) - 1) 0) ≤ r.sndr} ≤ 12 / (g.n * η ^ 2) := by
  obtain ⟨hfs, hfin, hk, hkN⟩ := id hg
  have hN : (0 : ℝ) < g.n := by exact_mod_cast (by omega : 0 < g.n)
  have hkR : (0 : ℝ) < k := by exact_mod_cast hk
  have hf : 0 < g.fin := by rw [hfin]; positivity
  have hw : 0 < 2 * Real.pi * g.fin * sigma := by positivity
  have hpow := C87_jitter_power μ g k hg sigma Z hZ hlaw
  set w := 2 * Real.pi * g.fin * sigma with hwdef
  constructor
  · rw [dB_pos (by positivity)]
    unfold jitterLimit
    rw [← hwdef]
    congr 1
    rw [one_div, Real.logb_inv, Real.logb_pow]
    unfold log10
    push_cast
    ring
  set e : ℕ → Ω → ℝ := fun i ω => g.jitter (fun k => Z k ω * sigma) i - g.base i with he
  have hfun : ∀ i, ∃ F : ℝ → ℝ, Measurable F ∧ (∀ x, |F x| ≤ g.a * w * |x|) ∧ e i = F ∘ Z i := by
    intro i
    refine ⟨fun x => g.a * (Real.sin (2 * Real.pi * g.fin * (g.t i + x * sigma)) - Real.sin (2 * Real.pi * g.fin * g.t i)), by fun_prop, ?_, ?_⟩
    · intro x
      rw [abs_mul, abs_of_pos hA, mul_assoc g.a]
      apply mul_le_mul_of_nonneg_left _ hA.le
      refine (Real.abs_sin_sub_sin_le _ _).trans (le_of_eq ?_)
      rw [show 2 * Real.pi * g.fin * (g.t i + x * sigma) - 2 * Real.pi * g.fin * g.t i = w * x by rw [hwdef]; ring, abs_mul, abs_of_pos hw]
    · funext ω
      rw [he]
      simp only [Function.comp]
      unfold Gen.jitter Gen.base
      ring
  choose F hF1 hF2 hF3 using hfun
  have eind : ∀ i < g.n, ∀ j < g.n, i ≠ j → IndepFun (e i) (e j) μ := fun i _ j _ hij => by
    rw [hF3 i, hF3 j]
    exact (hind hij).comp (hF1 i) (hF1 j)
  have hdraw := fun i => normal_draw μ (Z i) (hZ i) (hlaw i)
  have hle2 : ∀ i ω, e i ω ^ 2 ≤ (g.a * w) ^ 2 * Z i ω ^ 2 := by
    intro i ω
    rw [hF3 i]
    have := pow_le_pow_left₀ (abs_nonneg _) (hF2 i (Z i ω)) 2
    rw [sq_abs, mul_pow, sq_abs] at this
    exact this
  have emeas : ∀ i, AEMeasurable (e i) μ := fun i => by rw [hF3 i]; exact (hF1 i).comp_aemeasurable (hZ i)
  have e4 : ∀ i < g.n, MemLp (fun ω => e i ω ^ 2) 2 μ := fun i _ => by
    refine MemLp.of_le ((hdraw i).2.2.2.1.const_mul ((g.a * w) ^ 2)) ((emeas i).pow_const 2).aestronglyMeasurable ?_
    filter_upwards with ω
    rw [Real.norm_of_nonneg (sq_nonneg _), Real.norm_of_nonneg (by positivity)]
    exact hle2 i ω
  have hvar4 : ∑ i ∈ range g.n, Var[fun ω => e i ω ^ 2; μ] ≤ g.n * (3 * (g.a * w) ^ 4) := by
    have : ∀ i ∈ range g.n, Var[fun ω => e i ω ^ 2; μ] ≤ 3 * (g.a * w) ^ 4 := by
      intro i hi
      refine (variance_le_expectation_sq (e4 i (mem_range.mp hi)).aestronglyMeasurable).trans ?_
      rw [← (hdraw i).2.2.2.2, mul_comm, ← integral_const_mul]
      apply integral_mono_of_nonneg
      · filter_upwards with ω using sq_nonneg _
      · apply Integrable.const_mul
        refine (hdraw i).2.2.2.1.integrable_sq.congr ?_
        filter_upwards with ω
        ring
      · filter_upwards with ω
        simp only [Pi.pow_apply]
        have := pow_le_pow_left₀ (sq_nonneg _) (hle2 i ω) 2
        refine this.trans (le_of_eq ?_)
        ring
    refine (sum_le_sum this).trans (le_of_eq ?_)
    rw [sum_const, card_range, nsmul_eq_mul]
  have p1 := sum_sq_tail μ g.n e e4 eind (g.n * (η * (w ^ 2 * (g.a ^ 2 / 2)))) (by positivity)
  have hE : ∑ i ∈ range g.n, ∫ ω, e i ω ^ 2 ∂μ ≤ g.n * (w ^ 2 * (g.a ^ 2 / 2)) := by
    have := hpow.1.trans_le hpow.2
    rw [div_le_iff₀ hN] at this
    linarith
  have hsub : {ω | ¬ ∃ r, computeSpectrum lib [(List.range g.n).map (g.jitter fun i => Z i ω * sigma)] a = .ok r ∧ r.fundamentalBin = k ∧
      dB (max (1 / (w ^ 2 * (1 + η) + (V / g.a) ^ 2 / 10 ^ 20) - 1) 0) ≤ r.sndr}
      ⊆ {ω | g.n * (η * (w ^ 2 * (g.a ^ 2 / 2))) ≤ |∑ i ∈ range g.n, e i ω ^ 2 - ∑ i ∈ range g.n, ∫ ω, e i ω ^ 2 ∂μ|} := by
    intro ω hω
    by_contra hc
    rw [Set.mem_setOf_eq] at hc
    push Not at hc
    apply hω
    obtain ⟨_, d2⟩ := abs_lt.mp hc
    set row := (List.range g.n).map (g.jitter fun i => Z i ω * sigma) with hrow
    have hl : row.length = g.n := by rw [hrow]; simp
    have hlt : ∑ i ∈ range g.n, e i ω ^ 2 < g.n * (w ^ 2 * (1 + η) * (g.a ^ 2 / 2)) := by
      have : (g.n : ℝ) * (w ^ 2 * (1 + η) * (g.a ^ 2 / 2)) = g.n * (η * (w ^ 2 * (g.a ^ 2 / 2))) + g.n * (w ^ 2 * (g.a ^ 2 / 2)) := by ring
      rw [this]
      linarith
    obtain ⟨r, t1, t2, _, t4⟩ := noisy_report lib a ha row V hV (hpk row) k hk (by rw [hl]; exact hkN) g.a (-(Real.pi / 2)) g.dc hA (fun n => e n ω)
      (by
        intro n hn
        rw [hl] at hn ⊢
        rw [hrow, List.getD_eq_getElem?_getD, List.getElem?_map, List.getElem?_range hn]
        simp only [Option.map_some, Option.getD_some]
        rw [he]
        simp only
        rw [← base_sine g k hg]
        ring)
      (by
        rw [hl]
        have h1 : (g.n : ℝ) * (2 * (1 + η) * w ^ 2 * g.a ^ 2) ≤ g.n * (1 * g.a ^ 2) :=
          mul_le_mul_of_nonneg_left (mul_le_mul_of_nonneg_right hsmall (sq_nonneg _)) hN.le
        have h2 : (g.n : ℝ) * (2 * (1 + η) * w ^ 2 * g.a ^ 2) = 4 * (g.n * (w ^ 2 * (1 + η) * (g.a ^ 2 / 2))) := by ring
        linarith)
    refine ⟨r, t1, t2, le_trans (dB_mono (le_max_right _ _) (max_le_max (sub_le_sub_right ?_ _) le_rfl)) t4⟩
    rw [hl]
    have hG : (∑ i ∈ range g.n, e i ω ^ 2) / g.n < w ^ 2 * (1 + η) * (g.a ^ 2 / 2) := by
      rw [div_lt_iff₀ hN]
      linarith
    have hG0 : 0 ≤ (∑ i ∈ range g.n, e i ω ^ 2) / g.n := div_nonneg (sum_nonneg fun _ _ => sq_nonneg _) hN.le
    have h5 : 1 / (w ^ 2 * (1 + η) + (V / g.a) ^ 2 / 10 ^ 20) = g.a ^ 2 / 2 / (w ^ 2 * (1 + η) * (g.a ^ 2 / 2) + V ^ 2 / 2 / 10 ^ 20) := by
      have : w ^ 2 * (1 + η) * (g.a ^ 2 / 2) + V ^ 2 / 2 / 10 ^ 20 = (w ^ 2 * (1 + η) + (V / g.a) ^ 2 / 10 ^ 20) * (g.a ^ 2 / 2) := by
        field_simp
      rw [this, div_mul_eq_div_div_swap, div_self (by positivity)]
    rw [h5]
    have hV2 : 0 < V ^ 2 / 2 / 10 ^ 20 := by positivity
    exact div_le_div_of_nonneg_left (by positivity) (by linarith) (by linarith)
  refine (measureReal_mono hsub).trans (p1.trans ((div_le_div_of_nonneg_right hvar4 (by positivity)).trans (le_of_eq ?_)))
  field_simp
  norm_num

end draws

/-! ## Concrete cases -/

/-- 4096 samples, 419 periods, amplitude 0.49, noise of 1 mV: the call succeeds and finds the tone with probability of at least 0.99. -/
example (lib : WinLib) : ∃ (Ω : Type) (_ : MeasurableSpace Ω) (μ : Measure Ω) (Z : ℕ → Ω → ℝ),
    μ.real {ω | ¬ ∃ r, computeSpectrum lib [(List.range 4096).map ((Gen.mk 4096 1000000000 (419 * 1000000000 / 4096) (49 / 100) (1 / 2)).thermal none (1 / 1000)
      fun i => Z i ω)] { win := "boxcar", sideBin := some 0, scale := .scalar (1 / 2) } = .ok r ∧ r.fundamentalBin = 419} ≤ 1 / 100 := by
  obtain ⟨Ω, m, μ, hμ, Z, h1, h2, h3, h4, h5⟩ := exists_normal_draws
  refine ⟨Ω, m, μ, Z, ?_⟩
  have := C141_normal μ (Gen.mk 4096 1000000000 (419 * 1000000000 / 4096) (49 / 100) (1 / 2)) 419 ⟨by norm_num, by norm_num, by norm_num, by norm_num⟩
    (by norm_num) (1 / 1000) (by norm_num) (by norm_num) Z (fun i => (h1 i).aestronglyMeasurable.aemeasurable) h5 h4 lib
    { win := "boxcar", sideBin := some 0, scale := .scalar (1 / 2) } ⟨Or.inl rfl, rfl, rfl, rfl, rfl, rfl, by norm_num, by norm_num, by norm_num⟩
    (1 / 2) (by norm_num) (fun _ => rfl) (1 / 2) (by norm_num) le_rfl
  refine (measureReal_mono ?_).trans (this.trans (by norm_num))
  intro ω hω hc
  obtain ⟨r, t1, t2, _⟩ := hc
  exact hω ⟨r, t1, t2⟩

/-- The same record with 2 ps of jitter. -/
example (lib : WinLib) : ∃ (Ω : Type) (_ : MeasurableSpace Ω) (μ : Measure Ω) (Z : ℕ → Ω → ℝ),
    μ.real {ω | ¬ ∃ r, computeSpectrum lib [(List.range 4096).map ((Gen.mk 4096 1000000000 (419 * 1000000000 / 4096) (49 / 100) (1 / 2)).jitter
      fun i => Z i ω * (2 / 10 ^ 12))] { win := "boxcar", sideBin := some 0, scale := .scalar (1 / 2) } = .ok r ∧ r.fundamentalBin = 419} ≤ 1 / 100 := by
  obtain ⟨Ω, m, μ, hμ, Z, h1, h2, h3, h4, h5⟩ := exists_normal_draws
  refine ⟨Ω, m, μ, Z, ?_⟩
  have := (C141_jitter μ (Gen.mk 4096 1000000000 (419 * 1000000000 / 4096) (49 / 100) (1 / 2)) 419 ⟨by norm_num, by norm_num, by norm_num, by norm_num⟩
    (by norm_num) (2 / 10 ^ 12) (by norm_num) Z (fun i => (h1 i).aestronglyMeasurable.aemeasurable) h5 h4 lib
    { win := "boxcar", sideBin := some 0, scale := .scalar (1 / 2) } ⟨Or.inl rfl, rfl, rfl, rfl, rfl, rfl, by norm_num, by norm_num, by norm_num⟩
    (1 / 2) (by norm_num) (fun _ => rfl) 1 (by norm_num) (by
      have h := Real.pi_lt_four
      have h0 := Real.pi_pos
      have : 2 * Real.pi * (419 * 1000000000 / 4096) * (2 / 10 ^ 12) ≤ 1 / 10 := by
        norm_num
        linarith
      have h2 := pow_le_pow_left₀ (by positivity) this 2
      simp only
      linarith)).2
  refine (measureReal_mono ?_).trans (this.trans (by norm_num))
  intro ω hω hc
  obtain ⟨r, t1, t2, _⟩ := hc
  exact hω ⟨r, t1, t2⟩

end Verif
