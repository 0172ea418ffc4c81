import Verif.Theorems.NoiseReport
import Verif.Theorems.MultiTone
import Verif.Theorems.Pipeline

/-!
# C144: amplitude modulation and glitches, as the spectrum reports them
-/

namespace Verif

open Model Finset Spec MeasureTheory ProbabilityTheory

/-! ## Specification -/

namespace Spec

/-- A carrier in bin `k` modulated at `j` periods per record, and an analysis of the whole band with a cosine-sum window that keeps the three lines apart. -/
structure ModulationTest (a : SpectrumArgs) (N k j : ℕ) (V A : ℝ) : Prop where
  kaiser : a.win ≠ "kaiser"
  chebwin : a.win ≠ "chebwin"
  side : a.sideBin = some (defaultSideBin a.win)
  average : a.coherent = false
  cutoff : a.cutoff = 0
  assumed : a.assumed = none
  osr : a.osr = 1
  full : 0 < V
  apart : max (2 * defaultSideBin a.win) 1 < j
  low : 2 * defaultSideBin a.win + j < k
  high : 2 * (k + j + defaultSideBin a.win) < N
  loud : 1 / 10 ^ 15 < A / V
  harmonics : 1 ≤ a.maxHarmonic
  method_low : 0 ≤ a.nfMethod
  method_high : a.nfMethod ≤ 4

end Spec

/-! ## Theorems -/

private theorem toneTest (a : SpectrumArgs) (N k j : ℕ) (V A d : ℝ) (t : ModulationTest a N k j V A) (hA : 0 < A) (hd : 0 < d) (hd2 : d < 2) :
    ToneTest a N (N / 2 + 1) V {k, k - j, k + j} (fun b => if b = k then A else A * d / 2) k where
  kaiser := t.kaiser
  chebwin := t.chebwin
  side := t.side
  average := t.average
  cutoff := t.cutoff
  assumed := t.assumed
  inband := by
    have h := t.high
    rw [t.osr, C25_osr_one (K := ℝ) (N : ℤ) (by omega)]
    congr 1
  full := t.full
  sep := by
    have h1 := t.apart
    have h2 := t.low
    have h3 := t.high
    refine ⟨fun b hb => ?_, fun b hb => ?_, fun b hb c hc hbc => ?_⟩ <;> simp only [mem_insert, mem_singleton] at hb
    · omega
    · omega
    · simp only [mem_insert, mem_singleton] at hc
      omega
  edge := by
    intro b hb
    have h1 := t.apart
    have h3 := t.high
    simp only [mem_insert, mem_singleton] at hb
    left
    omega
  carrier := by simp
  carrier_in := by
    have h3 := t.high
    omega
  amp_pos := by
    intro b _
    beta_reduce
    split_ifs <;> positivity
  strongest := by
    intro b _ _ hb
    beta_reduce
    rw [if_neg hb, if_pos rfl]
    nlinarith
  loud := by
    beta_reduce
    rw [if_pos rfl]
    exact t.loud

/-- The modulated sine is three tones. -/
private theorem modulated_row (g : Gen) (k j : ℕ) (hg : CoherentGen g k) (hj : 0 < j) (hjk : j < k) (depth : ℝ) :
    ∃ φ, (List.range g.n).map (g.amTone none (j * g.fs / g.n) depth) = tonesRow g.n {k, k - j, k + j} (fun b => if b = k then g.a else g.a * depth / 2) φ g.dc := by
  obtain ⟨hfs, hf, hk, hkN⟩ := hg
  have hN : (g.n : ℝ) ≠ 0 := by exact_mod_cast (by omega : g.n ≠ 0)
  refine ⟨fun b => if b = k then -(Real.pi / 2) else if b = k - j then 0 else Real.pi, ?_⟩
  unfold tonesRow
  apply List.map_congr_left
  intro i _
  rw [C69_sidebands, sum_insert (by simp only [mem_insert, mem_singleton]; omega), sum_insert (by simp only [mem_singleton]; omega), sum_singleton]
  simp only [if_true]
  rw [if_neg (by omega : ¬ k - j = k), if_neg (by omega : ¬ k - j = k), if_neg (by omega : ¬ k + j = k), if_neg (by omega : ¬ k + j = k), if_neg (by omega : ¬ k + j = k - j), Real.cos_add_pi, ← sub_eq_add_neg, Real.cos_sub_pi_div_two]
  unfold Gen.t
  rw [hf]
  have e0 : 2 * Real.pi * (k * g.fs / g.n) * (i / g.fs) = 2 * Real.pi * (k * i / g.n) := by field_simp
  have e1 : 2 * Real.pi * (k * g.fs / g.n - j * g.fs / g.n) * (i / g.fs) = 2 * Real.pi * (((k - j : ℕ) : ℝ) * i / g.n) + 0 := by
    rw [Nat.cast_sub hjk.le]
    field_simp
    ring
  have e2 : 2 * Real.pi * (k * g.fs / g.n + j * g.fs / g.n) * (i / g.fs) = 2 * Real.pi * (((k + j : ℕ) : ℝ) * i / g.n) := by
    push_cast
    field_simp
  rw [e0, e1, e2]
  ring

/-- **C144 (modulation tone).** A coherent sine modulated by `apply_am_tone` at a coherent frequency with a depth `0 < d < 2`: for every cosine-sum window `compute_spectrum` finds the
carrier at its bin with the amplitude set in the generator, whatever the offset, reports one of the two sidebands as the largest spur, `SFDR = 20 log10(2/d)`, and
as SNDR the power of the carrier over that of the two sidebands. -/
theorem C144_am_tone (lib : WinLib) (a : SpectrumArgs) (g : Gen) (k j : ℕ) (V d : ℝ) (hg : CoherentGen g k) (hA : 0 < g.a) (hd : 0 < d) (hd2 : d < 2)
    (t : ModulationTest a g.n k j V g.a) (hpk : peakAmplitude [(List.range g.n).map (g.amTone none (j * g.fs / g.n) d)] a.scale = .ok V) :
    ∃ r, computeSpectrum lib [(List.range g.n).map (g.amTone none (j * g.fs / g.n) d)] a = .ok r ∧ r.fundamentalBin = k ∧
      r.sigPwr = 20 * Real.logb 10 (g.a / V) ∧ (r.spurBin = k - j ∨ r.spurBin = k + j) ∧ r.sfdr = some ((20 * Real.logb 10 (2 / d) : ℝ) : EReal) ∧
      r.sndr = ((10 * Real.logb 10 ((g.a / V) ^ 2) - 10 * Real.logb 10 (d ^ 2 / 2 * (g.a / V) ^ 2 + 1 / 10 ^ 20) : ℝ) : EReal) := by
  have hj : 0 < j := by have := t.apart; omega
  have hjk : j < k := by have := t.low; omega
  have hN := t.high
  obtain ⟨φ, hφ⟩ := modulated_row g k j hg hj hjk d
  have tt := toneTest a g.n k j V g.a d t hA hd hd2
  have hdata : [(List.range g.n).map (g.amTone none (j * g.fs / g.n) d)] = tonesData g.n {k, k - j, k + j} (fun b => if b = k then g.a else g.a * d / 2) [(φ, g.dc)] := by
    rw [hφ]
    rfl
  rw [hdata] at hpk ⊢
  have hlen : [(φ, g.dc)].length ≤ 2 * g.n := by simp only [List.length_singleton]; omega
  obtain ⟨r, hr⟩ := C109_succeeds lib a g.n _ V _ _ k tt [(φ, g.dc)] (by simp) hlen hpk t.harmonics t.method_low t.method_high
  obtain ⟨h1, _, h3⟩ := C109_carrier lib a g.n _ V _ _ k tt [(φ, g.dc)] (by simp) hlen hpk r hr
  have h4 := C109_sndr lib a g.n _ V _ _ k tt [(φ, g.dc)] (by simp) hlen hpk r hr
  have hoth : others {k, k - j, k + j} (g.n / 2 + 1) k = {k - j, k + j} := by
    ext b
    unfold others
    simp only [mem_filter, mem_insert, mem_singleton]
    omega
  obtain ⟨h5, _, h7⟩ := C109_sfdr lib a g.n _ V _ _ k tt [(φ, g.dc)] (by simp) hlen hpk r hr (by rw [hoth]; simp)
  rw [hoth] at h4 h5
  simp only [mem_insert, mem_singleton] at h5
  refine ⟨r, hr, h1, by simpa using h3, h5, ?_, ?_⟩
  · rw [h7, if_pos rfl, if_neg (by omega)]
    have : g.a / (g.a * d / 2) = 2 / d := by field_simp
    rw [this]
  · rw [h4, sum_pair (by omega), if_pos rfl, if_neg (by omega), if_neg (by omega)]
    unfold level
    congr 4
    ring

section draws
variable {Ω : Type} [MeasurableSpace Ω] (μ : Measure Ω) [IsProbabilityMeasure μ]

/-- **C144 (modulation noise).** `apply_am_noise` with independent standard normal draws and a strength `s`: except with probability `4 / (N η²)` the call succeeds, finds the tone and
reports an SNDR of at least `1 / (s² (1 + η)) - 1` (with the floor of 1e-20 of full scale), whatever the amplitude and the offset. -/
theorem C144_am_noise (g : Gen) (k : ℕ) (hg : CoherentGen g k) (hA : 0 < g.a) (s : ℝ) (hs : 0 < s) (Z : ℕ → Ω → ℝ)
    (hZ : ∀ i, AEMeasurable (Z i) μ) (hlaw : ∀ i, Measure.map (Z i) μ = gaussianReal 0 1) (hind : Pairwise fun i j => IndepFun (Z i) (Z j) μ)
    (lib : WinLib) (a : SpectrumArgs) (ha : PlainCall a) (V : ℝ) (hV : 0 < V) (hpk : ∀ row, peakAmplitude [row] a.scale = .ok V)
    (η : ℝ) (hη : 0 < η) (hsmall : 2 * (1 + η) * s ^ 2 ≤ 1) :
    μ.real {ω | ¬ ∃ r, computeSpectrum lib [(List.range g.n).map (g.amNoise none s fun i => Z i ω)] a = .ok r ∧ r.fundamentalBin = k ∧
      dB (max (1 / (s ^ 2 * (1 + η) + (V / g.a) ^ 2 / 10 ^ 20) - 1) 0) ≤ r.sndr} ≤ 4 / (g.n * η ^ 2) := by
  obtain ⟨hfs, hfin, hk, hkN⟩ := id hg
  have hN : (0 : ℝ) < g.n := by exact_mod_cast (by omega : 0 < g.n)
  set c : ℕ → ℝ := fun i => s * g.a * Real.sin (2 * Real.pi * (k * i / g.n)) with hc
  have hsin : ∀ i, g.base i - g.dc = g.a * Real.sin (2 * Real.pi * (k * i / g.n)) := by
    intro i
    unfold Gen.base Gen.t
    rw [hfin, show 2 * Real.pi * (k * g.fs / g.n) * (i / g.fs) = 2 * Real.pi * (k * i / g.n) by field_simp]
    ring
  have hc2 : ∑ i ∈ range g.n, c i ^ 2 = g.n * (s ^ 2 * (g.a ^ 2 / 2)) := by
    obtain ⟨_, _, _, h4, _⟩ := bin_sums (N := g.n) (b := k) hk hkN
    rw [hc]
    simp only [mul_pow]
    rw [← mul_sum, h4]
    ring
  have hc4 : ∑ i ∈ range g.n, c i ^ 4 ≤ g.n * (s ^ 4 * (g.a ^ 4 / 2)) := by
    have : ∀ i ∈ range g.n, c i ^ 4 ≤ s ^ 2 * g.a ^ 2 * c i ^ 2 := by
      intro i _
      have h1 : c i ^ 2 ≤ s ^ 2 * g.a ^ 2 := by
        rw [hc]
        simp only [mul_pow]
        exact mul_le_of_le_one_right (by positivity) (Real.sin_sq_le_one _)
      calc c i ^ 4 = c i ^ 2 * c i ^ 2 := by ring
        _ ≤ _ := mul_le_mul_of_nonneg_right h1 (sq_nonneg _)
    refine (sum_le_sum this).trans (le_of_eq ?_)
    rw [← mul_sum, hc2]
    ring
  have hdraw := fun i => normal_draw μ (Z i) (hZ i) (hlaw i)
  set e : ℕ → Ω → ℝ := fun i ω => c i * Z i ω with he
  have hZ2 : ∀ i, ∫ ω, Z i ω ^ 2 ∂μ = 1 := by
    intro i
    rw [← variance_of_integral_eq_zero (hZ i) (hdraw i).2.1, (hdraw i).2.2.1]
  have esq : ∀ i, (fun ω => e i ω ^ 2) = fun ω => c i ^ 2 * Z i ω ^ 2 := by
    intro i
    funext ω
    rw [he]
    ring
  have e4 : ∀ i < g.n, MemLp (fun ω => e i ω ^ 2) 2 μ := fun i _ => by
    rw [esq]
    exact (hdraw i).2.2.2.1.const_mul _
  have eind : ∀ i < g.n, ∀ j < g.n, i ≠ j → IndepFun (e i) (e j) μ := fun i _ j _ hij =>
    (hind hij).comp (measurable_const_mul (c i)) (measurable_const_mul (c j))
  have hE : ∑ i ∈ range g.n, ∫ ω, e i ω ^ 2 ∂μ = g.n * (s ^ 2 * (g.a ^ 2 / 2)) := by
    rw [← hc2]
    refine sum_congr rfl fun i _ => ?_
    rw [esq, integral_const_mul, hZ2, mul_one]
  have hvar4 : ∑ i ∈ range g.n, Var[fun ω => e i ω ^ 2; μ] ≤ g.n * (s ^ 4 * g.a ^ 4) := by
    have : ∀ i ∈ range g.n, Var[fun ω => e i ω ^ 2; μ] = 2 * c i ^ 4 := by
      intro i _
      rw [esq, variance_const_mul, variance_eq_sub (hdraw i).2.2.2.1]
      have h6 : μ[(fun ω => Z i ω ^ 2) ^ 2] = ∫ ω, Z i ω ^ 4 ∂μ := by
        apply integral_congr_ae
        filter_upwards with ω
        simp only [Pi.pow_apply]
        ring
      rw [h6, hZ2, (hdraw i).2.2.2.2]
      ring
    rw [sum_congr rfl this, ← mul_sum]
    linarith
  have p1 := sum_sq_tail μ g.n e e4 eind (g.n * (η * (s ^ 2 * (g.a ^ 2 / 2)))) (by positivity)
  have hsub : {ω | ¬ ∃ r, computeSpectrum lib [(List.range g.n).map (g.amNoise none s fun i => Z i ω)] a = .ok r ∧ r.fundamentalBin = k ∧
      dB (max (1 / (s ^ 2 * (1 + η) + (V / g.a) ^ 2 / 10 ^ 20) - 1) 0) ≤ r.sndr}
      ⊆ {ω | g.n * (η * (s ^ 2 * (g.a ^ 2 / 2))) ≤ |∑ i ∈ range g.n, e i ω ^ 2 - ∑ i ∈ range g.n, ∫ ω, e i ω ^ 2 ∂μ|} := by
    intro ω hω
    by_contra hcon
    rw [Set.mem_setOf_eq] at hcon
    push Not at hcon
    apply hω
    obtain ⟨_, d2⟩ := abs_lt.mp hcon
    set row := (List.range g.n).map (g.amNoise none s fun i => Z i ω) with hrow
    have hl : row.length = g.n := by rw [hrow]; simp
    have hlt : ∑ i ∈ range g.n, e i ω ^ 2 < g.n * (s ^ 2 * (1 + η) * (g.a ^ 2 / 2)) := by
      have : (g.n : ℝ) * (s ^ 2 * (1 + η) * (g.a ^ 2 / 2)) = g.n * (η * (s ^ 2 * (g.a ^ 2 / 2))) + g.n * (s ^ 2 * (g.a ^ 2 / 2)) := by ring
      rw [this]
      linarith
    obtain ⟨r, t1, t2, _, t4⟩ := noisy_report lib a ha row V hV (hpk row) k hk (by rw [hl]; exact hkN) g.a (-(Real.pi / 2)) g.dc hA (fun n => e n ω)
      (by
        intro n hn
        rw [hl] at hn ⊢
        rw [hrow, List.getD_eq_getElem?_getD, List.getElem?_map, List.getElem?_range hn]
        simp only [Option.map_some, Option.getD_some]
        rw [← base_sine g k hg]
        have := hsin n
        unfold Gen.amNoise
        simp only [Gen.resolve, he, hc]
        linear_combination s * Z n ω * this)
      (by
        rw [hl]
        have h1 : (g.n : ℝ) * (2 * (1 + η) * s ^ 2 * g.a ^ 2) ≤ g.n * (1 * g.a ^ 2) :=
          mul_le_mul_of_nonneg_left (mul_le_mul_of_nonneg_right hsmall (sq_nonneg _)) hN.le
        have h2 : (g.n : ℝ) * (2 * (1 + η) * s ^ 2 * g.a ^ 2) = 4 * (g.n * (s ^ 2 * (1 + η) * (g.a ^ 2 / 2))) := by ring
        linarith)
    refine ⟨r, t1, t2, le_trans (dB_mono (le_max_right _ _) (max_le_max (sub_le_sub_right ?_ _) le_rfl)) t4⟩
    rw [hl]
    have hG : (∑ i ∈ range g.n, e i ω ^ 2) / g.n < s ^ 2 * (1 + η) * (g.a ^ 2 / 2) := by
      rw [div_lt_iff₀ hN]
      linarith
    have hG0 : 0 ≤ (∑ i ∈ range g.n, e i ω ^ 2) / g.n := div_nonneg (sum_nonneg fun _ _ => sq_nonneg _) hN.le
    have h5 : 1 / (s ^ 2 * (1 + η) + (V / g.a) ^ 2 / 10 ^ 20) = g.a ^ 2 / 2 / (s ^ 2 * (1 + η) * (g.a ^ 2 / 2) + V ^ 2 / 2 / 10 ^ 20) := by
      have : s ^ 2 * (1 + η) * (g.a ^ 2 / 2) + V ^ 2 / 2 / 10 ^ 20 = (s ^ 2 * (1 + η) + (V / g.a) ^ 2 / 10 ^ 20) * (g.a ^ 2 / 2) := by
        field_simp
      rw [this, div_mul_eq_div_div_swap, div_self (by positivity)]
    rw [h5]
    have hV2 : 0 < V ^ 2 / 2 / 10 ^ 20 := by positivity
    exact div_le_div_of_nonneg_left (by positivity) (by linarith) (by linarith)
  refine (measureReal_mono hsub).trans (p1.trans ((div_le_div_of_nonneg_right hvar4 (by positivity)).trans (le_of_eq ?_)))
  field_simp
  norm_num

end draws

/-- **C144 (glitches).** For every outcome of the draws: if `c` of the `N` samples of a coherent sine receive a glitch and `4 c amp² < N A²`, the call succeeds, finds the tone and reports an
SNDR of at least `(A²/2) / (c amp² / N) - 1` (with the floor of 1e-20 of full scale). -/
theorem C144_glitch (lib : WinLib) (a : SpectrumArgs) (ha : PlainCall a) (g : Gen) (k : ℕ) (hg : CoherentGen g k) (hA : 0 < g.a) (prob amp V : ℝ) (u : ℕ → ℝ) (hV : 0 < V)
    (hpk : peakAmplitude [(List.range g.n).map (g.glitch none prob amp u)] a.scale = .ok V)
    (hc : 4 * (((range g.n).filter fun i => u i < prob).card * amp ^ 2) < g.n * g.a ^ 2) :
    ∃ r, computeSpectrum lib [(List.range g.n).map (g.glitch none prob amp u)] a = .ok r ∧ r.fundamentalBin = k ∧
      dB (max (g.a ^ 2 / 2 / (((range g.n).filter fun i => u i < prob).card * amp ^ 2 / g.n + V ^ 2 / 2 / 10 ^ 20) - 1) 0) ≤ r.sndr := by
  obtain ⟨_, _, hk, hkN⟩ := id hg
  set row := (List.range g.n).map (g.glitch none prob amp u) with hrow
  have hl : row.length = g.n := by rw [hrow]; simp
  set e : ℕ → ℝ := fun i => (if u i < prob then 1 else 0) * amp with he
  have hsum : ∑ i ∈ range g.n, e i ^ 2 = ((range g.n).filter fun i => u i < prob).card * amp ^ 2 := by
    rw [he, card_filter, Nat.cast_sum, sum_mul]
    refine sum_congr rfl fun i _ => ?_
    by_cases h : u i < prob <;> simp [h]
  obtain ⟨r, t1, t2, _, t4⟩ := noisy_report lib a ha row V hV hpk k hk (by rw [hl]; exact hkN) g.a (-(Real.pi / 2)) g.dc hA e
    (by
      intro n hn
      rw [hl] at hn ⊢
      rw [hrow, List.getD_eq_getElem?_getD, List.getElem?_map, List.getElem?_range hn]
      simp only [Option.map_some, Option.getD_some]
      rw [← base_sine g k hg]
      rfl)
    (by rw [hl, hsum]; exact hc)
  rw [hl, hsum] at t4
  exact ⟨r, t1, t2, t4⟩

/-! ## The hypotheses are satisfiable -/

/-- 256 samples, 37 periods, amplitude 0.4 on 0.5, modulated at 10 periods with a depth of 0.2, Hann window: SFDR 20 dB. -/
example (lib : WinLib) : ∃ r, computeSpectrum lib [(List.range 256).map ((Gen.mk 256 256 37 (2 / 5) (1 / 2)).amTone none 10 (1 / 5))] { scale := .scalar 1, sideBin := some 1 } = .ok r ∧
    r.fundamentalBin = 37 ∧ (r.spurBin = 27 ∨ r.spurBin = 47) ∧ r.sfdr = some ((20 : ℝ) : EReal) := by
  have e : (10 : ℝ) = ((10 : ℕ) : ℝ) * (Gen.mk 256 256 37 (2 / 5) (1 / 2)).fs / (Gen.mk 256 256 37 (2 / 5) (1 / 2)).n := by norm_num
  have t : ModulationTest { scale := .scalar 1, sideBin := some 1 } 256 37 10 1 (2 / 5) :=
    { kaiser := (by decide : "hann" ≠ "kaiser"), chebwin := (by decide : "hann" ≠ "chebwin"), side := rfl, average := rfl, cutoff := rfl, assumed := rfl, osr := rfl,
      full := one_pos, apart := (by decide : max (2 * 1) 1 < 10), low := (by decide : 2 * 1 + 10 < 37), high := (by decide : 2 * (37 + 10 + 1) < 256),
      loud := by norm_num, harmonics := by norm_num, method_low := by norm_num, method_high := by norm_num }
  obtain ⟨r, h1, h2, _, h4, h5, _⟩ := C144_am_tone lib { scale := .scalar 1, sideBin := some 1 } (Gen.mk 256 256 37 (2 / 5) (1 / 2)) 37 10 1 (1 / 5)
    ⟨by norm_num, by norm_num, by norm_num, by norm_num⟩ (by norm_num) (by norm_num) (by norm_num) t rfl
  rw [← e] at h1
  refine ⟨r, h1, h2, h4, ?_⟩
  rw [h5, show (2 : ℝ) / (1 / 5) = 10 by norm_num, Real.logb_self_eq_one (by norm_num), mul_one]

/-- 10000 samples, amplitude noise of one per cent: tone found, with probability of at least 0.99. -/
example (lib : WinLib) : ∃ (Ω : Type) (_ : MeasurableSpace Ω) (μ : Measure Ω) (Z : ℕ → Ω → ℝ),
    μ.real {ω | ¬ ∃ r, computeSpectrum lib [(List.range 10000).map ((Gen.mk 10000 10000 419 (2 / 5) (1 / 2)).amNoise none (1 / 100) fun i => Z i ω)]
      { win := "boxcar", sideBin := some 0, scale := .scalar (1 / 2) } = .ok r ∧ r.fundamentalBin = 419} ≤ 1 / 100 := by
  obtain ⟨Ω, m, μ, hμ, Z, h1, h2, h3, h4, h5⟩ := exists_normal_draws
  refine ⟨Ω, m, μ, Z, ?_⟩
  have := C144_am_noise μ (Gen.mk 10000 10000 419 (2 / 5) (1 / 2)) 419 ⟨by norm_num, by norm_num, by norm_num, by norm_num⟩
    (by norm_num) (1 / 100) (by norm_num) Z (fun i => (h1 i).aestronglyMeasurable.aemeasurable) h5 h4 lib
    { win := "boxcar", sideBin := some 0, scale := .scalar (1 / 2) } ⟨Or.inl rfl, rfl, rfl, rfl, rfl, rfl, by norm_num, by norm_num, by norm_num⟩
    (1 / 2) (by norm_num) (fun _ => rfl) 1 (by norm_num) (by norm_num)
  refine (measureReal_mono ?_).trans (this.trans (by norm_num))
  intro ω hω hc
  obtain ⟨r, t1, t2, _⟩ := hc
  exact hω ⟨r, t1, t2⟩

/-- 64 samples, one of them a glitch of half the amplitude. -/
example (lib : WinLib) : ∃ r, computeSpectrum lib [(List.range 64).map ((Gen.mk 64 64 5 1 0).glitch none (1 / 2) (1 / 2) fun i => if i = 3 then 0 else 1)]
    { win := "boxcar", sideBin := some 0, scale := .scalar 2 } = .ok r ∧ r.fundamentalBin = 5 := by
  have hcard : ((range 64).filter fun i => (if i = 3 then (0 : ℝ) else 1) < 1 / 2).card = 1 := by
    have : ((range 64).filter fun i => (if i = 3 then (0 : ℝ) else 1) < 1 / 2) = {3} := by
      ext i
      simp only [mem_filter, mem_range, mem_singleton]
      constructor
      · rintro ⟨_, h⟩
        by_contra hc
        rw [if_neg hc] at h
        norm_num at h
      · rintro rfl
        norm_num
    rw [this]
    rfl
  obtain ⟨r, h1, h2, _⟩ := C144_glitch lib { win := "boxcar", sideBin := some 0, scale := .scalar 2 } ⟨Or.inl rfl, rfl, rfl, rfl, rfl, rfl, by norm_num, by norm_num, by norm_num⟩
    (Gen.mk 64 64 5 1 0) 5 ⟨by norm_num, by norm_num, by norm_num, by norm_num⟩ one_pos (1 / 2) (1 / 2) 2 (fun i => if i = 3 then 0 else 1) (by norm_num) rfl
    (by simp only; rw [hcard]; norm_num)
  exact ⟨r, h1, h2⟩

end Verif
