import Verif.Model.Metrics
import Verif.Theorems.Pipeline

/-!
# C78: figures of merit and theoretical limits
-/

namespace Verif

open Model Finset

private theorem log10_mul {a b : ℝ} (ha : a ≠ 0) (hb : b ≠ 0) : log10 (a * b) = log10 a + log10 b := Real.logb_mul ha hb

private theorem log10_lt {a b : ℝ} (ha : 0 < a) (h : a < b) : log10 a < log10 b := Real.logb_lt_logb (by norm_num) ha h

/-- **C78 (Walden).** For positive power and rate the figure is positive, falls with rate and resolution, rises with power, halves for every extra bit, and
does not change when `m` converters are interleaved (`m` times the power at `m` times the rate). -/
theorem C78_walden (p fs e m : ℝ) (hp : 0 < p) (hf : 0 < fs) (hm : 0 < m) :
    0 < waldenFom p fs e ∧ (∀ p', p < p' → waldenFom p fs e < waldenFom p' fs e) ∧ (∀ fs', fs < fs' → waldenFom p fs' e < waldenFom p fs e) ∧
    (∀ e', e < e' → waldenFom p fs e' < waldenFom p fs e) ∧ waldenFom p fs (e + 1) = waldenFom p fs e / 2 ∧
    waldenFom (m * p) (m * fs) e = waldenFom p fs e := by
  have h2 : ∀ x : ℝ, (0 : ℝ) < (2 : ℝ) ^ x := fun x => Real.rpow_pos_of_pos (by norm_num) x
  unfold waldenFom
  refine ⟨div_pos hp (mul_pos (h2 e) hf), fun p' h => div_lt_div_of_pos_right h (mul_pos (h2 e) hf), fun fs' h => ?_, fun e' h => ?_, ?_, ?_⟩
  · exact div_lt_div_of_pos_left hp (mul_pos (h2 e) hf) (mul_lt_mul_of_pos_left h (h2 e))
  · exact div_lt_div_of_pos_left hp (mul_pos (h2 e) hf) (mul_lt_mul_of_pos_right (Real.rpow_lt_rpow_of_exponent_lt (by norm_num) h) hf)
  · rw [Real.rpow_add (by norm_num), Real.rpow_one, div_div]
    congr 1
    ring
  · have := (h2 e).ne'
    field_simp

/-- **C78 (Schreier).** The figure falls with power, rises with SNDR and bandwidth, does not change when `m` converters are interleaved, and does not change
when `m` times the power buys a noise power `m` times lower. -/
theorem C78_schreier (p s bw m : ℝ) (hp : 0 < p) (hb : 0 < bw) (hm : 0 < m) :
    (∀ p', p < p' → schreierFom p' s bw < schreierFom p s bw) ∧ (∀ s', s < s' → schreierFom p s bw < schreierFom p s' bw) ∧
    (∀ bw', bw < bw' → schreierFom p s bw < schreierFom p s bw') ∧ schreierFom (m * p) s (m * bw) = schreierFom p s bw ∧
    schreierFom (m * p) (s + powerToDb m) bw = schreierFom p s bw := by
  unfold schreierFom powerToDb
  refine ⟨fun p' h => ?_, fun s' h => by linarith, fun bw' h => ?_, ?_, ?_⟩
  · have := log10_lt (div_pos hb (hp.trans h)) (div_lt_div_of_pos_left hb hp h)
    linarith
  · have := log10_lt (div_pos hb hp) (div_lt_div_of_pos_right h hp)
    linarith
  · rw [mul_div_mul_left _ _ hm.ne']
  · have e : bw / p = m * (bw / (m * p)) := by field_simp
    rw [e, log10_mul hm.ne' (div_pos hb (mul_pos hm hp)).ne']
    ring

/-- **C78 (thermal noise).** The limit is the SNR that `amplitudes_to_snr` gives for a full-scale sine in noise of rms `sqrt(kT/C)`; it rises with the
capacitor and with the full scale, and four times the capacitor gives exactly what twice the full scale gives. -/
theorem C78_thermal (c v : ℝ) (hc : 0 < c) (hv : 0 < v) :
    some (thermalNoiseLimit c v) = amplitudesToSnr (v / 2) (Real.sqrt (thermalNoisePower c)) 1 ∧
    (∀ c', c < c' → thermalNoiseLimit c v < thermalNoiseLimit c' v) ∧ (∀ v', v < v' → thermalNoiseLimit c v < thermalNoiseLimit c v') ∧
    thermalNoiseLimit (4 * c) v = thermalNoiseLimit c (2 * v) ∧ thermalNoiseLimit (4 * c) v = thermalNoiseLimit c v + magToDb 2 := by
  have hn : ∀ c : ℝ, 0 < c → 0 < thermalNoisePower c := fun c hc => by unfold thermalNoisePower; positivity
  have hq : thermalNoisePower (4 * c) = thermalNoisePower c / 4 := by
    unfold thermalNoisePower
    field_simp
  refine ⟨?_, fun c' h => ?_, fun v' h => ?_, ?_, ?_⟩
  · unfold amplitudesToSnr thermalNoiseLimit
    rw [if_neg (Real.sqrt_pos.mpr (hn c hc)).ne']
    simp only [gt_iff_lt, lt_irrefl, if_false]
    congr 1
    have e : v ^ 2 / 8 / thermalNoisePower c = (v / 2 / Real.sqrt 2 / Real.sqrt (thermalNoisePower c)) ^ 2 := by
      rw [div_pow, div_pow, div_pow, Real.sq_sqrt (hn c hc).le, Real.sq_sqrt (by norm_num)]
      ring
    rw [e]
    unfold log10
    rw [Real.logb_pow]
    push_cast
    ring
  · unfold thermalNoiseLimit
    have hlt : thermalNoisePower c' < thermalNoisePower c := by
      unfold thermalNoisePower
      exact div_lt_div_of_pos_left (by norm_num) (by positivity) (mul_lt_mul_of_pos_right h (by norm_num))
    have := log10_lt (div_pos (by positivity : 0 < v ^ 2 / 8) (hn c hc)) (div_lt_div_of_pos_left (by positivity : 0 < v ^ 2 / 8) (hn c' (hc.trans h)) hlt)
    linarith
  · unfold thermalNoiseLimit
    have := log10_lt (div_pos (by positivity : 0 < v ^ 2 / 8) (hn c hc))
      (div_lt_div_of_pos_right (by have := pow_lt_pow_left₀ h hv.le (n := 2) (by norm_num); linarith : v ^ 2 / 8 < v' ^ 2 / 8) (hn c hc))
    linarith
  · unfold thermalNoiseLimit
    rw [hq]
    congr 2
    have := (hn c hc).ne'
    field_simp
    ring
  · unfold thermalNoiseLimit magToDb
    rw [hq]
    have e : v ^ 2 / 8 / (thermalNoisePower c / 4) = 2 ^ 2 * (v ^ 2 / 8 / thermalNoisePower c) := by
      have := (hn c hc).ne'
      field_simp
      ring
    rw [e, log10_mul (by norm_num) (div_pos (by positivity : 0 < v ^ 2 / 8) (hn c hc)).ne']
    unfold log10
    rw [Real.logb_pow]
    push_cast
    ring

/-- **C78 (units).** One picofarad at one volt gives between 74 and 75 dB at room temperature, and every other capacitance (in picofarads) and swing (in
volts) follows by adding `10 log10 c` and `20 log10 v`. -/
theorem C78_thermal_units (c v : ℝ) (hc : 0 < c) (hv : 0 < v) :
    74 < thermalNoiseLimit 1 1 ∧ thermalNoiseLimit 1 1 < 75 ∧ thermalNoiseLimit c v = thermalNoiseLimit 1 1 + powerToDb c + magToDb v := by
  have e1 : (1 : ℝ) ^ 2 / 8 / thermalNoisePower 1 = 12500000000 / 414 := by
    unfold thermalNoisePower
    norm_num
  have h1 : ∀ (a q : ℕ) (x : ℝ), 0 < x → 0 < q → (10 : ℝ) ^ a < x ^ q → (a : ℝ) < q * log10 x := by
    intro a q x hx hq h
    have := Real.logb_lt_logb (b := 10) (by norm_num) (by positivity) h
    rwa [Real.logb_pow, Real.logb_pow, Real.logb_self_eq_one (by norm_num), mul_one] at this
  have h2 : ∀ (a q : ℕ) (x : ℝ), 0 < x → 0 < q → x ^ q < (10 : ℝ) ^ a → q * log10 x < (a : ℝ) := by
    intro a q x hx hq h
    have := Real.logb_lt_logb (b := 10) (by norm_num) (by positivity) h
    rwa [Real.logb_pow, Real.logb_pow, Real.logb_self_eq_one (by norm_num), mul_one] at this
  refine ⟨?_, ?_, ?_⟩
  · unfold thermalNoiseLimit
    rw [e1]
    have := h1 37 5 (12500000000 / 414) (by norm_num) (by norm_num) (by norm_num)
    push_cast at this
    linarith
  · unfold thermalNoiseLimit
    rw [e1]
    have := h2 15 2 (12500000000 / 414) (by norm_num) (by norm_num) (by norm_num)
    push_cast at this
    linarith
  · unfold thermalNoiseLimit powerToDb magToDb
    have e : v ^ 2 / 8 / thermalNoisePower c = 1 ^ 2 / 8 / thermalNoisePower 1 * c * v ^ 2 := by
      unfold thermalNoisePower
      field_simp
    have hp : (0 : ℝ) < 1 ^ 2 / 8 / thermalNoisePower 1 := by rw [e1]; norm_num
    rw [e, log10_mul (mul_pos hp hc).ne' (by positivity), log10_mul hp.ne' hc.ne']
    have : log10 (v ^ 2) = 2 * log10 v := by
      unfold log10
      rw [Real.logb_pow]
      push_cast
      ring
    rw [this]
    ring

/-- **C78 (jitter).** The limit is the SNR that `amplitudes_to_snr` gives for a sine of any amplitude whose noise is the rms slope times the jitter; it falls
with frequency and jitter. -/
theorem C78_jitter (f τ a : ℝ) (hf : 0 < f) (hτ : 0 < τ) (ha : 0 < a) :
    some (jitterLimit f τ) = amplitudesToSnr a (2 * Real.pi * f * a / Real.sqrt 2 * τ) 1 ∧
    (∀ f', f < f' → jitterLimit f' τ < jitterLimit f τ) ∧ (∀ τ', τ < τ' → jitterLimit f τ' < jitterLimit f τ) := by
  have hπ := Real.pi_pos
  have h2 : 0 < Real.sqrt 2 := Real.sqrt_pos.mpr (by norm_num)
  refine ⟨?_, fun f' h => ?_, fun τ' h => ?_⟩
  · unfold amplitudesToSnr jitterLimit
    rw [if_neg (by positivity)]
    simp only [gt_iff_lt, lt_irrefl, if_false]
    congr 1
    have e : a / Real.sqrt 2 / (2 * Real.pi * f * a / Real.sqrt 2 * τ) = (2 * Real.pi * f * τ)⁻¹ := by
      field_simp
    rw [e]
    unfold log10
    rw [Real.logb_inv]
    ring
  · unfold jitterLimit
    have := log10_lt (by positivity : 0 < 2 * Real.pi * f * τ) (mul_lt_mul_of_pos_right (mul_lt_mul_of_pos_left h (by positivity)) hτ : 2 * Real.pi * f * τ < 2 * Real.pi * f' * τ)
    linarith
  · unfold jitterLimit
    have := log10_lt (by positivity : 0 < 2 * Real.pi * f * τ) (mul_lt_mul_of_pos_left h (by positivity) : 2 * Real.pi * f * τ < 2 * Real.pi * f * τ')
    linarith

/-- **C78 (jitter limit against the generator).** Whatever the drawn time errors, a jittered record of the generator never has an SNR (half the squared
amplitude over the mean square deviation from the clean sine) more than `10 log10 2` dB below the limit computed from the rms of the draws. -/
theorem C78_jitter_worst_case (g : Gen) (tj : ℕ → ℝ) (N : ℕ) (hN : 0 < N) (hf : 0 < g.fin) (ha : 0 < g.a)
    (herr : 0 < ∑ i ∈ range N, (g.jitter tj i - g.base i) ^ 2) :
    jitterLimit g.fin (Real.sqrt ((∑ i ∈ range N, tj i ^ 2) / N)) - powerToDb 2
      ≤ powerToDb (g.a ^ 2 / 2 / ((∑ i ∈ range N, (g.jitter tj i - g.base i) ^ 2) / N)) := by
  have hNr : (0 : ℝ) < N := by exact_mod_cast hN
  have hπ := Real.pi_pos
  set E := ∑ i ∈ range N, (g.jitter tj i - g.base i) ^ 2 with hE
  set T := ∑ i ∈ range N, tj i ^ 2 with hT
  have hle : E ≤ (2 * Real.pi * g.fin * g.a) ^ 2 * T := by
    rw [hE, hT, mul_sum]
    apply sum_le_sum
    intro i _
    have := (C71_jitter g tj i).1
    rw [abs_of_pos hf, abs_of_pos ha] at this
    have h2 := pow_le_pow_left₀ (abs_nonneg _) this 2
    rw [sq_abs] at h2
    refine h2.trans (le_of_eq ?_)
    rw [mul_pow, sq_abs]
  have hTpos : 0 < T := by
    by_contra h
    push Not at h
    have := mul_nonpos_of_nonneg_of_nonpos (sq_nonneg (2 * Real.pi * g.fin * g.a)) h
    linarith
  have hs : 0 < Real.sqrt (T / N) := Real.sqrt_pos.mpr (div_pos hTpos hNr)
  have hsq : Real.sqrt (T / N) ^ 2 = T / N := Real.sq_sqrt (div_pos hTpos hNr).le
  have e1 : jitterLimit g.fin (Real.sqrt (T / N)) - powerToDb 2 = 10 * log10 (1 / (2 * ((2 * Real.pi * g.fin) ^ 2 * (T / N)))) := by
    unfold jitterLimit powerToDb
    have e : (1 : ℝ) / (2 * ((2 * Real.pi * g.fin) ^ 2 * (T / N))) = (2 * (2 * Real.pi * g.fin * Real.sqrt (T / N)) ^ 2)⁻¹ := by
      rw [mul_pow _ (Real.sqrt _), hsq, one_div]
    rw [e]
    unfold log10
    have hpos : (2 * Real.pi * g.fin * Real.sqrt (T / N)) ^ 2 ≠ 0 := by positivity
    rw [Real.logb_inv, Real.logb_mul (by norm_num : (2 : ℝ) ≠ 0) hpos, Real.logb_pow]
    push_cast
    ring
  rw [e1]
  unfold powerToDb
  apply mul_le_mul_of_nonneg_left _ (by norm_num)
  apply Real.logb_le_logb_of_le (by norm_num) (by positivity)
  rw [div_le_div_iff₀ (by positivity) (div_pos herr hNr)]
  calc 1 * (E / N) ≤ (2 * Real.pi * g.fin * g.a) ^ 2 * T / N := by
        rw [one_mul]; exact div_le_div_of_nonneg_right hle hNr.le
    _ = g.a ^ 2 / 2 * (2 * ((2 * Real.pi * g.fin) ^ 2 * (T / N))) := by ring

example : (0 : ℝ) < 1 / 100 ∧ waldenFom 1 1 3 = 1 / 8 := by
  refine ⟨by norm_num, ?_⟩
  unfold waldenFom
  rw [show (3 : ℝ) = ((3 : ℕ) : ℝ) by norm_num, Real.rpow_natCast]
  norm_num

/-- Two picofarads at one volt. -/
example : thermalNoiseLimit 2 1 = thermalNoiseLimit 1 1 + powerToDb 2 + magToDb 1 := (C78_thermal_units 2 1 (by norm_num) one_pos).2.2

end Verif
