import Verif.Proofs.Sinad
import Verif.Theorems.Sar
import Verif.Theorems.Fundamental
import Mathlib.Tactic.IntervalCases

/-!
# C95: what the reported SNDR and ENOB of a record mean
-/

namespace Verif

open Model Finset Spec

/-! ## Specification -/

/-- `A cos(2 pi (b/N) n + φ) + C` is the sine of `b` periods per record that lies closest to the record. -/
def IsBestSine (N b : ℕ) (x : ℕ → ℝ) (A φ C : ℝ) : Prop :=
  ∀ A' φ' C' : ℝ, ∑ n ∈ range N, (x n - sineAt A ((b : ℝ) / N) φ C n) ^ 2 ≤ ∑ n ∈ range N, (x n - sineAt A' ((b : ℝ) / N) φ' C' n) ^ 2

/-- Mean square of what a sine leaves of the record. -/
noncomputable def residualPower (N b : ℕ) (x : ℕ → ℝ) (A φ C : ℝ) : ℝ :=
  (∑ n ∈ range N, (x n - sineAt A ((b : ℝ) / N) φ C n) ^ 2) / N

/-- A call of `compute_spectrum` without window, side bins, band limits, coherent averaging or assumed signal level, and with arguments in
their documented ranges. -/
structure PlainCall (a : SpectrumArgs) : Prop where
  win : a.win = "boxcar" ∨ a.win = "rectangular"
  side : a.sideBin = some 0
  osr : a.osr = 1
  coh : a.coherent = false
  cut : a.cutoff = 0
  ass : a.assumed = none
  harm : 1 ≤ a.maxHarmonic
  nf0 : 0 ≤ a.nfMethod
  nf4 : a.nfMethod ≤ 4

/-! ## The best sine -/

theorem sineAt_parts (N b : ℕ) (A φ C : ℝ) (n : ℕ) :
    sineAt A ((b : ℝ) / N) φ C n
      = A * Real.cos φ * Real.cos (2 * Real.pi * (b * n / N)) + -(A * Real.sin φ) * Real.sin (2 * Real.pi * (b * n / N)) + C := by
  unfold sineAt
  rw [show 2 * Real.pi * ((b : ℝ) / N) * n = 2 * Real.pi * (b * n / N) by ring, Real.cos_add]
  ring

private theorem sine_distance (N b : ℕ) (hb : 0 < b) (hbN : 2 * b < N) (x : ℕ → ℝ) (A φ C : ℝ) :
    ∑ n ∈ range N, (x n - sineAt A ((b : ℝ) / N) φ C n) ^ 2
      = ∑ n ∈ range N, (x n - recMean N x) ^ 2 - N / 2 * (binCos N b x ^ 2 + binSin N b x ^ 2)
        + N / 2 * ((A * Real.cos φ - binCos N b x) ^ 2 + (-(A * Real.sin φ) - binSin N b x) ^ 2) + N * (C - recMean N x) ^ 2 := by
  rw [← bin_pythagoras x hb hbN]
  exact sum_congr rfl fun n _ => by rw [sineAt_parts]

theorem exists_polar (p q : ℝ) : ∃ A φ : ℝ, 0 ≤ A ∧ A * Real.cos φ = p ∧ -(A * Real.sin φ) = q := by
  refine ⟨‖(⟨p, -q⟩ : ℂ)‖, Complex.arg ⟨p, -q⟩, norm_nonneg _, ?_, ?_⟩
  · rw [Complex.norm_mul_cos_arg]
  · rw [Complex.norm_mul_sin_arg]; simp

theorem best_sine (N b : ℕ) (hb : 0 < b) (hbN : 2 * b < N) (x : ℕ → ℝ) (A φ C : ℝ) (h : IsBestSine N b x A φ C) :
    A ^ 2 = binCos N b x ^ 2 + binSin N b x ^ 2 ∧
    ∑ n ∈ range N, (x n - sineAt A ((b : ℝ) / N) φ C n) ^ 2
      = ∑ n ∈ range N, (x n - recMean N x) ^ 2 - N / 2 * (binCos N b x ^ 2 + binSin N b x ^ 2) := by
  obtain ⟨A', φ', _, h1, h2⟩ := exists_polar (binCos N b x) (binSin N b x)
  have hN : (0 : ℝ) < N := by exact_mod_cast (by omega : 0 < N)
  have hle := h A' φ' (recMean N x)
  have e := sine_distance N b hb hbN x A φ C
  rw [e, sine_distance N b hb hbN x A' φ' _, h1, h2] at hle
  have hz : N / 2 * ((A * Real.cos φ - binCos N b x) ^ 2 + (-(A * Real.sin φ) - binSin N b x) ^ 2) + N * (C - recMean N x) ^ 2 ≤ 0 := by
    simp only [sub_self] at hle
    linarith
  have t1 : 0 ≤ N * (C - recMean N x) ^ 2 := mul_nonneg hN.le (sq_nonneg _)
  have t2 : (A * Real.cos φ - binCos N b x) ^ 2 + (-(A * Real.sin φ) - binSin N b x) ^ 2 ≤ 0 := by
    by_contra hc
    push Not at hc
    have := mul_pos (half_pos hN) hc
    linarith
  have hp : A * Real.cos φ - binCos N b x = 0 := by nlinarith [sq_nonneg (A * Real.cos φ - binCos N b x), sq_nonneg (-(A * Real.sin φ) - binSin N b x)]
  have hq : -(A * Real.sin φ) - binSin N b x = 0 := by nlinarith [sq_nonneg (A * Real.cos φ - binCos N b x), sq_nonneg (-(A * Real.sin φ) - binSin N b x)]
  constructor
  · rw [← sub_eq_zero.mp hp, ← sub_eq_zero.mp hq]
    linear_combination -(A ^ 2) * Real.sin_sq_add_cos_sq φ
  · rw [hp, hq] at hz e
    have : N * (C - recMean N x) ^ 2 = 0 := by
      apply le_antisymm _ t1
      simpa using hz
    rw [e, this]
    ring

/-! ## The reported numbers -/

/-- The returned metrics of a plain call in terms of the record. -/
theorem plain_metrics (lib : WinLib) (a : SpectrumArgs) (ha : PlainCall a) (row : List ℝ) (V : ℝ) (hV : V ≠ 0)
    (hpk : peakAmplitude [row] a.scale = .ok V) (r : SpectrumResult) (h : computeSpectrum lib [row] a = .ok r) :
    r.fundamentalBin = fundamentalBin r.power r.power.length ∧
    (0 < r.fundamentalBin → 2 * r.fundamentalBin < row.length →
      r.sndr = dB (r.power.getD r.fundamentalBin 0 / (r.power.sum - r.power.getD r.fundamentalBin 0 + 1 / 10 ^ 20)) ∧
      r.sigPwr = 10 * Real.logb 10 (max (r.power.getD r.fundamentalBin 0) (1 / 10 ^ 30))) := by
  obtain ⟨hN0, hrN, hpl, hp0, hpk', hsum⟩ := boxcar_spectrum lib a ha.win row V hV hpk ha.coh ha.cut r h
  obtain ⟨d, n', hd, hn', _, hnl, hpl', _, _, hnn, hpow, hm⟩ := computeSpectrum_ok lib _ a r h
  obtain ⟨bins, spur, noise, _, _, _, hr⟩ := spectrumMetrics_ok _ _ _ _ _ _ _ hm
  have hdl : (d.headD []).length = row.length := by
    have : r.N = (d.headD []).length := by rw [hr]; rfl
    rw [← this, hrN]
  have hcount : n' = r.power.length := by
    rw [hdl, ha.osr, C25_osr_one _ (by exact_mod_cast hN0)] at hn'
    injection hn' with hn'
    omega
  have hsb : sideBinOf lib a (d.headD []).length n' r.power = 0 := by unfold sideBinOf; rw [ha.side]
  rw [hsb, hcount] at hr
  have hf : r.fundamentalBin = fundamentalBin r.power r.power.length := by
    conv_lhs => rw [hr]
    rfl
  refine ⟨hf, fun hb hbN => ?_⟩
  have hloc : (locateFundamental r.power r.power.length).1 = r.fundamentalBin := hf.symm
  have hsig : signalPower r.power r.power.length 0 r.fundamentalBin = r.power.getD r.fundamentalBin 0 := by
    unfold signalPower
    rw [slice_sum]
    rw [show min (min (r.fundamentalBin + 0 + 1) r.power.length) r.power.length = r.fundamentalBin + 1 by omega]
    rw [Nat.sub_zero, Finset.sum_Ico_succ_top (by omega)]
    simp
  have hnad : noiseAndDistortion r.power r.power.length 0 r.fundamentalBin = r.power.sum - r.power.getD r.fundamentalBin 0 := by
    have hp := C28_power_partition r.power r.power.length 0 r.fundamentalBin le_rfl
    have h0 : power (fun i => r.power.getD i 0) ((range r.power.length ∩ dcLobe 0) \ lobe r.fundamentalBin 0) = 0 := by
      apply sum_eq_zero
      intro i hi
      unfold dcLobe at hi
      simp only [mem_sdiff, mem_inter, mem_range] at hi
      rw [show i = 0 by omega]
      exact hp0
    have ht : power (fun i => r.power.getD i 0) (range r.power.length) = r.power.sum := by
      unfold power
      rw [← list_sum_map_range]
      congr 1
      apply List.ext_getElem
      · simp
      · intro i h1 h2
        simp only [List.getElem_map, List.getElem_range]
        rw [List.getD_eq_getElem?_getD, List.getElem?_eq_getElem h2]
        rfl
    rw [h0, ht, hsig] at hp
    linarith
  constructor
  · have e : r.sndr = dB (sigLinear a (signalPower r.power r.power.length 0 (locateFundamental r.power r.power.length).1) /
        (noiseAndDistortion r.power r.power.length 0 (locateFundamental r.power r.power.length).1 + 1 / 10 ^ 20)) := by
      conv_lhs => rw [hr]
      rfl
    rw [e, hloc, hsig, hnad]
    unfold sigLinear
    rw [ha.ass]
  · have e : r.sigPwr = sigPwrDbfs a (signalPower r.power r.power.length 0 (locateFundamental r.power r.power.length).1) := by
      conv_lhs => rw [hr]
      rfl
    rw [e, hloc, hsig]
    unfold sigPwrDbfs
    rw [ha.ass]

/-- **C95 (the definition of SINAD).** Without window and side bins, the SNDR reported for any record is the power `A^2/2` of the best-fitting
sine at the located bin over the mean square of everything that sine leaves, to within the documented floor of 1e-20 of full scale; the
signal power is `20 log10(A / full scale)` down to the -300 dB floor. -/
theorem C95_sndr_is_sinad (lib : WinLib) (a : SpectrumArgs) (ha : PlainCall a) (row : List ℝ) (V : ℝ) (hV : V ≠ 0)
    (hpk : peakAmplitude [row] a.scale = .ok V) (r : SpectrumResult) (h : computeSpectrum lib [row] a = .ok r)
    (hb : 0 < r.fundamentalBin) (hbN : 2 * r.fundamentalBin < row.length) (A φ C : ℝ)
    (hbest : IsBestSine row.length r.fundamentalBin (fun n => row.getD n 0) A φ C) :
    r.sndr = dB (A ^ 2 / 2 / (residualPower row.length r.fundamentalBin (fun n => row.getD n 0) A φ C + V ^ 2 / 2 / 10 ^ 20)) ∧
    r.sigPwr = 10 * Real.logb 10 (max ((A / V) ^ 2) (1 / 10 ^ 30)) := by
  obtain ⟨hN0, hrN, hpl, hp0, hpk', hsum⟩ := boxcar_spectrum lib a ha.win row V hV hpk ha.coh ha.cut r h
  obtain ⟨h1, h2⟩ := (plain_metrics lib a ha row V hV hpk r h).2 hb hbN
  obtain ⟨hA, hR⟩ := best_sine row.length r.fundamentalBin hb hbN _ A φ C hbest
  have hNR : (row.length : ℝ) ≠ 0 := by exact_mod_cast hN0.ne'
  have hpb : r.power.getD r.fundamentalBin 0 = (A / V) ^ 2 := by
    rw [hpk' _ hb (by omega) (by omega), norm_bin _ hN0.ne', ← hA]
    unfold oneSided
    simp only
    rw [if_neg (by omega), if_neg (by omega)]
    field_simp
  rw [h1, h2, hpb]
  refine ⟨?_, rfl⟩
  congr 1
  have hres : r.power.sum - (A / V) ^ 2 = 2 / V ^ 2 * residualPower row.length r.fundamentalBin (fun n => row.getD n 0) A φ C := by
    unfold residualPower
    rw [hR, ← hA, hsum]
    field_simp
  have hnn : 0 ≤ residualPower row.length r.fundamentalBin (fun n => row.getD n 0) A φ C :=
    div_nonneg (sum_nonneg fun n _ => sq_nonneg _) (by positivity)
  rw [hres]
  have hV2 : 0 < V ^ 2 := by positivity
  have hd : residualPower row.length r.fundamentalBin (fun n => row.getD n 0) A φ C + V ^ 2 / 2 / 10 ^ 20 ≠ 0 := by positivity
  have hd2 : 2 / V ^ 2 * residualPower row.length r.fundamentalBin (fun n => row.getD n 0) A φ C + 1 / 10 ^ 20 ≠ 0 := by positivity
  rw [div_eq_div_iff hd2 hd]
  field_simp

/-- Every record has a best sine at every bin between DC and Nyquist. -/
theorem exists_bestSine (N b : ℕ) (hb : 0 < b) (hbN : 2 * b < N) (x : ℕ → ℝ) : ∃ A φ C, 0 ≤ A ∧ IsBestSine N b x A φ C := by
  obtain ⟨A, φ, hA, h1, h2⟩ := exists_polar (binCos N b x) (binSin N b x)
  refine ⟨A, φ, recMean N x, hA, fun A' φ' C' => ?_⟩
  rw [sine_distance N b hb hbN, sine_distance N b hb hbN, h1, h2]
  have hN : (0 : ℝ) < N := by exact_mod_cast (by omega : 0 < N)
  have t1 : 0 ≤ N * (C' - recMean N x) ^ 2 := by positivity
  have t2 : 0 ≤ N / 2 * ((A' * Real.cos φ' - binCos N b x) ^ 2 + (-(A' * Real.sin φ') - binSin N b x) ^ 2) := by positivity
  simp only [sub_self]
  linarith

/-- **C95 (FFT and sine fit agree).** The SNDR of `compute_spectrum` is the one computed from `fit_sine_4param` at the located frequency:
`amplitude^2 / 2` over `rmse^2`, with any least-squares solver. -/
theorem C95_agrees_with_sine_fit (lib : WinLib) (a : SpectrumArgs) (ha : PlainCall a) (row : List ℝ) (V : ℝ) (hV : V ≠ 0)
    (hpk : peakAmplitude [row] a.scale = .ok V) (r : SpectrumResult) (h : computeSpectrum lib [row] a = .ok r)
    (hb : 0 < r.fundamentalBin) (hbN : 2 * r.fundamentalBin < row.length) (solve : Lstsq) (hs : IsLstsq solve) (tol : ℝ) (f : SineFit)
    (hf : fitCore solve row.length (fun n => row.getD n 0) (some ((r.fundamentalBin : ℝ) / row.length)) 0 tol = .ok f) :
    r.sndr = dB (f.amplitude ^ 2 / 2 / (f.rmse ^ 2 + V ^ 2 / 2 / 10 ^ 20)) ∧
    r.sigPwr = 10 * Real.logb 10 (max ((f.amplitude / V) ^ 2) (1 / 10 ^ 30)) := by
  obtain ⟨d1, d2, _, _, _, d6⟩ := C58_decomposition solve row.length _ _ 0 tol f hf
  obtain ⟨_, i2, _, _, i5, _⟩ := C58_iteration_control solve row.length _ _ 0 tol f (by exact_mod_cast hf)
  have hfreq : f.frequency = (r.fundamentalBin : ℝ) / row.length := by rw [(i5 rfl).2.1, i2 _ rfl]
  have hres : ∀ t, f.residuals t = row.getD t 0 - sineAt f.amplitude ((r.fundamentalBin : ℝ) / row.length) f.phase f.dcOffset t := by
    intro t
    have := d1 t
    rw [d2 t, hfreq] at this
    linarith
  have hbest : IsBestSine row.length r.fundamentalBin (fun n => row.getD n 0) f.amplitude f.phase f.dcOffset := by
    intro A' φ' C'
    have hl := (C58_least_squares solve hs row.length _ _ tol f hf).1 (A' * Real.cos φ') (-(A' * Real.sin φ')) C'
    rw [sum_congr rfl fun n _ => by rw [hres n]] at hl
    refine hl.trans (le_of_eq (sum_congr rfl fun n _ => ?_))
    rw [sineAt_parts]
    rw [show 2 * Real.pi * ((r.fundamentalBin : ℝ) / row.length) * n = 2 * Real.pi * (r.fundamentalBin * n / row.length) by ring]
  obtain ⟨e1, e2⟩ := C95_sndr_is_sinad lib a ha row V hV hpk r h hb hbN _ _ _ hbest
  refine ⟨?_, e2⟩
  rw [e1]
  have hN : (row.length : ℝ) ≠ 0 := by exact_mod_cast (by omega : row.length ≠ 0)
  have hr : residualPower row.length r.fundamentalBin (fun n => row.getD n 0) f.amplitude f.phase f.dcOffset = f.rmse ^ 2 := by
    unfold residualPower
    rw [sum_congr rfl fun n _ => by rw [← hres n], ← (d6 (by omega)).2]
    field_simp
  rw [hr]

/-! ## A coherent sine with any error added -/

theorem bin_add (N b : ℕ) (x y : ℕ → ℝ) : binCos N b (fun n => x n + y n) = binCos N b x + binCos N b y ∧
    binSin N b (fun n => x n + y n) = binSin N b x + binSin N b y := by
  constructor
  · unfold binCos
    rw [← mul_add, ← sum_add_distrib]
    congr 1
    exact sum_congr rfl fun n _ => by ring
  · unfold binSin
    rw [← mul_add, ← sum_add_distrib]
    congr 1
    exact sum_congr rfl fun n _ => by ring

theorem bin_congr (N b : ℕ) (x y : ℕ → ℝ) (h : ∀ n < N, x n = y n) : binCos N b x = binCos N b y ∧ binSin N b x = binSin N b y := by
  constructor
  · unfold binCos
    rw [sum_congr rfl fun n hn => by rw [h n (mem_range.mp hn)]]
  · unfold binSin
    rw [sum_congr rfl fun n hn => by rw [h n (mem_range.mp hn)]]

theorem bin_sine (N b : ℕ) (hb : 0 < b) (hbN : 2 * b < N) (A φ C : ℝ) :
    binCos N b (sineAt A ((b : ℝ) / N) φ C) = A * Real.cos φ ∧ binSin N b (sineAt A ((b : ℝ) / N) φ C) = -(A * Real.sin φ) := by
  obtain ⟨s1, s2, s3, s4, s5⟩ := bin_sums (N := N) (b := b) hb hbN
  have hN : (N : ℝ) ≠ 0 := by exact_mod_cast (by omega : N ≠ 0)
  constructor
  · unfold binCos
    have : ∀ n ∈ range N, sineAt A ((b : ℝ) / N) φ C n * Real.cos (2 * Real.pi * (b * n / N))
        = A * Real.cos φ * Real.cos (2 * Real.pi * (b * n / N)) ^ 2
          + -(A * Real.sin φ) * (Real.cos (2 * Real.pi * (b * n / N)) * Real.sin (2 * Real.pi * (b * n / N)))
          + C * Real.cos (2 * Real.pi * (b * n / N)) := by
      intro n _
      rw [sineAt_parts]
      ring
    rw [sum_congr rfl this, sum_add_distrib, sum_add_distrib, ← mul_sum, ← mul_sum, ← mul_sum, s1, s3, s5]
    field_simp
    ring
  · unfold binSin
    have : ∀ n ∈ range N, sineAt A ((b : ℝ) / N) φ C n * Real.sin (2 * Real.pi * (b * n / N))
        = A * Real.cos φ * (Real.cos (2 * Real.pi * (b * n / N)) * Real.sin (2 * Real.pi * (b * n / N)))
          + -(A * Real.sin φ) * Real.sin (2 * Real.pi * (b * n / N)) ^ 2
          + C * Real.sin (2 * Real.pi * (b * n / N)) := by
      intro n _
      rw [sineAt_parts]
      ring
    rw [sum_congr rfl this, sum_add_distrib, sum_add_distrib, ← mul_sum, ← mul_sum, ← mul_sum, s2, s4, s5]
    field_simp
    ring

/-- The projection of a record on a bin is at most twice its mean square. -/
private theorem bin_bound (N b : ℕ) (hb : 0 < b) (hbN : 2 * b < N) (e : ℕ → ℝ) (σ : ℝ) (he : ∑ n ∈ range N, e n ^ 2 ≤ N * σ ^ 2) :
    binCos N b e ^ 2 + binSin N b e ^ 2 ≤ 2 * σ ^ 2 := by
  have hN : (0 : ℝ) < N := by exact_mod_cast (by omega : 0 < N)
  have h1 := bin_pythagoras e hb hbN 0 0 0
  have h2 := bin_pythagoras e hb hbN (binCos N b e) (binSin N b e) 0
  have hp : 0 ≤ ∑ n ∈ range N, (e n - (binCos N b e * Real.cos (2 * Real.pi * (b * n / N)) + binSin N b e * Real.sin (2 * Real.pi * (b * n / N)) + 0)) ^ 2 :=
    sum_nonneg fun n _ => sq_nonneg _
  have e0 : ∑ n ∈ range N, (e n - (0 * Real.cos (2 * Real.pi * (b * n / N)) + 0 * Real.sin (2 * Real.pi * (b * n / N)) + 0)) ^ 2 = ∑ n ∈ range N, e n ^ 2 :=
    sum_congr rfl fun n _ => by ring
  rw [e0] at h1
  rw [h2] at hp
  simp only [sub_self] at hp
  have : N / 2 * (binCos N b e ^ 2 + binSin N b e ^ 2) ≤ N * σ ^ 2 := by nlinarith
  have h3 : (N : ℝ) * ((binCos N b e ^ 2 + binSin N b e ^ 2) / 2) ≤ N * σ ^ 2 := by linarith
  have := le_of_mul_le_mul_left h3 hN
  linarith

/-- A coherent sine plus an error of rms at most `σ`: amplitude `Am` of the best sine at its bin, and power of the rest. -/
private theorem sine_plus_error (N b : ℕ) (hb : 0 < b) (hbN : 2 * b < N) (x : ℕ → ℝ) (A φ D σ : ℝ) (e : ℕ → ℝ) (hA : 0 ≤ A)
    (hrow : ∀ n < N, x n = sineAt A ((b : ℝ) / N) φ D n + e n) (he : ∑ n ∈ range N, e n ^ 2 ≤ N * σ ^ 2) :
    ∃ u Am : ℝ, 0 ≤ u ∧ u ^ 2 ≤ 2 * σ ^ 2 ∧ |Am - A| ≤ u ∧ Am ^ 2 = binCos N b x ^ 2 + binSin N b x ^ 2 ∧
      2 / N * ∑ n ∈ range N, (x n - recMean N x) ^ 2 - Am ^ 2 ≤ 2 * σ ^ 2 - u ^ 2 := by
  have hNR : (0 : ℝ) < N := by exact_mod_cast (by omega : 0 < N)
  obtain ⟨c1, c2⟩ := bin_congr N b x (fun n => sineAt A ((b : ℝ) / N) φ D n + e n) hrow
  obtain ⟨a1, a2⟩ := bin_add N b (sineAt A ((b : ℝ) / N) φ D) e
  obtain ⟨b1, b2⟩ := bin_sine N b hb hbN A φ D
  rw [a1, b1] at c1
  rw [a2, b2] at c2
  have hub := bin_bound N b hb hbN e σ he
  have hpy := bin_pythagoras x hb hbN (A * Real.cos φ) (-(A * Real.sin φ)) D
  have hes : ∑ n ∈ range N, (x n - (A * Real.cos φ * Real.cos (2 * Real.pi * (b * n / N)) + -(A * Real.sin φ) * Real.sin (2 * Real.pi * (b * n / N)) + D)) ^ 2
      = ∑ n ∈ range N, e n ^ 2 := by
    refine sum_congr rfl fun n hn => ?_
    rw [← sineAt_parts, hrow n (mem_range.mp hn)]
    ring
  rw [hes] at hpy
  generalize binCos N b x = α at *
  generalize binSin N b x = β at *
  generalize binCos N b e = p at *
  generalize binSin N b e = q at *
  have hu2 := Real.sq_sqrt (show 0 ≤ p ^ 2 + q ^ 2 by positivity)
  have hm2 := Real.sq_sqrt (show 0 ≤ α ^ 2 + β ^ 2 by positivity)
  have hcplx : ∀ y z : ℝ, ‖(⟨y, z⟩ : ℂ)‖ = Real.sqrt (y ^ 2 + z ^ 2) := by
    intro y z
    rw [Complex.norm_def, Complex.normSq_apply]
    congr 1
    simp only
    ring
  refine ⟨Real.sqrt (p ^ 2 + q ^ 2), Real.sqrt (α ^ 2 + β ^ 2), Real.sqrt_nonneg _, by rw [hu2]; exact hub, ?_, hm2, ?_⟩
  · have t := abs_norm_sub_norm_le (⟨α, β⟩ : ℂ) ⟨A * Real.cos φ, -(A * Real.sin φ)⟩
    rw [hcplx, hcplx] at t
    have e1 : (A * Real.cos φ) ^ 2 + (-(A * Real.sin φ)) ^ 2 = A ^ 2 := by linear_combination A ^ 2 * Real.sin_sq_add_cos_sq φ
    have e2 : (⟨α, β⟩ : ℂ) - ⟨A * Real.cos φ, -(A * Real.sin φ)⟩ = ⟨p, q⟩ := by
      apply Complex.ext
      · simp only [Complex.sub_re]; linarith
      · simp only [Complex.sub_im]; linarith
    rw [e1, e2, hcplx, Real.sqrt_sq hA] at t
    exact t
  · rw [hu2, hm2]
    have d1 : A * Real.cos φ - α = -p := by linarith
    have d2 : -(A * Real.sin φ) - β = -q := by linarith
    rw [d1, d2] at hpy
    have t := mul_nonneg hNR.le (sq_nonneg (D - recMean N x))
    have h1 : ∑ n ∈ range N, (x n - recMean N x) ^ 2 ≤ N * (σ ^ 2 - (p ^ 2 + q ^ 2) / 2 + (α ^ 2 + β ^ 2) / 2) := by nlinarith
    have h2 : 2 / (N : ℝ) * ∑ n ∈ range N, (x n - recMean N x) ^ 2 ≤ 2 / N * (N * (σ ^ 2 - (p ^ 2 + q ^ 2) / 2 + (α ^ 2 + β ^ 2) / 2)) :=
      mul_le_mul_of_nonneg_left h1 (by positivity)
    have h3 : 2 / (N : ℝ) * (N * (σ ^ 2 - (p ^ 2 + q ^ 2) / 2 + (α ^ 2 + β ^ 2) / 2)) = 2 * σ ^ 2 - (p ^ 2 + q ^ 2) + (α ^ 2 + β ^ 2) := by
      field_simp
    linarith

theorem ratio_bound (A u Am s V2 d pb : ℝ) (hs : 0 < s) (hV : 0 < V2) (hd : 0 < d) (huA : u ≤ A) (hlow : A - u ≤ Am) (hpb : pb = Am ^ 2 / V2)
    (hdle : d ≤ (2 * s - u ^ 2) / V2) : max (A ^ 2 / 2 / s - 1) 0 ≤ pb / d := by
  have hpn : 0 ≤ pb := by rw [hpb]; positivity
  apply max_le _ (div_nonneg hpn hd.le)
  rw [le_div_iff₀ hd]
  by_cases hc : A ^ 2 / 2 / s - 1 ≤ 0
  · exact (mul_nonpos_of_nonpos_of_nonneg hc hd.le).trans hpn
  · push Not at hc
    refine (mul_le_mul_of_nonneg_left hdle hc.le).trans ?_
    rw [hpb, ← mul_div_assoc]
    apply div_le_div_of_nonneg_right _ hV.le
    have h1 : (A ^ 2 / 2 / s - 1) * (2 * s - u ^ 2) = (A - u) ^ 2 - (2 * s - A * u) ^ 2 / (2 * s) := by field_simp; ring
    have h2 : 0 ≤ (2 * s - A * u) ^ 2 / (2 * s) := by positivity
    have h3 : (A - u) ^ 2 ≤ Am ^ 2 := pow_le_pow_left₀ (by linarith) hlow 2
    linarith

theorem list_sum_getD (l : List ℝ) : l.sum = ∑ i ∈ range l.length, l.getD i 0 := by
  rw [← list_sum_map_range]
  congr 1
  apply List.ext_getElem
  · simp
  · intro i h1 h2
    simp only [List.getElem_map, List.getElem_range]
    rw [List.getD_eq_getElem?_getD, List.getElem?_eq_getElem h1]
    rfl

/-- **C95 (bounded error).** A coherent sine of amplitude `A` on any offset, with any error whose rms is at most `σ < A/2`, analysed without
window: the call succeeds, the fundamental is found at the true bin, the reported signal amplitude is within `√2 σ` of `A`, and the
reported SNDR is at least `A^2 / (2 σ^2) - 1` (with the floor of 1e-20 of full scale added to `σ^2`). Nothing is assumed about the shape of the
error. -/
theorem C95_bounded_error (lib : WinLib) (a : SpectrumArgs) (ha : PlainCall a) (row : List ℝ) (V : ℝ) (hV : 0 < V)
    (hpk : peakAmplitude [row] a.scale = .ok V) (b : ℕ) (hb : 0 < b) (hbN : 2 * b < row.length) (A φ D σ : ℝ) (e : ℕ → ℝ)
    (hrow : ∀ n < row.length, row.getD n 0 = sineAt A ((b : ℝ) / row.length) φ D n + e n)
    (hσ : 0 ≤ σ) (he : ∑ n ∈ range row.length, e n ^ 2 ≤ row.length * σ ^ 2) (hA : 2 * σ < A) :
    ∃ r, computeSpectrum lib [row] a = .ok r ∧ r.fundamentalBin = b ∧
      (∃ Am, |Am - A| ≤ Real.sqrt 2 * σ ∧ r.sigPwr = 10 * Real.logb 10 (max ((Am / V) ^ 2) (1 / 10 ^ 30))) ∧
      dB (max (A ^ 2 / 2 / (σ ^ 2 + V ^ 2 / 2 / 10 ^ 20) - 1) 0) ≤ r.sndr := by
  have hN0 : 0 < row.length := by omega
  have hprep : prepareFftInput [row] a.scale = .ok [(removeDc row).map (· / V)] := by
    have ho : orient [row] = [row] := by simp [orient]
    unfold prepareFftInput
    simp only [ho, hpk, List.map_cons, List.map_nil]
    rw [if_pos hV.ne']
  obtain ⟨r, h⟩ := (C63_compute_spectrum_total lib [row] a _ hprep (by simpa [removeDc] using hN0)).mpr
    ⟨by rw [ha.osr]; exact one_pos, ha.harm, ha.nf0, ha.nf4⟩
  refine ⟨r, h, ?_⟩
  obtain ⟨_, hrN, hpl, hp0, hpk', hsum⟩ := boxcar_spectrum lib a ha.win row V hV.ne' hpk ha.coh ha.cut r h
  obtain ⟨_, _, _, _, _, _, _, _, _, hnn, _, _⟩ := computeSpectrum_ok lib _ a r h
  obtain ⟨hf, hmet⟩ := plain_metrics lib a ha row V hV.ne' hpk r h
  obtain ⟨u, Am, hu0, hu2, hAu, hm2, hR⟩ := sine_plus_error row.length b hb hbN (fun n => row.getD n 0) A φ D σ e (by linarith) hrow he
  have hlow : A - u ≤ Am := by have := (abs_le.mp hAu).1; linarith
  have huA : u ≤ A := by
    by_contra hc
    push Not at hc
    nlinarith
  have hus : u ≤ Real.sqrt 2 * σ := by
    rw [← Real.sqrt_sq hσ, ← Real.sqrt_mul (by norm_num), ← Real.sqrt_sq hu0]
    exact Real.sqrt_le_sqrt hu2
  have hV2 : 0 < V ^ 2 := by positivity
  -- the located bin and everything else
  have hpb : r.power.getD b 0 = Am ^ 2 / V ^ 2 := by
    have hNR : (row.length : ℝ) ≠ 0 := by exact_mod_cast hN0.ne'
    rw [hpk' b hb (by omega) (by omega), norm_bin _ hN0.ne', ← hm2]
    unfold oneSided
    simp only
    rw [if_neg (by omega), if_neg (by omega)]
    field_simp
  have hrest : r.power.sum - r.power.getD b 0 ≤ (2 * σ ^ 2 - u ^ 2) / V ^ 2 := by
    rw [hsum, hpb, ← sub_div]
    exact div_le_div_of_nonneg_right hR hV2.le
  have hlist := list_sum_getD r.power
  have hpeak : ∀ k, k ≤ row.length / 2 → k ≠ b → r.power.getD k 0 < r.power.getD b 0 := by
    intro k hk hkb
    have h1 : r.power.getD k 0 + r.power.getD b 0 ≤ r.power.sum := by
      rw [hlist, ← sum_pair (f := fun i => r.power.getD i 0) hkb]
      apply sum_le_sum_of_subset_of_nonneg
      · intro i hi
        rw [mem_insert, mem_singleton] at hi
        rw [mem_range]
        omega
      · exact fun i _ _ => getD_nonneg r.power hnn i
    have h2 : (2 * σ ^ 2 - u ^ 2) / V ^ 2 < Am ^ 2 / V ^ 2 := by
      apply div_lt_div_of_pos_right _ hV2
      have h3 : (A - u) ^ 2 ≤ Am ^ 2 := pow_le_pow_left₀ (by linarith) hlow 2
      nlinarith [sq_nonneg (u - A / 2)]
    linarith
  have hfund : r.fundamentalBin = b := by
    rw [hf]
    obtain ⟨f1, f2, f3, _⟩ := C27_fundamental_strongest r.power r.power.length le_rfl (by omega)
    by_contra hne
    have h4 := hpeak (fundamentalBin r.power r.power.length) (by omega) hne
    have h5 := f3 b (by omega) (by omega)
    linarith
  rw [hfund] at hmet
  obtain ⟨hs, hg⟩ := hmet hb hbN
  refine ⟨hfund, ⟨Am, hAu.trans hus, ?_⟩, ?_⟩
  · rw [hg, hpb, div_pow]
  · rw [hs]
    have hbs : r.power.getD b 0 ≤ r.power.sum := by
      rw [hlist]
      exact single_le_sum (f := fun i => r.power.getD i 0) (fun i _ => getD_nonneg r.power hnn i) (mem_range.mpr (by omega))
    have heps : (0 : ℝ) < 1 / 10 ^ 20 := by positivity
    apply dB_mono (le_max_right _ _)
    refine ratio_bound A u Am _ (V ^ 2) _ _ (by positivity) hV2 (by linarith) huA hlow hpb ?_
    have : (2 * (σ ^ 2 + V ^ 2 / 2 / 10 ^ 20) - u ^ 2) / V ^ 2 = (2 * σ ^ 2 - u ^ 2) / V ^ 2 + 1 / 10 ^ 20 := by field_simp; ring
    rw [this]
    linarith

/-! ## Converters -/

/-- **C95 (any converter).** If every sample of a coherent sine is converted with an error between `0` and `w` (below the input), with
`w < A`, the reported SNDR is at least `2 (A / w)^2 - 1`. -/
theorem C95_error_band (lib : WinLib) (a : SpectrumArgs) (ha : PlainCall a) (row : List ℝ) (V : ℝ) (hV : 0 < V)
    (hpk : peakAmplitude [row] a.scale = .ok V) (b : ℕ) (hb : 0 < b) (hbN : 2 * b < row.length) (A φ D w : ℝ) (hw : 0 ≤ w) (hA : w < A)
    (hrow : ∀ n < row.length, 0 ≤ sineAt A ((b : ℝ) / row.length) φ D n - row.getD n 0 ∧
      sineAt A ((b : ℝ) / row.length) φ D n - row.getD n 0 ≤ w) :
    ∃ r, computeSpectrum lib [row] a = .ok r ∧ r.fundamentalBin = b ∧
      dB (max (A ^ 2 / 2 / (w ^ 2 / 4 + V ^ 2 / 2 / 10 ^ 20) - 1) 0) ≤ r.sndr := by
  have he : ∑ n ∈ range row.length, (row.getD n 0 - sineAt A ((b : ℝ) / row.length) φ (D - w / 2) n) ^ 2 ≤ row.length * (w / 2) ^ 2 := by
    refine (sum_le_sum (g := fun _ => (w / 2) ^ 2) fun n hn => ?_).trans (le_of_eq (by rw [sum_const, card_range, nsmul_eq_mul]))
    obtain ⟨t1, t2⟩ := hrow n (mem_range.mp hn)
    have : sineAt A ((b : ℝ) / row.length) φ (D - w / 2) n = sineAt A ((b : ℝ) / row.length) φ D n - w / 2 := by
      unfold sineAt; ring
    rw [this]
    exact sq_le_sq' (by linarith) (by linarith)
  obtain ⟨r, h1, h2, _, h3⟩ := C95_bounded_error lib a ha row V hV hpk b hb hbN A φ (D - w / 2) (w / 2) _ (fun n _ => by ring) (by linarith) he
    (by linarith)
  rw [show (w / 2) ^ 2 = w ^ 2 / 4 by ring] at h3
  exact ⟨r, h1, h2, h3⟩

/-- **C95 (SAR with any weights).** A SAR converter whose weights are covered up to `eps` (binary, redundant or mismatched), driven by a
coherent sine inside its range and analysed with the converter's own range: the SNDR is at least `2 (A / (eps * FS))^2 - 1`. -/
theorem C95_sar_sndr (lib : WinLib) (a : SpectrumArgs) (ha : PlainCall a) (ws : List ℝ) (eps : ℝ) (heps : 0 ≤ eps) (hc : Covered eps ws)
    (vmin vmax : ℝ) (hv : vmin < vmax) (hscale : a.scale = .seq [vmin, vmax]) (N b : ℕ) (hb : 0 < b) (hbN : 2 * b < N) (A φ D : ℝ)
    (hA : eps * (vmax - vmin) < A) (hin : ∀ n < N, vmin ≤ sineAt A ((b : ℝ) / N) φ D n ∧
      sineAt A ((b : ℝ) / N) φ D n < vmin + (ws.sum + eps) * (vmax - vmin))
    (row : List ℝ) (hN : row.length = N) (hrow : ∀ n < N, sarRoundTrip (sineAt A ((b : ℝ) / N) φ D n) ws [vmin, vmax] = .ok (row.getD n 0)) :
    ∃ r, computeSpectrum lib [row] a = .ok r ∧ r.fundamentalBin = b ∧
      dB (max (A ^ 2 / 2 / ((eps * (vmax - vmin)) ^ 2 / 4 + ((vmax - vmin) / 2) ^ 2 / 2 / 10 ^ 20) - 1) 0) ≤ r.sndr := by
  subst hN
  have hd : 0 < vmax - vmin := by linarith
  refine C95_error_band lib a ha row ((vmax - vmin) / 2) (by linarith) (by rw [hscale]; rfl) b hb hbN A φ D _ (mul_nonneg heps hd.le) hA ?_
  intro n hn
  obtain ⟨y, hy, h1, h2⟩ := C13_redundancy_residue eps ws hc vmin vmax _ hv (hin n hn).1 (hin n hn).2
  rw [hrow n hn] at hy
  injection hy with hy
  rw [hy]
  exact ⟨h1, h2.le⟩

theorem quantize_band (bits : ℕ) (hbits : bits ≠ 0) (v vmin vmax : ℝ) (hv : vmin < vmax) (h0 : vmin ≤ v) (h1 : v ≤ vmax) :
    0 ≤ v - quantize v bits vmin vmax ∧ v - quantize v bits vmin vmax ≤ (vmax - vmin) / 2 ^ bits := by
  rcases lt_or_eq_of_le h1 with h | h
  · obtain ⟨t1, t2⟩ := (C53_quantizer bits v v vmin vmax hv).2.2.1 h0 h
    exact ⟨t1, t2.le⟩
  · obtain ⟨y, hy, _, _, h3⟩ := C11_sar_error_below_lsb bits hbits v vmin vmax hv
    rw [C16_quantizer_agrees_with_sar bits hbits v vmin vmax hv] at hy
    injection hy with hy
    rw [hy, h3 h.ge, h]
    have : 0 ≤ (vmax - vmin) / 2 ^ bits := div_nonneg (by linarith) (by positivity)
    constructor <;> linarith

/-- **C95 (the number of bits shows).** An ideal converter of 2 to 30 bits, driven by a full-scale coherent sine of any frequency, phase and
record length and analysed with its own range: the fundamental is found and the reported ENOB is more than `bits - 1`. -/
theorem C95_ideal_converter_enob (lib : WinLib) (a : SpectrumArgs) (ha : PlainCall a) (bits : ℕ) (h2 : 2 ≤ bits) (h30 : bits ≤ 30)
    (vmin vmax : ℝ) (hv : vmin < vmax) (hscale : a.scale = .seq [vmin, vmax]) (N b : ℕ) (hb : 0 < b) (hbN : 2 * b < N) (φ : ℝ)
    (row : List ℝ) (hN : row.length = N)
    (hrow : ∀ n < N, row.getD n 0 = quantize (sineAt ((vmax - vmin) / 2) ((b : ℝ) / N) φ ((vmin + vmax) / 2) n) bits vmin vmax) :
    ∃ r, computeSpectrum lib [row] a = .ok r ∧ r.fundamentalBin = b ∧ (((bits : ℝ) - 1 : ℝ) : EReal) < r.enob := by
  subst hN
  have hd : 0 < vmax - vmin := by linarith
  have hp2 : (4 : ℝ) ≤ 2 ^ bits := by
    calc (4 : ℝ) = 2 ^ 2 := by norm_num
      _ ≤ 2 ^ bits := pow_le_pow_right₀ (by norm_num) h2
  have hlsb : (vmax - vmin) / 2 ^ bits < (vmax - vmin) / 2 := div_lt_div_of_pos_left hd (by norm_num) (by linarith)
  obtain ⟨r, hr, hf, hs⟩ := C95_error_band lib a ha row ((vmax - vmin) / 2) (by linarith) (by rw [hscale]; rfl) b hb hbN ((vmax - vmin) / 2) φ
    ((vmin + vmax) / 2) ((vmax - vmin) / 2 ^ bits) (by positivity) hlsb (fun n hn => by
      rw [hrow n hn]
      apply quantize_band bits (by omega) _ vmin vmax hv
      · unfold sineAt
        nlinarith [Real.neg_one_le_cos (2 * Real.pi * ((b : ℝ) / row.length) * n + φ)]
      · unfold sineAt
        nlinarith [Real.cos_le_one (2 * Real.pi * ((b : ℝ) / row.length) * n + φ)])
  refine ⟨r, hr, hf, ?_⟩
  rw [(C62_noise_floor_identities lib [row] a r hr).2.2.2]
  have hbits : (bits : ℝ) - 1 = ((bits - 1 : ℕ) : ℝ) := by rw [Nat.cast_sub (by omega)]; simp
  rw [hbits]
  apply enob_above (bits - 1) _ _ _ hs
  refine le_max_of_le_left ?_
  obtain ⟨k, rfl⟩ : ∃ k, bits = k + 1 := ⟨bits - 1, by omega⟩
  rw [Nat.add_sub_cancel]
  have e : ((vmax - vmin) / 2) ^ 2 / 2 / (((vmax - vmin) / 2 ^ (k + 1)) ^ 2 / 4 + ((vmax - vmin) / 2) ^ 2 / 2 / 10 ^ 20)
      = 2 * 4 ^ k / (1 + 2 * 4 ^ k / 10 ^ 20) := by
    have : (4 : ℝ) ^ k = (2 ^ k) ^ 2 := by rw [← pow_mul, mul_comm, pow_mul]; norm_num
    rw [this, pow_succ (2 : ℝ) k]
    have hk : (2 : ℝ) ^ k ≠ 0 := by positivity
    generalize (2 : ℝ) ^ k = z at *
    field_simp
    ring
  rw [e]
  have h4 : (4 : ℝ) ≤ 4 ^ k := by
    calc (4 : ℝ) = 4 ^ 1 := by norm_num
      _ ≤ 4 ^ k := pow_le_pow_right₀ (by norm_num) (by omega)
  have h4' : (4 : ℝ) ^ k ≤ 4 ^ 29 := pow_le_pow_right₀ (by norm_num) (by omega)
  generalize (4 : ℝ) ^ k = z at *
  have h1 : 2 * z / (1 + 2 * z / 10 ^ 20) ≥ 2 * z / (101 / 100) := by
    apply div_le_div_of_nonneg_left (by linarith) (by positivity)
    norm_num at h4' ⊢
    linarith
  have h2 : 2 * z / (101 / 100) = 200 / 101 * z := by ring
  linarith

/-- **C95 (no upper bound).** The reported ENOB may exceed the number of bits by any margin the arithmetic allows: a one-bit converter sampled four
times per period reports more than 32 bits, because its error repeats with the signal. -/
theorem C95_upper_bound_false (lib : WinLib) (a : SpectrumArgs) (ha : PlainCall a) (hscale : a.scale = .seq [-1, 1]) :
    ∃ (φ : ℝ) (row : List ℝ) (r : SpectrumResult), row = ((List.range 4).map fun (n : ℕ) => quantize (sineAt 1 (1 / 4) φ 0 n) 1 (-1) 1) ∧
      computeSpectrum lib [row] a = .ok r ∧ ((32 : ℝ) : EReal) < r.enob := by
  set c := Real.sqrt 2 / 2 with hc
  have hc2 : c ^ 2 = 1 / 2 := by rw [hc, div_pow, Real.sq_sqrt (by norm_num)]; norm_num
  have hc0 : 0 < c := by positivity
  have hc1 : c < 1 := by nlinarith
  have hq1 : quantize c 1 (-1) 1 = 0 := by
    unfold quantize clip
    have : ⌊(c - -1) / ((1 - -1) / 2 ^ 1)⌋ = 1 := by
      rw [Int.floor_eq_iff]
      norm_num
      constructor <;> linarith
    simp only
    rw [this]
    norm_num
  have hq2 : quantize (-c) 1 (-1) 1 = -1 := by
    unfold quantize clip
    have : ⌊(-c - -1) / ((1 - -1) / 2 ^ 1)⌋ = 0 := by
      rw [Int.floor_eq_iff]
      norm_num
      constructor <;> linarith
    simp only
    rw [this]
    norm_num
  have hcos : ∀ n : ℕ, n < 4 → Real.cos (2 * Real.pi * (1 / 4) * n + Real.pi / 4) = if n = 0 ∨ n = 3 then c else -c := by
    intro n hn
    interval_cases n
    · rw [if_pos (by decide)]
      rw [show 2 * Real.pi * (1 / 4) * ((0 : ℕ) : ℝ) + Real.pi / 4 = Real.pi / 4 by push_cast; ring, Real.cos_pi_div_four]
    · rw [if_neg (by decide)]
      rw [show 2 * Real.pi * (1 / 4) * ((1 : ℕ) : ℝ) + Real.pi / 4 = Real.pi - Real.pi / 4 by push_cast; ring, Real.cos_pi_sub, Real.cos_pi_div_four]
    · rw [if_neg (by decide)]
      rw [show 2 * Real.pi * (1 / 4) * ((2 : ℕ) : ℝ) + Real.pi / 4 = Real.pi / 4 + Real.pi by push_cast; ring, Real.cos_add_pi, Real.cos_pi_div_four]
    · rw [if_pos (by decide)]
      rw [show 2 * Real.pi * (1 / 4) * ((3 : ℕ) : ℝ) + Real.pi / 4 = 2 * Real.pi - Real.pi / 4 by push_cast; ring, Real.cos_two_pi_sub,
        Real.cos_pi_div_four]
  set row := (List.range 4).map fun (n : ℕ) => quantize (sineAt 1 (1 / 4) (Real.pi / 4) 0 n) 1 (-1) 1 with hrow
  have hlen : row.length = 4 := by simp [hrow]
  have hget : ∀ n < 4, row.getD n 0 = if n = 0 ∨ n = 3 then 0 else -1 := by
    intro n hn
    rw [hrow, List.getD_eq_getElem?_getD, List.getElem?_map, List.getElem?_range hn]
    simp only [Option.map_some, Option.getD_some]
    unfold sineAt
    rw [hcos n hn, one_mul, add_zero]
    split_ifs
    · exact hq1
    · exact hq2
  obtain ⟨r, h1, _, _, h3⟩ := C95_bounded_error lib a ha row 1 one_pos (by rw [hscale]; norm_num [peakAmplitude]) 1 one_pos (by rw [hlen]; norm_num) c
    (Real.pi / 4) (-(1 / 2)) 0 (fun _ => 0) (fun n hn => by
      rw [hlen] at hn ⊢
      unfold sineAt
      push_cast
      rw [hget n hn, hcos n hn]
      split_ifs
      · linear_combination -hc2
      · linear_combination hc2) le_rfl (by simp) (by linarith)
  refine ⟨Real.pi / 4, row, r, hrow, h1, ?_⟩
  rw [(C62_noise_floor_identities lib [row] a r h1).2.2.2]
  have := enob_above 32 _ ?_ _ h3
  · exact_mod_cast this
  · refine le_max_of_le_left ?_
    rw [hc2]
    norm_num

/-! ## Concrete cases -/

example : PlainCall { win := "boxcar", sideBin := some 0, scale := .seq [0, 1] } :=
  ⟨Or.inl rfl, rfl, rfl, rfl, rfl, rfl, by norm_num, by norm_num, by norm_num⟩

/-- 64 samples, 5 periods, 12 bits over `[0, 1]`: more than 11 effective bits, and the number is the SINAD of the best sine. -/
example (lib : WinLib) : ∃ (row : List ℝ) (r : SpectrumResult) (A φ C : ℝ),
    computeSpectrum lib [row] { win := "boxcar", sideBin := some 0, scale := .seq [0, 1] } = .ok r ∧ ((11 : ℝ) : EReal) < r.enob ∧
    IsBestSine 64 5 (fun n => row.getD n 0) A φ C ∧
    r.sndr = dB (A ^ 2 / 2 / (residualPower 64 5 (fun n => row.getD n 0) A φ C + (1 / 2) ^ 2 / 2 / 10 ^ 20)) := by
  set row : List ℝ := (List.range 64).map fun (n : ℕ) => quantize (sineAt ((1 - 0) / 2) (((5 : ℕ) : ℝ) / (64 : ℕ)) 1 ((0 + 1) / 2) n) 12 0 1 with hrow
  have hlen : row.length = 64 := by simp [hrow]
  have hplain : PlainCall { win := "boxcar", sideBin := some 0, scale := .seq [0, 1] } :=
    ⟨Or.inl rfl, rfl, rfl, rfl, rfl, rfl, by norm_num, by norm_num, by norm_num⟩
  obtain ⟨r, h1, h2, h3⟩ := C95_ideal_converter_enob lib _ hplain 12 (by norm_num) (by norm_num) 0 1 one_pos rfl 64 5 (by norm_num) (by norm_num) 1 row
    hlen (fun n hn => by
      rw [hrow, List.getD_eq_getElem?_getD, List.getElem?_map, List.getElem?_range hn]
      rfl)
  obtain ⟨A, φ, C, _, hb⟩ := exists_bestSine 64 5 (by norm_num) (by norm_num) (fun n => row.getD n 0)
  refine ⟨row, r, A, φ, C, h1, ?_, hb, ?_⟩
  · have e : ((12 : ℕ) : ℝ) - 1 = 11 := by norm_num
    rwa [e] at h3
  · have := (C95_sndr_is_sinad lib _ hplain row (1 / 2) (by norm_num) (by norm_num [peakAmplitude]) r h1 (by rw [h2]; norm_num)
      (by rw [h2, hlen]; norm_num) A φ C (by rw [h2, hlen]; exact hb)).1
    rwa [h2, hlen] at this

/-- The redundant array `[8, 4, 4, 2, 1] / 20` with a sine of a quarter of the range. -/
example (lib : WinLib) : ∃ (row : List ℝ) (r : SpectrumResult),
    computeSpectrum lib [row] { win := "boxcar", sideBin := some 0, scale := .seq [0, 1] } = .ok r ∧ r.fundamentalBin = 3 := by
  have hc : Covered (1 / 20 : ℝ) [8 / 20, 4 / 20, 4 / 20, 2 / 20, 1 / 20] := by
    simp only [Covered, List.sum_cons, List.sum_nil]
    norm_num
  have hin : ∀ n : ℕ, (0 : ℝ) ≤ sineAt (1 / 4) (((3 : ℕ) : ℝ) / (32 : ℕ)) 0 (1 / 2) n ∧ sineAt (1 / 4) (((3 : ℕ) : ℝ) / (32 : ℕ)) 0 (1 / 2) n < 0 + (([8 / 20, 4 / 20, 4 / 20, 2 / 20, 1 / 20] : List ℝ).sum + 1 / 20) * (1 - 0) := by
    intro n
    have h1 := Real.cos_le_one (2 * Real.pi * (((3 : ℕ) : ℝ) / (32 : ℕ)) * n + 0)
    have h2 := Real.neg_one_le_cos (2 * Real.pi * (((3 : ℕ) : ℝ) / (32 : ℕ)) * n + 0)
    unfold sineAt
    simp only [List.sum_cons, List.sum_nil]
    constructor <;> linarith
  choose y hy using fun n => C13_redundancy_residue (1 / 20 : ℝ) _ hc 0 1 _ one_pos (hin n).1 (hin n).2
  set row : List ℝ := (List.range 32).map y with hrow
  obtain ⟨r, h1, h2, _⟩ := C95_sar_sndr lib { win := "boxcar", sideBin := some 0, scale := .seq [0, 1] }
    ⟨Or.inl rfl, rfl, rfl, rfl, rfl, rfl, by norm_num, by norm_num, by norm_num⟩ _ (1 / 20) (by norm_num) hc 0 1 one_pos rfl 32 3 (by norm_num)
    (by norm_num) (1 / 4) 0 (1 / 2) (by norm_num) (fun n _ => hin n) row (by simp [hrow]) (fun n hn => by
      rw [hrow, List.getD_eq_getElem?_getD, List.getElem?_map, List.getElem?_range hn]
      exact (hy n).1)
  exact ⟨row, r, h1, h2⟩

/-- The sine fit of the same kind of record exists with some least-squares solver, and agrees. -/
example (lib : WinLib) (row : List ℝ) (r : SpectrumResult) (hlen : row.length = 64)
    (h : computeSpectrum lib [row] { win := "boxcar", sideBin := some 0, scale := .scalar 2 } = .ok r) (h1 : r.fundamentalBin = 7) :
    ∃ (solve : Lstsq) (f : SineFit), IsLstsq solve ∧ fitCore solve 64 (fun n => row.getD n 0) (some (7 / 64)) 0 (1 / 10 ^ 9) = .ok f ∧
      r.sndr = dB (f.amplitude ^ 2 / 2 / (f.rmse ^ 2 + 2 ^ 2 / 2 / 10 ^ 20)) := by
  obtain ⟨solve, hs⟩ := exists_lstsq
  refine ⟨solve, _, hs, rfl, ?_⟩
  refine (C95_agrees_with_sine_fit lib { win := "boxcar", sideBin := some 0, scale := .scalar 2 }
    ⟨Or.inl rfl, rfl, rfl, rfl, rfl, rfl, by norm_num, by norm_num, by norm_num⟩ row 2 (by norm_num) rfl r h (by omega) (by omega) solve hs (1 / 10 ^ 9) _ ?_).1
  rw [hlen, h1]
  push_cast
  rfl

end Verif
