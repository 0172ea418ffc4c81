import Verif.Proofs.Spectrum
import Verif.Theorems.Noise

/-!
# compute_spectrum as a whole: C28, C30, C37, C61, C62, C63
-/

namespace Verif

open Model Spec Finset

/-- **C28 (metrics).** In every successful `compute_spectrum` result, whatever the data and options, the reported SFDR (when
it is a number) is at least the reported SNDR. -/
theorem C28_compute_spectrum_sfdr_ge_sndr (lib : WinLib) (data : List (List ℝ)) (a : SpectrumArgs) (r : SpectrumResult)
    (h : computeSpectrum lib data a = .ok r) (s : EReal) (hs : r.sfdr = some s) : r.sndr ≤ s := by
  obtain ⟨d, n, _, _, _, hnl, _, _, _, hnn, _, hm⟩ := computeSpectrum_ok lib data a r h
  obtain ⟨bins, spur, noise, _, hspur, _, hr⟩ := spectrumMetrics_ok _ _ _ _ _ _ _ hm
  generalize r.power = p at *
  generalize sideBinOf lib a (d.headD []).length n p = sb at *
  subst hr
  simp only [assemble] at hs ⊢
  set sig := sigLinear a (signalPower p n sb (locateFundamental p n).1)
  split_ifs at hs with h1 h2
  · injection hs with hs
    rw [← hs]; exact le_top
  · injection hs with hs
    rw [← hs]
    have hb := (C28_spur_between p hnn n sb _ hnl spur.1 spur.2 hspur).1
    have hnad := noiseAndDistortion_nonneg p hnn n sb (locateFundamental p n).1 hnl
    have hpos : 0 < noiseAndDistortion p n sb (locateFundamental p n).1 + 1 / 10 ^ 20 := by positivity
    apply dB_mono (div_pos h1 hpos).le
    apply div_le_div_of_nonneg_left h1.le (not_le.mp h2)
    have : (0 : ℝ) < 1 / 10 ^ 20 := by positivity
    linarith

private theorem quickSums_eq (p : List ℝ) (n sb f : ℕ) :
    quickSums p n sb f = (signalPower p n sb f, noiseAndDistortion p n sb f) := by
  unfold quickSums signalPower noiseAndDistortion
  simp only
  congr 1
  split_ifs with h
  · rfl
  · congr 2
    apply List.ext_getElem
    · rw [zeroRange_length]
    · intro i h1 h2
      have e := zeroRange_getD (zeroRange p 0 (min (sb + 1) p.length)) (f - sb) (min (f + sb + 1) n) i
      rw [if_neg (by omega)] at e
      rw [List.getD_eq_getElem?_getD, List.getD_eq_getElem?_getD, List.getElem?_eq_getElem h1, List.getElem?_eq_getElem h2] at e
      exact e

/-- **C30.** For the same record, window, full scale and explicit `side_bin ≥ 0`, at OSR 1 without cutoff or assumed signal
power and in power-averaging mode, a successful `compute_spectrum` and `quick_sndr` report the same SNDR and ENOB. -/
theorem C30_quick_sndr_agrees (lib : WinLib) (data : List (List ℝ)) (a : SpectrumArgs) (r : SpectrumResult)
    (h : computeSpectrum lib data a = .ok r) (sb : ℕ) (hsb : a.sideBin = some sb) (hosr : a.osr = 1) (hcut : a.cutoff = 0)
    (hass : a.assumed = none) (hcoh : a.coherent = false) :
    quickSndr lib data a.win (some (sb : ℤ)) a.scale = .ok (r.sndr, r.enob) := by
  obtain ⟨d, n, hd, hn, _, _, _, _, _, _, hpow, hm⟩ := computeSpectrum_ok lib data a r h
  obtain ⟨bins, spur, noise, _, _, _, hr⟩ := spectrumMetrics_ok _ _ _ _ _ _ _ hm
  have hsb' : sideBinOf lib a (d.headD []).length n r.power = sb := by unfold sideBinOf; rw [hsb]
  have hp : (powerAverage (runsOf d (windowVector lib a.win (d.headD []).length)) (d.headD []).length).map
      (· * powerCorrection (windowGain (windowVector lib a.win (d.headD []).length) (d.headD []).length)
        (windowEnbw (windowVector lib a.win (d.headD []).length) (d.headD []).length)) = r.power := by
    rw [hpow]
    unfold applyCutoff rawSpectrum
    rw [if_neg (by rw [hcut]; exact lt_irrefl 0)]
    simp only [hcoh, Bool.false_eq_true, if_false]
  rw [hosr] at hn
  unfold quickSndr
  simp only [hd, hn, hp, quickSums_eq, Int.toNat_natCast]
  rw [hsb'] at hr
  have e1 : r.sndr = dB (signalPower r.power n sb (locateFundamental r.power n).1 /
      (noiseAndDistortion r.power n sb (locateFundamental r.power n).1 + 1 / 10 ^ 20)) := by
    conv_lhs => rw [hr]
    simp only [assemble, sigLinear, hass]
  have e2 : r.enob = enobOf r.sndr := by rw [hr]; rfl
  rw [e2, e1]

/-- **C30 (negative side bin).** `quick_sndr` treats a negative `side_bin` as zero. -/
theorem C30_negative_side_bin (lib : WinLib) (data : List (List ℝ)) (win : String) (s : ℤ) (hs : s ≤ 0)
    (scale : ScaleRange ℝ) : quickSndr lib data win (some s) scale = quickSndr lib data win (some 0) scale := by
  unfold quickSndr
  simp only [Int.toNat_of_nonpos hs, Int.toNat_zero]

/-- **C37 (SNR against SNDR).** With the harmonic-excluding method the reported SNR is at least the reported SNDR whenever
the noise-and-distortion power reaches the `1e-15` floor. -/
theorem C37_snr_ge_sndr (lib : WinLib) (data : List (List ℝ)) (a : SpectrumArgs) (r : SpectrumResult)
    (h : computeSpectrum lib data a = .ok r) (hnf : a.nfMethod = 3) (n' sb' : ℕ)
    (hn' : rfftInbandBinCount (r.N : ℤ) a.osr = .ok n') (hsb' : sb' = sideBinOf lib a r.N n' r.power)
    (hbig : 1 / 10 ^ 15 ≤ power (fun i => r.power.getD i 0) (nadBins n' sb' r.fundamentalBin)) :
    ∃ s, r.snr = some s ∧ r.sndr ≤ s := by
  obtain ⟨d, n, hd, hn, _, hnl, _, _, _, hnn, _, hm⟩ := computeSpectrum_ok lib data a r h
  obtain ⟨bins, spur, noise, _, _, hnoise, hr⟩ := spectrumMetrics_ok _ _ _ _ _ _ _ hm
  have hN : r.N = (d.headD []).length := by rw [hr]; rfl
  have hnn' : n' = n := by
    rw [hN, hn] at hn'; injection hn' with h; exact h.symm
  subst hnn'
  have hb : r.fundamentalBin = (locateFundamental r.power n').1 := by
    conv_lhs => rw [hr]
    rfl
  rw [hN] at hsb'
  rw [← hsb'] at hr hnoise
  rw [hb, ← C28_noise_and_distortion_spec _ _ _ _ hnl] at hbig
  have e1 : r.sndr = dB (sigLinear a (signalPower r.power n' sb' (locateFundamental r.power n').1) /
      (noiseAndDistortion r.power n' sb' (locateFundamental r.power n').1 + 1 / 10 ^ 20)) := by
    conv_lhs => rw [hr]
    rfl
  have e2 : r.snr = noise.map fun v => dB (sigLinear a (signalPower r.power n' sb' (locateFundamental r.power n').1) / v) := by
    conv_lhs => rw [hr]
    rfl
  generalize r.power = p at *
  rw [hnf] at hnoise
  have hnz : noise = some (max (excludeNoise (clearedInband p n' sb' ((locateFundamental p n').1 - sb')
      (min ((locateFundamental p n').1 + sb' + 1) n')) bins n') pFloor) := by
    unfold estimateNoisePower at hnoise
    rw [if_neg (by norm_num)] at hnoise
    simp only at hnoise
    rw [if_neg (by norm_num), if_neg (by norm_num), if_neg (by norm_num), if_pos (by norm_num)] at hnoise
    injection hnoise with hnoise
    exact hnoise.symm
  refine ⟨_, by rw [e2, hnz]; rfl, ?_⟩
  rw [e1]
  have hsig : 0 ≤ sigLinear a (signalPower p n' sb' (locateFundamental p n').1) := by
    unfold sigLinear
    split
    · positivity
    · exact signalPower_nonneg p hnn _ _ _
  have hex := (C37_exclude_harmonics p hnn n' (locateFundamental p n').1 bins sb' hnl).2
  rw [← C28_noise_and_distortion_spec p n' sb' _ hnl] at hex
  have hfp : (0 : ℝ) < pFloor := by unfold pFloor; positivity
  have hp20 : (0 : ℝ) < 1 / 10 ^ 20 := by positivity
  have hmax : max (excludeNoise (clearedInband p n' sb' ((locateFundamental p n').1 - sb')
      (min ((locateFundamental p n').1 + sb' + 1) n')) bins n') pFloor ≤
      noiseAndDistortion p n' sb' (locateFundamental p n').1 + 1 / 10 ^ 20 := by
    apply max_le
    · linarith
    · have : (pFloor : ℝ) = 1 / 10 ^ 15 := rfl
      rw [this]; linarith
  have hmpos := lt_of_lt_of_le hfp (le_max_right (excludeNoise (clearedInband p n' sb' ((locateFundamental p n').1 - sb')
      (min ((locateFundamental p n').1 + sb' + 1) n')) bins n') pFloor)
  apply dB_mono (div_nonneg hsig (lt_of_lt_of_le hmpos hmax).le)
  exact div_le_div_of_nonneg_left hsig hmpos hmax

/-! ## C61: sample rate -/

/-- **C61.** Changing the sample rate (with the cutoff changed in proportion) changes nothing in the result of
`compute_spectrum` except the noise spectral density, which moves by exactly `-10·log10` of the rate ratio. -/
theorem C61_sample_rate_only_affects_nsd (lib : WinLib) (data : List (List ℝ)) (a : SpectrumArgs) (c : ℝ) (hc : 0 < c)
    (hfs : 0 < a.fs) (r : SpectrumResult) (h : computeSpectrum lib data a = .ok r) :
    ∃ r', computeSpectrum lib data { a with fs := c * a.fs, cutoff := c * a.cutoff } = .ok r' ∧
      r' = { r with nsd := r'.nsd } ∧ r'.nsd = r.nsd.map (· - 10 * Real.logb 10 c) := by
  obtain ⟨d, n, hd, hn, _, _, _, _, hosr, _, hpow, hm⟩ := computeSpectrum_ok lib data a r h
  obtain ⟨bins, spur, noise, h1, h2, h3, hr⟩ := spectrumMetrics_ok _ _ _ _ _ _ _ hm
  set a' : SpectrumArgs := { a with fs := c * a.fs, cutoff := c * a.cutoff } with ha'
  have hraw : applyCutoff (rawSpectrum lib a' d (d.headD []).length n) a'.cutoff a'.fs (d.headD []).length = r.power := by
    rw [hpow]
    have e : rawSpectrum lib a' d (d.headD []).length n = rawSpectrum lib a d (d.headD []).length n := rfl
    rw [e]
    unfold applyCutoff
    have ed : a'.cutoff / a'.fs = a.cutoff / a.fs := by
      simp only [ha']
      exact mul_div_mul_left _ _ hc.ne'
    have ep : 0 < a'.cutoff ↔ 0 < a.cutoff := by
      simp only [ha']
      exact ⟨fun h => pos_of_mul_pos_right h hc.le, fun h => mul_pos hc h⟩
    simp only [ed, ep]
  refine ⟨assemble a' d.length (d.headD []).length n r.power (sideBinOf lib a (d.headD []).length n r.power) bins spur noise,
    ?_, ?_, ?_⟩
  · unfold computeSpectrum
    have e1 : a'.scale = a.scale := rfl
    have e2 : a'.osr = a.osr := rfl
    simp only [e1, e2, hd, hn, hraw]
    have e3 : sideBinOf lib a' (d.headD []).length n r.power = sideBinOf lib a (d.headD []).length n r.power := rfl
    have e4 : a'.maxHarmonic = a.maxHarmonic := rfl
    have e5 : a'.nfMethod = a.nfMethod := rfl
    unfold spectrumMetrics
    simp only [e3, e4, e5, h1, h2, h3]
  · conv_rhs => rw [hr]
    rfl
  · conv_rhs => rw [hr]
    simp only [assemble]
    have e6 : sigPwrDbfs a' = sigPwrDbfs a := rfl
    have e7 : sigLinear a' = sigLinear a := rfl
    rw [e6, e7]
    generalize ((noise.map fun v => dB (sigLinear a (signalPower r.power n (sideBinOf lib a (d.headD []).length n r.power)
      (locateFundamental r.power n).1) / v)).map fun s => ((sigPwrDbfs a (signalPower r.power n
      (sideBinOf lib a (d.headD []).length n r.power) (locateFundamental r.power n).1) : ℝ) : EReal) - s) = fl
    cases fl with
    | none => rfl
    | some f =>
      simp only [nsdOf]
      split_ifs with hf
      · rfl
      · simp only [Option.map_some, ha']
        congr 1
        rw [show c * a.fs / (2 * a.osr) = c * (a.fs / (2 * a.osr)) by ring,
          Real.logb_mul hc.ne' (by positivity)]
        ring

/-! ## C62: consistency of the reported powers -/

/-- **C62.** When all are finite: noise floor = signal power - SNR, and
noise spectral density = noise floor - 10·log10 of the analysed bandwidth `fs / (2·OSR)`. -/
theorem C62_noise_floor_identities (lib : WinLib) (data : List (List ℝ)) (a : SpectrumArgs) (r : SpectrumResult)
    (h : computeSpectrum lib data a = .ok r) :
    (∀ s, r.snr = some s → r.noiseFloor = some ((r.sigPwr : EReal) - s)) ∧
    (∀ f : ℝ, r.noiseFloor = some (f : EReal) → r.nsd = some (f - 10 * Real.logb 10 (a.fs / (2 * a.osr)))) ∧
    (r.snr = none → r.noiseFloor = none ∧ r.nsd = none) ∧ r.enob = (r.sndr - ((1.76 : ℝ) : EReal)) / ((6.02 : ℝ) : EReal) := by
  obtain ⟨d, n, hd, hn, _, _, _, _, hosr, _, hpow, hm⟩ := computeSpectrum_ok lib data a r h
  obtain ⟨bins, spur, noise, h1, h2, h3, hr⟩ := spectrumMetrics_ok _ _ _ _ _ _ _ hm
  have e1 : r.noiseFloor = r.snr.map fun s => (r.sigPwr : EReal) - s := by
    rw [hr]; rfl
  have e2 : r.nsd = nsdOf a r.noiseFloor := by rw [hr]; rfl
  have e3 : r.enob = enobOf r.sndr := by rw [hr]; rfl
  refine ⟨?_, ?_, ?_, ?_⟩
  · intro s hs; rw [e1, hs]; rfl
  · intro f hf
    rw [e2, hf]
    simp [nsdOf]
  · intro hs
    have : r.noiseFloor = none := by rw [e1, hs]; rfl
    exact ⟨this, by rw [e2, this]; rfl⟩
  · rw [e3]
    unfold enobOf
    norm_num

/-- **C62 (finite powers).** Without an assumed signal power, a signal window with power above `1e-30` and a noise estimate
gives finite values everywhere, and the noise floor is `10·log10` of the estimated noise power. -/
theorem C62_noise_floor_is_noise_power (lib : WinLib) (data : List (List ℝ)) (a : SpectrumArgs) (r : SpectrumResult)
    (h : computeSpectrum lib data a = .ok r) (ha : a.assumed = none) (s : ℝ) (hs : r.snr = some (s : EReal)) :
    ∃ (d : List (List ℝ)) (n : ℕ) (bins : List ℤ) (noise : ℝ), prepareFftInput data a.scale = .ok d ∧
      rfftInbandBinCount ((d.headD []).length : ℤ) a.osr = .ok n ∧
      locateHarmonicBins (locateFundamental r.power n).2 a.maxHarmonic (d.headD []).length = .ok bins ∧
      estimateNoisePower r.power a.nfMethod n d.length r.fundamentalBin bins (sideBinOf lib a (d.headD []).length n r.power)
        = .ok (some noise) ∧
      1 / 10 ^ 15 ≤ noise ∧ (-300 < r.sigPwr → r.noiseFloor = some ((10 * Real.logb 10 noise : ℝ) : EReal)) := by
  obtain ⟨d, n, hd, hn, _, _, _, _, hosr, hnn, hpow, hm⟩ := computeSpectrum_ok lib data a r h
  obtain ⟨bins, spur, noise, h1, h2, h3, hr⟩ := spectrumMetrics_ok _ _ _ _ _ _ _ hm
  set sb := sideBinOf lib a (d.headD []).length n r.power
  set m := signalPower r.power n sb (locateFundamental r.power n).1 with hmdef
  have e1 : r.noiseFloor = r.snr.map fun s => (r.sigPwr : EReal) - s := by rw [hr]; rfl
  have e2 : r.snr = noise.map fun v => dB (sigLinear a m / v) := by
    conv_lhs => rw [hr]
    rfl
  have e3 : r.sigPwr = sigPwrDbfs a m := by
    conv_lhs => rw [hr]
    rfl
  have e4 : r.fundamentalBin = (locateFundamental r.power n).1 := by
    conv_lhs => rw [hr]
    rfl
  cases noise with
  | none => rw [e2] at hs; simp at hs
  | some v =>
    refine ⟨d, n, bins, v, hd, hn, h1, by rw [e4]; exact h3, C37_estimate_floor _ _ _ _ _ _ _ _ h3, ?_⟩
    have hvpos : 0 < v := lt_of_lt_of_le (by positivity) (C37_estimate_floor _ _ _ _ _ _ _ _ h3)
    intro hsp
    have hm0 : 0 < m := by
      by_contra hc
      rw [e3] at hsp
      unfold sigPwrDbfs at hsp
      rw [ha] at hsp
      simp only at hsp
      rw [max_eq_right (le_trans (not_lt.mp hc) (by positivity))] at hsp
      rw [one_div, Real.logb_inv, Real.logb_pow, Real.logb_self_eq_one (by norm_num)] at hsp
      norm_num at hsp
    have hm30 : 1 / 10 ^ 30 ≤ m := by
      by_contra hc
      rw [e3] at hsp
      unfold sigPwrDbfs at hsp
      rw [ha] at hsp
      simp only at hsp
      rw [max_eq_right (not_le.mp hc).le] at hsp
      rw [one_div, Real.logb_inv, Real.logb_pow, Real.logb_self_eq_one (by norm_num)] at hsp
      norm_num at hsp
    rw [e1, e2, e3]
    unfold sigPwrDbfs sigLinear
    rw [ha]
    simp only [Option.map_some]
    rw [max_eq_left hm30, dB_pos (div_pos hm0 hvpos), Real.logb_div hm0.ne' hvpos.ne', ← EReal.coe_sub]
    congr 2
    ring

/-- **C62 (assumed signal level).** With `assumed_sig_pwr_dbfs = v` the signal power is reported as `v`, SNDR is `v` minus the level of everything outside the DC
and signal lobes, SNR is `v` minus the level of the estimated noise, and the noise floor does not depend on `v`. -/
theorem C62_assumed_signal (lib : WinLib) (data : List (List ℝ)) (a : SpectrumArgs) (r : SpectrumResult)
    (h : computeSpectrum lib data a = .ok r) (v : ℝ) (ha : a.assumed = some v) :
    r.sigPwr = v ∧
    (∃ n sb, rfftInbandBinCount (r.N : ℤ) a.osr = .ok n ∧ sb = sideBinOf lib a r.N n r.power ∧
      r.sndr = ((v - 10 * Real.logb 10 (power (fun i => r.power.getD i 0) (nadBins n sb r.fundamentalBin) + 1 / 10 ^ 20) : ℝ) : EReal)) ∧
    ∀ s, r.snr = some s → ∃ (n : ℕ) (noise : ℝ), rfftInbandBinCount (r.N : ℤ) a.osr = .ok n ∧
      estimateNoisePower r.power a.nfMethod n r.M r.fundamentalBin r.harmonicBins (sideBinOf lib a r.N n r.power) = .ok (some noise) ∧
      s = ((v - 10 * Real.logb 10 noise : ℝ) : EReal) ∧ r.noiseFloor = some ((10 * Real.logb 10 noise : ℝ) : EReal) := by
  obtain ⟨d, n, hd, hn, hN, hnl, hM, hpn, hosr, hnn, hpow, hm⟩ := computeSpectrum_ok lib data a r h
  obtain ⟨bins, spur, noise, h1, h2, h3, hr⟩ := spectrumMetrics_ok _ _ _ _ _ _ _ hm
  have eN : r.N = (d.headD []).length := by rw [hr]; rfl
  have eM : r.M = d.length := by rw [hr]; rfl
  have eH : r.harmonicBins = bins := by rw [hr]; rfl
  have eF : r.fundamentalBin = (locateFundamental r.power n).1 := by
    conv_lhs => rw [hr]
    rfl
  have e3 : r.sigPwr = v := by
    rw [hr]; unfold assemble sigPwrDbfs; simp only [ha]
  have e4 : r.sndr = dB ((10 : ℝ) ^ (v / 10) / (noiseAndDistortion r.power n (sideBinOf lib a r.N n r.power) r.fundamentalBin + 1 / 10 ^ 20)) := by
    conv_lhs => rw [hr]
    rw [eN, eF]
    unfold assemble sigLinear
    simp only [ha]
  have e5 : r.snr = noise.map fun w => dB ((10 : ℝ) ^ (v / 10) / w) := by
    conv_lhs => rw [hr]
    unfold assemble sigLinear
    simp only [ha]
  have e1 : r.noiseFloor = r.snr.map fun s => (r.sigPwr : EReal) - s := by rw [hr]; rfl
  have hlev : ∀ w : ℝ, 0 < w → dB ((10 : ℝ) ^ (v / 10) / w) = ((v - 10 * Real.logb 10 w : ℝ) : EReal) := by
    intro w hw
    have h10 : (0 : ℝ) < 10 ^ (v / 10) := by positivity
    rw [dB_pos (div_pos h10 hw), Real.logb_div h10.ne' hw.ne', Real.logb_rpow (by norm_num) (by norm_num)]
    congr 1
    ring
  refine ⟨e3, ⟨n, _, by rw [eN]; exact hn, rfl, ?_⟩, ?_⟩
  · rw [e4]
    rw [C28_noise_and_distortion_spec _ _ _ _ hnl]
    apply hlev
    have : 0 ≤ power (fun i => r.power.getD i 0) (nadBins n (sideBinOf lib a r.N n r.power) r.fundamentalBin) := by
      apply sum_nonneg
      intro i _
      exact getD_nonneg _ hnn i
    positivity
  · intro s hs
    cases noise with
    | none => rw [e5] at hs; simp at hs
    | some w =>
      have hw : 0 < w := lt_of_lt_of_le (by positivity) (C37_estimate_floor _ _ _ _ _ _ _ _ h3)
      refine ⟨n, w, by rw [eN]; exact hn, by rw [eM, eF, eH, eN]; exact h3, ?_, ?_⟩
      · rw [e5, Option.map_some, hlev w hw] at hs
        injection hs with hs
        exact hs.symm
      · rw [e1, e5, Option.map_some, Option.map_some, hlev w hw, e3, ← EReal.coe_sub]
        congr 2
        ring

/-! ## C63: exactly the documented arguments fail -/

/-- **C63.** A non-empty rectangular record with valid full scale is analysed successfully exactly when OSR is positive, at
least one harmonic order is requested and the noise method is one of 0..4; otherwise `ValueError` is raised. -/
theorem C63_compute_spectrum_total (lib : WinLib) (data : List (List ℝ)) (a : SpectrumArgs) (d : List (List ℝ))
    (hd : prepareFftInput data a.scale = .ok d) (hN : 0 < (d.headD []).length) :
    (∃ r, computeSpectrum lib data a = .ok r) ↔ 0 < a.osr ∧ 1 ≤ a.maxHarmonic ∧ 0 ≤ a.nfMethod ∧ a.nfMethod ≤ 4 := by
  constructor
  · rintro ⟨r, h⟩
    obtain ⟨d', n, hd', hn, _, hnl, _, _, hosr, hnn, _, hm⟩ := computeSpectrum_ok lib data a r h
    obtain ⟨bins, spur, noise, h1, h2, h3, hr⟩ := spectrumMetrics_ok _ _ _ _ _ _ _ hm
    refine ⟨hosr, ?_, ?_⟩
    · by_contra hc
      unfold locateHarmonicBins at h1
      rw [if_pos (by omega)] at h1
      simp at h1
    · by_contra hc
      have := (C37_error_iff r.power a.nfMethod n d'.length (locateFundamental r.power n).1 bins
        (sideBinOf lib a (d'.headD []).length n r.power) .valueError).mpr ⟨hc, rfl⟩
      rw [h3] at this
      simp at this
  · rintro ⟨hosr, hmh, hnf⟩
    obtain ⟨n, hn, hn1, hn2⟩ := C25_count_range (((d.headD []).length : ℕ) : ℤ) a.osr (by exact_mod_cast hN) hosr
    unfold computeSpectrum
    simp only [hd, hn]
    set p := applyCutoff (rawSpectrum lib a d (d.headD []).length n) a.cutoff a.fs (d.headD []).length with hp
    have hl : p.length = (d.headD []).length / 2 + 1 := by rw [hp, applyCutoff_length, rawSpectrum_length]
    unfold spectrumMetrics
    simp only
    obtain ⟨hs, hhs⟩ := locateHarmonicBins_ok (locateFundamental p n).2 a.maxHarmonic (d.headD []).length hmh hN
    rw [hhs]
    simp only
    cases hsp : extractHighestSpur p (sideBinOf lib a (d.headD []).length n p) n
        ((locateFundamental p n).1 - sideBinOf lib a (d.headD []).length n p)
        (min ((locateFundamental p n).1 + sideBinOf lib a (d.headD []).length n p + 1) n) with
    | error e =>
      exfalso
      unfold extractHighestSpur at hsp
      simp only at hsp
      split_ifs at hsp with hnil
      have := cleared_length p n (sideBinOf lib a (d.headD []).length n p)
        ((locateFundamental p n).1 - sideBinOf lib a (d.headD []).length n p)
        (min ((locateFundamental p n).1 + sideBinOf lib a (d.headD []).length n p + 1) n)
      rw [hnil, List.length_nil] at this
      omega
    | ok spur =>
      simp only
      cases hno : estimateNoisePower p a.nfMethod n d.length (locateFundamental p n).1 hs
          (sideBinOf lib a (d.headD []).length n p) with
      | error e => exact absurd hnf ((C37_error_iff _ _ _ _ _ _ _ _).mp hno).1
      | ok noise => exact ⟨_, rfl⟩

/-- **C63 (error class).** Whatever fails, fails with `ValueError`. -/
theorem C63_errors_are_value_errors (lib : WinLib) (data : List (List ℝ)) (a : SpectrumArgs) (e : PyErr)
    (h : computeSpectrum lib data a = .error e) : e = .valueError := by
  unfold computeSpectrum at h
  split at h
  · rename_i e' he
    injection h with h
    subst h
    unfold prepareFftInput at he
    simp only at he
    split at he
    · rename_i e'' he'
      injection he with he
      subst he
      unfold peakAmplitude at he'
      split at he'
      · split at he'
        · injection he' with he'; exact he'.symm
        · simp at he'
      · split at he'
        · simp at he'
        · injection he' with he'; exact he'.symm
      · simp at he'
    · simp at he
  · rename_i d hd
    simp only at h
    split at h
    · rename_i e' he
      injection h with h
      subst h
      exact ((C25_error_iff _ _ _).mp he).2
    · rename_i n hn
      have hN : 0 < (d.headD []).length := by
        by_contra hc
        have he := (C25_error_iff (((d.headD []).length : ℕ) : ℤ) a.osr .valueError).mpr ⟨Or.inl (by omega), rfl⟩
        rw [hn] at he
        simp at he
      unfold spectrumMetrics at h
      simp only at h
      split at h
      · rename_i e' he
        injection h with h
        subst h
        by_cases hm : 1 ≤ a.maxHarmonic
        · obtain ⟨hs, hhs⟩ := locateHarmonicBins_ok (locateFundamental (applyCutoff (rawSpectrum lib a d (d.headD []).length n)
            a.cutoff a.fs (d.headD []).length) n).2 a.maxHarmonic (d.headD []).length hm hN
          rw [hhs] at he
          simp at he
        · unfold locateHarmonicBins at he
          rw [if_pos (by omega)] at he
          injection he with he
          exact he.symm
      · split at h
        · rename_i e' he
          injection h with h
          subst h
          unfold extractHighestSpur at he
          simp only at he
          split_ifs at he
          injection he with he
          exact he.symm
        · split at h
          · rename_i e' he
            injection h with h
            subst h
            exact ((C37_error_iff _ _ _ _ _ _ _ _).mp he).2
          · simp at h

/-! ### Concrete cases -/

/-- A two-sample record is a valid input (the hypotheses of the theorems above can be met). -/
example (lib : WinLib) : ∃ r, computeSpectrum lib [[1, -1]] { win := "boxcar", sideBin := some 0, nfMethod := 3 } = .ok r := by
  refine (C63_compute_spectrum_total lib [[1, -1]] _ _ rfl ?_).mpr ⟨by norm_num, by norm_num, by norm_num, by norm_num⟩
  simp [orient, removeDc]
  split_ifs <;> simp

end Verif
