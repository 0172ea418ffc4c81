import Verif.Theorems.SpectrumEngine
import Verif.Theorems.SpectrumBins
import Verif.Theorems.Fundamental

/-!
# The decibel figures of compute_spectrum (C62) and the high-pass cutoff (C82)
-/

namespace Verif

open Model Spec Finset

/-! ## C62: every reported figure is a difference of two levels -/

namespace Spec

/-- Level of a power in decibels. -/
noncomputable def level (v : ℝ) : ℝ := 10 * Real.logb 10 v

/-- Bins of the spectrum within `sideBin` of a harmonic. -/
def harmonicLobe (len sideBin : ℕ) (h : ℤ) : Finset ℕ := (range len).filter fun j => |(j : ℤ) - h| ≤ sideBin

end Spec

private theorem spur_power (p : List ℝ) (n sb f : ℕ) (hn : n ≤ p.length) (spur : ℕ × ℝ) (h : extractHighestSpur p sb n (f - sb) (min (f + sb + 1) n) = .ok spur) :
    spur.2 = power (fun i => p.getD i 0) (lobe spur.1 sb ∩ nadBins n sb f) := by
  unfold extractHighestSpur at h
  simp only at h
  split_ifs at h with hne
  injection h with h
  rw [← h]
  simp only
  rw [slice_sum, cleared_length, min_eq_left hn]
  unfold power
  generalize argmax (clearedInband p n sb (f - sb) (min (f + sb + 1) n)) = idx
  simp only [cleared_getD]
  rw [← sum_filter]
  congr 1
  ext i
  unfold lobe nadBins dcLobe lobe
  simp only [mem_filter, mem_Ico, mem_inter, mem_Icc, mem_sdiff, mem_range]
  omega

private theorem level_div (S w : ℝ) (s : ℝ) (hS : S = (10 : ℝ) ^ (s / 10)) (hw : 0 < w) :
    dB (S / w) = ((s - level w : ℝ) : EReal) ∧ dB (w / S) = ((level w - s : ℝ) : EReal) := by
  have h10 : (0 : ℝ) < 10 ^ (s / 10) := by positivity
  subst hS
  unfold level
  constructor
  · rw [dB_pos (div_pos h10 hw), Real.logb_div h10.ne' hw.ne', Real.logb_rpow (by norm_num) (by norm_num)]
    congr 1
    ring
  · rw [dB_pos (div_pos hw h10), Real.logb_div hw.ne' h10.ne', Real.logb_rpow (by norm_num) (by norm_num)]
    congr 1
    ring

/-- **C62 (levels).** In every successful result with a signal power that is assumed or above the `-300 dBFS` clip: SNDR is the signal level minus the level of
all in-band bins outside the DC and signal lobes; SFDR is the signal level minus the level of the strongest remaining bin's lobe (infinite when that is empty of
power); THD is the level of the union of the harmonic lobes minus the signal level; and each harmonic is reported by its own level minus the signal level. The
measured signal level is the level of the signal lobe. -/
theorem C62_decibel_ledger (lib : WinLib) (data : List (List ℝ)) (a : SpectrumArgs) (r : SpectrumResult)
    (h : computeSpectrum lib data a = .ok r) (hlev : a.assumed ≠ none ∨ -300 < r.sigPwr) :
    ∃ n sb, rfftInbandBinCount (r.N : ℤ) a.osr = .ok n ∧ sb = sideBinOf lib a r.N n r.power ∧
      (a.assumed = none → r.sigPwr = level (power (fun i => r.power.getD i 0) (range n ∩ lobe r.fundamentalBin sb))) ∧
      r.sndr = ((r.sigPwr - level (power (fun i => r.power.getD i 0) (nadBins n sb r.fundamentalBin) + 1 / 10 ^ 20) : ℝ) : EReal) ∧
      r.sfdr = some (if power (fun i => r.power.getD i 0) (lobe r.spurBin sb ∩ nadBins n sb r.fundamentalBin) = 0 then ⊤
        else ((r.sigPwr - level (power (fun i => r.power.getD i 0) (lobe r.spurBin sb ∩ nadBins n sb r.fundamentalBin)) : ℝ) : EReal)) ∧
      r.thd = some ((level (max (power (fun i => r.power.getD i 0) (thdBins r.power.length r.fundamentalBin sb r.harmonicBins)) (1 / 10 ^ 15)) - r.sigPwr : ℝ) : EReal) ∧
      ∃ hl : List EReal, r.harmonics = some hl ∧ hl.length = r.harmonicBins.length ∧ ∀ i < r.harmonicBins.length,
        hl.getD i 0 = ((if 2 * (sb : ℤ) < |r.harmonicBins.getD i 0 - r.fundamentalBin| ∧ (sb : ℤ) < r.harmonicBins.getD i 0 then
          level (max (power (fun j => r.power.getD j 0) (harmonicLobe r.power.length sb (r.harmonicBins.getD i 0))) (1 / 10 ^ 15)) - r.sigPwr
          else -150 - r.sigPwr : ℝ) : EReal) := by
  obtain ⟨d, n, hd, hn, hN, hnl, hM, hpn, hosr, hnn, hpow, hm⟩ := computeSpectrum_ok lib data a r h
  obtain ⟨bins, spur, noise, h1, h2, h3, hr⟩ := spectrumMetrics_ok _ _ _ _ _ _ _ hm
  have eN : r.N = (d.headD []).length := by rw [hr]; rfl
  have eH : r.harmonicBins = bins := by rw [hr]; rfl
  have eB : r.spurBin = spur.1 := by rw [hr]; rfl
  have eF : r.fundamentalBin = (locateFundamental r.power n).1 := by
    conv_lhs => rw [hr]
    rfl
  rw [← eN, ← eF] at h2
  have hpnn : ∀ s : Finset ℕ, 0 ≤ power (fun i => r.power.getD i 0) s := fun s => sum_nonneg fun i _ => getD_nonneg _ hnn i
  set sb := sideBinOf lib a r.N n r.power with hsb
  set m := signalPower r.power n sb r.fundamentalBin with hmdef
  have hmP : m = power (fun i => r.power.getD i 0) (range n ∩ lobe r.fundamentalBin sb) := by
    rw [hmdef]
    unfold signalPower power
    rw [slice_sum]
    congr 1
    ext i
    unfold lobe
    simp only [mem_Ico, mem_inter, mem_range, mem_Icc]
    omega
  have e3 : r.sigPwr = sigPwrDbfs a m := by
    rw [hmdef, hsb, eN, eF]
    conv_lhs => rw [hr]
    rfl
  have hmeas : a.assumed = none → 1 / 10 ^ 30 ≤ m := by
    intro ha
    have hsp := hlev.resolve_left (by simp [ha])
    by_contra hc
    rw [e3] at hsp
    unfold sigPwrDbfs at hsp
    rw [ha] at hsp
    simp only at hsp
    rw [max_eq_right (not_le.mp hc).le, one_div, Real.logb_inv, Real.logb_pow, Real.logb_self_eq_one (by norm_num)] at hsp
    norm_num at hsp
  have hsig : sigLinear a m = (10 : ℝ) ^ (r.sigPwr / 10) := by
    rw [e3]
    unfold sigLinear sigPwrDbfs
    cases ha : a.assumed with
    | some v => rfl
    | none =>
      have hm0 : 0 < m := lt_of_lt_of_le (by positivity) (hmeas ha)
      simp only
      rw [max_eq_left (hmeas ha), mul_div_cancel_left₀ _ (by norm_num), Real.rpow_logb (by norm_num) (by norm_num) hm0]
  have hsig0 : 0 < sigLinear a m := by rw [hsig]; positivity
  have hwrap : ∀ x : EReal, (if 0 < sigLinear a m then some x else none) = some x := fun x => if_pos hsig0
  have f1 : r.sndr = dB (sigLinear a m / (noiseAndDistortion r.power n sb r.fundamentalBin + 1 / 10 ^ 20)) := by
    rw [hmdef, hsb, eN, eF]
    conv_lhs => rw [hr]
    rfl
  have f2 : r.sfdr = if 0 < sigLinear a m then some (if spur.2 ≤ 0 then ⊤ else dB (sigLinear a m / spur.2)) else none := by
    rw [hmdef, hsb, eN, eF]
    conv_lhs => rw [hr]
    rfl
  have f3 : r.thd = if 0 < sigLinear a m then some (dB ((calculateHarmonicPower r.power r.fundamentalBin bins sb).1 / sigLinear a m)) else none := by
    rw [hmdef, hsb, eN, eF]
    conv_lhs => rw [hr]
    rfl
  have f4 : r.harmonics = if 0 < sigLinear a m then
      some ((calculateHarmonicPower r.power r.fundamentalBin bins sb).2.1.map fun v => dB (v / sigLinear a m)) else none := by
    rw [hmdef, hsb, eN, eF]
    conv_lhs => rw [hr]
    rfl
  refine ⟨n, sb, by rw [eN]; exact hn, rfl, ?_, ?_, ?_, ?_, ?_⟩
  · intro ha
    rw [e3, ← hmP]
    unfold sigPwrDbfs level
    rw [ha]
    simp only
    rw [max_eq_left (hmeas ha)]
  · rw [f1, C28_noise_and_distortion_spec _ _ _ _ hnl]
    apply (level_div _ _ _ hsig _).1
    have := hpnn (nadBins n sb r.fundamentalBin)
    positivity
  · rw [f2, if_pos hsig0, eB, ← spur_power _ _ _ _ hnl _ h2]
    have hs0 : 0 ≤ spur.2 := by rw [spur_power _ _ _ _ hnl _ h2]; exact hpnn _
    by_cases hz : spur.2 = 0
    · rw [if_pos hz, if_pos hz.le]
    · rw [if_neg hz, if_neg (not_le.mpr (lt_of_le_of_ne hs0 (Ne.symm hz)))]
      rw [(level_div _ _ _ hsig (lt_of_le_of_ne hs0 (Ne.symm hz))).1]
  · rw [f3, if_pos hsig0, C29_thd_power, eH]
    rw [(level_div _ _ _ hsig (lt_of_lt_of_le (by positivity) (le_max_right _ _))).2]
  · rw [f4, if_pos hsig0]
    refine ⟨_, rfl, ?_, ?_⟩
    · rw [eH, List.length_map]
      unfold calculateHarmonicPower
      simp
    · intro i hi
      rw [eH] at hi ⊢
      obtain ⟨g1, g2⟩ := C29_harmonic_power_spec r.power r.fundamentalBin sb bins i hi
      have hi' : i < (calculateHarmonicPower r.power r.fundamentalBin bins sb).2.1.length := by rw [g1]; exact hi
      rw [List.getD_eq_getElem?_getD, List.getElem?_eq_getElem hi', Option.getD_some] at g2
      rw [List.getD_eq_getElem?_getD, List.getElem?_map, List.getElem?_eq_getElem hi', Option.map_some, Option.getD_some, g2]
      split_ifs with hc
      · rw [(level_div _ _ _ hsig (lt_of_lt_of_le (by positivity) (le_max_right _ _))).2]
        rfl
      · rw [(level_div _ _ _ hsig (by positivity)).2]
        unfold level
        rw [one_div, Real.logb_inv, Real.logb_pow, Real.logb_self_eq_one (by norm_num)]
        norm_num

private theorem quarter_ok (lib : WinLib) (a : SpectrumArgs) (ha : a.scale = .scalar 1) (h1 : 0 < a.osr) (h2 : 1 ≤ a.maxHarmonic) (h3 : 0 ≤ a.nfMethod)
    (h4 : a.nfMethod ≤ 4) : ∃ r, computeSpectrum lib [[0, 1, 0, -1]] a = .ok r ∧ r.N = 4 := by
  have hd : prepareFftInput [[(0 : ℝ), 1, 0, -1]] a.scale = .ok [[0, 1, 0, -1]] := by
    rw [ha]
    norm_num [prepareFftInput, orient, peakAmplitude, removeDc]
  obtain ⟨r, hr⟩ := (C63_compute_spectrum_total lib _ a _ hd (by decide)).mpr ⟨h1, h2, h3, h4⟩
  refine ⟨r, hr, ?_⟩
  obtain ⟨d, n, hd', _, _, _, _, _, _, _, _, hm⟩ := computeSpectrum_ok lib _ a r hr
  obtain ⟨_, _, _, _, _, _, e⟩ := spectrumMetrics_ok _ _ _ _ _ _ _ hm
  have : d = [[0, 1, 0, -1]] := by
    have := hd'.symm.trans hd
    injection this
  rw [e, this]
  rfl

-- a quarter-rate sine with the signal level set to -6 dBFS
example (lib : WinLib) : ∃ r t, computeSpectrum lib [[0, 1, 0, -1]] { scale := .scalar 1, assumed := some (-6) } = .ok r ∧ r.thd = some t ∧
    ∃ P : ℝ, t = ((level (max P (1 / 10 ^ 15)) + 6 : ℝ) : EReal) := by
  obtain ⟨r, hr, _⟩ := quarter_ok lib { scale := .scalar 1, assumed := some (-6) } rfl (by norm_num) (by norm_num) (by norm_num) (by norm_num)
  obtain ⟨n, sb, _, _, _, _, _, h, _⟩ := C62_decibel_ledger lib _ _ r hr (Or.inl (by simp))
  rw [(C62_assumed_signal lib _ _ r hr (-6) rfl).1, sub_neg_eq_add] at h
  exact ⟨r, _, hr, h, _, rfl⟩

/-! ## C82: the high-pass cutoff -/

private theorem cutoff_getD (p : List ℝ) (c fs : ℝ) (N i : ℕ) (hi : i < p.length) (hc : 0 < c) (hfs : 0 < fs) (hN : 0 < N) :
    (applyCutoff p c fs N).getD i 0 = if (i : ℝ) * fs / N < c then 1 / 10 ^ 20 else p.getD i 0 := by
  have hNR : (0 : ℝ) < N := by exact_mod_cast hN
  have hkey : i < min ⌈c / fs * N⌉.toNat p.length ↔ (i : ℝ) * fs / N < c := by
    rw [lt_min_iff, and_iff_left hi, Int.lt_toNat, Int.lt_ceil]
    push_cast
    rw [div_lt_iff₀ hNR, div_mul_eq_mul_div, lt_div_iff₀ hfs]
  unfold applyCutoff
  rw [if_pos hc]
  simp only
  rw [List.getD_eq_getElem?_getD, List.getElem?_mapIdx, List.getElem?_eq_getElem hi, Option.map_some, Option.getD_some]
  rw [List.getD_eq_getElem?_getD, List.getElem?_eq_getElem hi, Option.getD_some]
  by_cases hx : (i : ℝ) * fs / N < c
  · rw [if_pos hx, if_pos (hkey.mpr hx)]
  · rw [if_neg hx, if_neg (fun hy => hx (hkey.mp hy))]

/-- **C82 (which bins).** With a positive cutoff frequency every bin strictly below it is reported with the power `1e-20`; every other bin has the power it has
without a cutoff. The two analyses succeed together. -/
theorem C82_cutoff_bins (lib : WinLib) (data : List (List ℝ)) (a : SpectrumArgs) (hc : 0 < a.cutoff) (hfs : 0 < a.fs) (r : SpectrumResult)
    (h : computeSpectrum lib data a = .ok r) :
    ∃ r₀, computeSpectrum lib data { a with cutoff := 0 } = .ok r₀ ∧ r₀.N = r.N ∧ r.power.length = r₀.power.length ∧
      ∀ i < r.power.length, r.power.getD i 0 = if (i : ℝ) * a.fs / r.N < a.cutoff then 1 / 10 ^ 20 else r₀.power.getD i 0 := by
  obtain ⟨d, n, hd, hn, hN, hnl, hM, hpn, hosr, hnn, hpow, hm⟩ := computeSpectrum_ok lib data a r h
  obtain ⟨bins, spur, noise, h1, h2, h3, hr⟩ := spectrumMetrics_ok _ _ _ _ _ _ _ hm
  have eN : r.N = (d.headD []).length := by rw [hr]; rfl
  have hargs := (C63_compute_spectrum_total lib data a d hd hpn).mp ⟨r, h⟩
  obtain ⟨r₀, h₀⟩ := (C63_compute_spectrum_total lib data { a with cutoff := 0 } d hd hpn).mpr hargs
  obtain ⟨d', n', hd', hn', _, _, hM', _, _, _, hpow', hm'⟩ := computeSpectrum_ok lib data { a with cutoff := 0 } r₀ h₀
  obtain ⟨bins', spur', noise', _, _, _, hr'⟩ := spectrumMetrics_ok _ _ _ _ _ _ _ hm'
  have ed : d' = d := by
    have := hd'.symm.trans hd
    injection this
  subst ed
  have en : n' = n := by
    have := hn'.symm.trans hn
    injection this
  subst en
  have eN' : r₀.N = (d'.headD []).length := by rw [hr']; rfl
  have hp0 : r₀.power = rawSpectrum lib a d' (d'.headD []).length n' := by
    rw [hpow']
    unfold applyCutoff
    rw [if_neg (lt_irrefl _)]
    rfl
  refine ⟨r₀, h₀, eN'.trans eN.symm, hM.trans hM'.symm, ?_⟩
  intro i hi
  have hi' : i < (rawSpectrum lib a d' (d'.headD []).length n').length := by
    rw [rawSpectrum_length, ← hM]; exact hi
  rw [eN, hp0, ← cutoff_getD _ _ _ _ _ hi' hc hfs hpn, ← hpow]

/-- **C82 (the fundamental).** If any in-band bin at or above the cutoff has more than the residual power, the fundamental is found at or above the cutoff. -/
theorem C82_fundamental_above_cutoff (lib : WinLib) (data : List (List ℝ)) (a : SpectrumArgs) (hc : 0 < a.cutoff) (hfs : 0 < a.fs) (r : SpectrumResult)
    (h : computeSpectrum lib data a = .ok r) (n i : ℕ) (hn : rfftInbandBinCount (r.N : ℤ) a.osr = .ok n) (hi : i < n)
    (hp : 1 / 10 ^ 20 < r.power.getD i 0) : a.cutoff ≤ (r.fundamentalBin : ℝ) * a.fs / r.N := by
  obtain ⟨d, n', hd, hn', hN, hnl, hM, hpn, hosr, hnn, hpow, hm⟩ := computeSpectrum_ok lib data a r h
  obtain ⟨bins, spur, noise, h1, h2, h3, hr⟩ := spectrumMetrics_ok _ _ _ _ _ _ _ hm
  have eN : r.N = (d.headD []).length := by rw [hr]; rfl
  have en : n' = n := by
    rw [eN] at hn
    have := hn'.symm.trans hn
    injection this
  subst en
  have eF : r.fundamentalBin = fundamentalBin r.power n' := by
    conv_lhs => rw [hr]
    rfl
  obtain ⟨r₀, h₀, hN0, hl, hb⟩ := C82_cutoff_bins lib data a hc hfs r h
  by_contra hx
  rw [not_le] at hx
  -- the bin with power is at or above the cutoff, hence not DC
  have hicut : ¬ (i : ℝ) * a.fs / r.N < a.cutoff := by
    intro hy
    have := hb i (by omega)
    rw [if_pos hy] at this
    rw [this] at hp
    exact lt_irrefl _ hp
  have hi0 : 0 < i := by
    rcases Nat.eq_zero_or_pos i with rfl | hpos
    · exact absurd (by simpa using hc) hicut
    · exact hpos
  obtain ⟨g1, g2, g3, _⟩ := C27_fundamental_strongest r.power n' hnl (by omega)
  have h4 := g3 i hi0 hi
  have h5 := hb r.fundamentalBin (by rw [eF]; omega)
  rw [if_pos hx] at h5
  rw [← eF, h5] at h4
  linarith

/-- **C82 (no cutoff).** A zero or negative cutoff changes nothing. -/
theorem C82_no_cutoff (lib : WinLib) (data : List (List ℝ)) (a : SpectrumArgs) (hc : a.cutoff ≤ 0) :
    computeSpectrum lib data a = computeSpectrum lib data { a with cutoff := 0 } := by
  unfold computeSpectrum
  have e : ∀ p N, applyCutoff p a.cutoff a.fs N = applyCutoff p 0 a.fs N := by
    intro p N
    unfold applyCutoff
    rw [if_neg (not_lt.mpr hc), if_neg (lt_irrefl _)]
  simp only [e]
  rfl

-- a quarter-rate sine with a cutoff of one tenth of the sample rate: only the DC bin of the three is cut
example (lib : WinLib) : ∃ r r₀, computeSpectrum lib [[0, 1, 0, -1]] { scale := .scalar 1, cutoff := 1 / 10 } = .ok r ∧
    computeSpectrum lib [[0, 1, 0, -1]] { scale := .scalar 1 } = .ok r₀ ∧ r.power.getD 0 0 = 1 / 10 ^ 20 ∧ r.power.getD 1 0 = r₀.power.getD 1 0 := by
  obtain ⟨r, hr, hN⟩ := quarter_ok lib { scale := .scalar 1, cutoff := 1 / 10 } rfl (by norm_num) (by norm_num) (by norm_num) (by norm_num)
  obtain ⟨r₀, h0, _, hl, hb⟩ := C82_cutoff_bins lib _ _ (by norm_num) (by norm_num) r hr
  have hlen : r.power.length = 3 := by
    obtain ⟨d, n, _, _, _, _, hM, _, _, _, _, hm⟩ := computeSpectrum_ok lib _ _ r hr
    obtain ⟨_, _, _, _, _, _, e⟩ := spectrumMetrics_ok _ _ _ _ _ _ _ hm
    have eN : r.N = (d.headD []).length := by rw [e]; rfl
    rw [hM, ← eN, hN]
  refine ⟨r, r₀, hr, h0, ?_, ?_⟩
  · rw [hb 0 (by omega), if_pos (by norm_num)]
  · rw [hb 1 (by omega), if_neg (by rw [hN]; norm_num)]

end Verif
