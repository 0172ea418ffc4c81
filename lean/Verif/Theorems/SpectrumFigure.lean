import Verif.Model.SpectrumFigure
import Verif.Theorems.SpectrumReport
import Verif.Theorems.BinRanges
import Verif.Theorems.Prepare

/-!
# C108: the figure of the spectrum agrees with the numbers printed in it
-/

namespace Verif

open Model Spec Finset

private theorem facts (lib : WinLib) (data : List (List ℝ)) (a : SpectrumArgs) (r : SpectrumResult) (h : computeSpectrum lib data a = .ok r) :
    ∃ n, rfftInbandBinCount (r.N : ℤ) a.osr = .ok n ∧ 1 ≤ n ∧ n ≤ r.power.length ∧ r.power.length = r.N / 2 + 1 ∧ 0 < r.N ∧ 0 < a.osr ∧ NonnegSpec r.power ∧
      r.fundamentalBin = fundamentalBin r.power n ∧
      (∃ noise, estimateNoisePower r.power a.nfMethod n r.M r.fundamentalBin r.harmonicBins (sideBinOf lib a r.N n r.power) = .ok noise ∧
        r.snr = noise.map fun v => dB (sigLinear a (signalPower r.power n (sideBinOf lib a r.N n r.power) r.fundamentalBin) / v)) ∧
      r.sigPwr = sigPwrDbfs a (signalPower r.power n (sideBinOf lib a r.N n r.power) r.fundamentalBin) ∧
      ∃ v, extractHighestSpur r.power (sideBinOf lib a r.N n r.power) n (r.fundamentalBin - sideBinOf lib a r.N n r.power)
        (min (r.fundamentalBin + sideBinOf lib a r.N n r.power + 1) n) = .ok (r.spurBin, v) := by
  obtain ⟨d, n, hd, hn, hN, hnl, hM, hpn, hosr, hnn, hpow, hm⟩ := computeSpectrum_ok lib data a r h
  obtain ⟨bins, spur, noise, h1, h2, h3, hr⟩ := spectrumMetrics_ok _ _ _ _ _ _ _ hm
  have eN : r.N = (d.headD []).length := by rw [hr]; rfl
  have eF : r.fundamentalBin = (locateFundamental r.power n).1 := by rw [hr]; rfl
  have eM : r.M = d.length := by rw [hr]; rfl
  have eB : r.harmonicBins = bins := by rw [hr]; rfl
  have eS : r.spurBin = spur.1 := by rw [hr]; rfl
  have e1 : r.snr = noise.map fun v => dB (sigLinear a (signalPower r.power n (sideBinOf lib a (d.headD []).length n r.power) (locateFundamental r.power n).1) / v) := by
    rw [hr]; rfl
  have e2 : r.sigPwr = sigPwrDbfs a (signalPower r.power n (sideBinOf lib a (d.headD []).length n r.power) (locateFundamental r.power n).1) := by
    rw [hr]; rfl
  rw [← eN] at hn hM hpn
  refine ⟨n, hn, hN, hnl, hM, hpn, hosr, hnn, eF, ⟨noise, ?_, ?_⟩, ?_, spur.2, ?_⟩
  · rw [eM, eB, eN, eF]; exact h3
  · rw [eN, eF]; exact e1
  · rw [eN, eF]; exact e2
  · rw [eN, eF, eS]; exact h2

private theorem plotDb_getD (a : SpectrumArgs) (r : SpectrumResult) (k : ℕ) (hk : k < r.power.length) :
    (plotDb a r).getD k 0 = if 0 < a.cutoff then dB (r.power.getD k 0) else dB (r.power.getD k 0 + 1 / 10 ^ 20) := by
  unfold plotDb
  rw [List.getD_eq_getElem?_getD, List.getElem?_map, List.getElem?_eq_getElem hk, List.getD_eq_getElem?_getD, List.getElem?_eq_getElem hk]
  rfl

private theorem plotFreq_getD (a : SpectrumArgs) (r : SpectrumResult) (k : ℕ) (hk : k < r.power.length) :
    (plotFreq a r).getD k 0 = k * a.fs / r.N := by
  unfold plotFreq
  rw [List.getD_eq_getElem?_getD, List.getElem?_map, List.getElem?_range hk]
  simp only [Option.map_some, Option.getD_some]
  ring

/-! ## Theorems -/

/-- **C108 (frequency axis).** The curve has `N/2 + 1` points; point `k` stands at `k fs / N`, from 0 to at most `fs / 2`. The points up to the band line are exactly the
ones counted in band (up to the rounding tolerance of the bin count), and every point except the one at DC lies inside the axis. -/
theorem C108_frequency_axis (lib : WinLib) (data : List (List ℝ)) (a : SpectrumArgs) (r : SpectrumResult) (h : computeSpectrum lib data a = .ok r)
    (hfs : 0 < a.fs) :
    (plotFreq a r).length = r.N / 2 + 1 ∧ (plotDb a r).length = r.N / 2 + 1 ∧ ∃ n, rfftInbandBinCount (r.N : ℤ) a.osr = .ok n ∧ ∀ k < r.N / 2 + 1,
      (plotFreq a r).getD k 0 = k * a.fs / r.N ∧ 0 ≤ (plotFreq a r).getD k 0 ∧ (plotFreq a r).getD k 0 ≤ a.fs / 2 ∧
      ((plotFreq a r).getD k 0 ≤ bandLine a → k < n) ∧
      (k < n → (plotFreq a r).getD k 0 ≤ bandLine a + a.fs / r.N * (1 / 10 ^ 12 + 1 / 10 ^ 12 * (r.N / (2 * a.osr) + 1))) ∧
      (1 ≤ k → (freqLimits a r).1 ≤ (plotFreq a r).getD k 0 ∧ (plotFreq a r).getD k 0 ≤ (freqLimits a r).2) := by
  obtain ⟨n, hn, hN, hnl, hM, hpn, hosr, _⟩ := facts lib data a r h
  have hNr : (0 : ℝ) < r.N := by exact_mod_cast hpn
  refine ⟨by simp [plotFreq, hM], by simp [plotDb, hM], n, hn, fun k hk => ?_⟩
  have hf := plotFreq_getD a r k (by omega)
  have hkN : (k : ℝ) ≤ r.N / 2 := by
    rw [le_div_iff₀ (by norm_num)]
    have : k * 2 ≤ r.N := by omega
    exact_mod_cast this
  have hb := C25_counts_band (K := ℝ) (r.N : ℤ) a.osr (by exact_mod_cast hpn) hosr n hn k
  rw [Int.cast_natCast] at hb
  have hhalf : (k : ℝ) * a.fs / r.N ≤ a.fs / 2 := by
    rw [div_le_div_iff₀ hNr (by norm_num)]
    have := mul_le_mul_of_nonneg_right hkN hfs.le
    nlinarith
  rw [hf]
  refine ⟨rfl, by positivity, hhalf, fun hle => hb.1 (by omega) ?_, fun hlt => ?_, fun h1 => ⟨?_, hhalf⟩⟩
  · unfold bandLine at hle
    rw [div_div, div_le_div_iff₀ hNr (by positivity)] at hle
    rw [le_div_iff₀ (by positivity)]
    nlinarith
  · have h2 := mul_le_mul_of_nonneg_left (hb.2 hlt).2 (div_pos hfs hNr).le
    unfold bandLine
    calc (k : ℝ) * a.fs / r.N = a.fs / r.N * k := by ring
      _ ≤ _ := h2
      _ = _ := by rw [mul_add]; congr 1; field_simp
  · unfold freqLimits
    simp only
    have : (1 : ℝ) ≤ k := by exact_mod_cast h1
    rw [div_le_div_iff_of_pos_right hNr]
    nlinarith

/-- **C108 (curve).** Without a cutoff every plotted level is finite, at least -200 dB, and -200 dB exactly at bins without power; it exceeds the level of the bin by
less than `4.35e-20` dB per unit of power. With a cutoff the removed bins stand at -200 dB and every other bin with power exactly at its level; a bin without power is
plotted at minus infinity. The order of the levels is the order of the powers. -/
theorem C108_curve (lib : WinLib) (data : List (List ℝ)) (a : SpectrumArgs) (r : SpectrumResult) (h : computeSpectrum lib data a = .ok r) (k : ℕ)
    (hk : k < r.N / 2 + 1) :
    (a.cutoff ≤ 0 → ∃ l : ℝ, (plotDb a r).getD k 0 = (l : EReal) ∧ (10 : ℝ) ^ (l / 10) = r.power.getD k 0 + 1 / 10 ^ 20 ∧ -200 ≤ l ∧ (l = -200 ↔ r.power.getD k 0 = 0) ∧
      (0 < r.power.getD k 0 → level (r.power.getD k 0) ≤ l ∧ l ≤ level (r.power.getD k 0) + 10 / Real.log 10 * (1 / 10 ^ 20 / r.power.getD k 0))) ∧
    (0 < a.cutoff → (0 < r.power.getD k 0 → (plotDb a r).getD k 0 = (level (r.power.getD k 0) : EReal)) ∧ (r.power.getD k 0 = 0 → (plotDb a r).getD k 0 = ⊥) ∧
      (0 < a.fs → (k : ℝ) * a.fs / r.N < a.cutoff → (plotDb a r).getD k 0 = ((-200 : ℝ) : EReal))) ∧
    ∀ j < r.N / 2 + 1, r.power.getD j 0 ≤ r.power.getD k 0 → (plotDb a r).getD j 0 ≤ (plotDb a r).getD k 0 := by
  obtain ⟨n, hn, hN, hnl, hM, hpn, hosr, hnn, _⟩ := facts lib data a r h
  have hp : ∀ i, 0 ≤ r.power.getD i 0 := getD_nonneg _ hnn
  have e := plotDb_getD a r k (by omega)
  have h20 : (0 : ℝ) < 1 / 10 ^ 20 := by positivity
  have l20 : 10 * Real.logb 10 (1 / 10 ^ 20) = -200 := by
    rw [one_div, Real.logb_inv, Real.logb_pow, Real.logb_self_eq_one (by norm_num)]; norm_num
  refine ⟨fun hc => ?_, fun hc => ?_, fun j hj hjk => ?_⟩
  · rw [if_neg (not_lt.mpr hc)] at e
    have hp0 := hp k
    generalize r.power.getD k 0 = p at e hp0
    have hpos : 0 < p + 1 / 10 ^ 20 := by linarith
    refine ⟨10 * Real.logb 10 (p + 1 / 10 ^ 20), by rw [e, dB_pos hpos], ?_, ?_, ?_, fun hp1 => ⟨?_, ?_⟩⟩
    · rw [show 10 * Real.logb 10 (p + 1 / 10 ^ 20) / 10 = Real.logb 10 (p + 1 / 10 ^ 20) by ring, Real.rpow_logb (by norm_num) (by norm_num) hpos]
    · rw [← l20]
      exact mul_le_mul_of_nonneg_left (Real.logb_le_logb_of_le (by norm_num) h20 (by linarith)) (by norm_num)
    · rw [← l20]
      constructor
      · intro h1
        have h2 := Real.logb_injOn_pos (by norm_num : (1 : ℝ) < 10) (Set.mem_Ioi.mpr hpos) (Set.mem_Ioi.mpr h20) (by linarith)
        linarith
      · rintro rfl
        rw [zero_add]
    · unfold level
      exact mul_le_mul_of_nonneg_left (Real.logb_le_logb_of_le (by norm_num) hp1 (by linarith)) (by norm_num)
    · unfold level
      have h10 : 0 < Real.log 10 := Real.log_pos (by norm_num)
      have h3 : p + 1 / 10 ^ 20 = p * (1 + 1 / 10 ^ 20 / p) := by field_simp
      have h4 : 0 < 1 + 1 / 10 ^ 20 / p := by positivity
      rw [h3, Real.logb_mul hp1.ne' h4.ne']
      have h5 : Real.logb 10 (1 + 1 / 10 ^ 20 / p) ≤ 1 / 10 ^ 20 / p / Real.log 10 := by
        unfold Real.logb
        rw [div_le_div_iff_of_pos_right h10]
        have := Real.log_le_sub_one_of_pos h4
        linarith
      calc 10 * (Real.logb 10 p + Real.logb 10 (1 + 1 / 10 ^ 20 / p)) ≤ 10 * (Real.logb 10 p + 1 / 10 ^ 20 / p / Real.log 10) := by linarith
        _ = _ := by ring
  · rw [if_pos hc] at e
    refine ⟨fun h1 => by rw [e, dB_pos h1]; rfl, fun h1 => by rw [e, h1]; simp [dB], fun hfs hlt => ?_⟩
    obtain ⟨r₀, _, _, hl, hcut⟩ := C82_cutoff_bins lib data a hc hfs r h
    have := hcut k (by omega)
    rw [if_pos hlt] at this
    rw [e, this, dB_pos h20, l20]
  · rw [e, plotDb_getD a r j (by omega)]
    split_ifs
    · exact dB_mono (hp j) hjk
    · exact dB_mono (by linarith [hp j]) (by linarith)

/-- **C108 (fundamental marker).** The red dot is the highest point of the curve among the in-band points other than DC. -/
theorem C108_fundamental_marker (lib : WinLib) (data : List (List ℝ)) (a : SpectrumArgs) (r : SpectrumResult) (h : computeSpectrum lib data a = .ok r) :
    ∃ n, rfftInbandBinCount (r.N : ℤ) a.osr = .ok n ∧ r.fundamentalBin < n ∧ (1 < n → 1 ≤ r.fundamentalBin) ∧
      ∀ k, 1 ≤ k → k < n → (plotDb a r).getD k 0 ≤ (plotDb a r).getD r.fundamentalBin 0 := by
  obtain ⟨n, hn, hN, hnl, hM, hpn, hosr, hnn, hF, _⟩ := facts lib data a r h
  by_cases h1 : 1 < n
  · obtain ⟨f1, f2, f3, _⟩ := C27_fundamental_strongest r.power n hnl h1
    rw [← hF] at f1 f2 f3
    exact ⟨n, hn, f2, fun _ => f1, fun k k1 k2 => (C108_curve lib data a r h r.fundamentalBin (by omega)).2.2 k (by omega) (f3 k k1 k2)⟩
  · have : r.fundamentalBin = 0 := by rw [hF]; exact C27_only_dc _ _ (Or.inl (by omega))
    exact ⟨n, hn, by omega, fun hc => absurd hc h1, fun k k1 k2 => by omega⟩

private theorem lobe_sum_bounds (p : ℕ → ℝ) (hp : ∀ i, 0 ≤ p i) (s : Finset ℕ) (c sb : ℕ) (hc : c ∈ s) (hs : s ⊆ lobe c sb) (hm : ∀ i ∈ s, p i ≤ p c) :
    p c ≤ power p s ∧ power p s ≤ (2 * sb + 1) * p c := by
  unfold power
  refine ⟨single_le_sum (f := p) (fun i _ => hp i) hc, ?_⟩
  have h1 : s.card ≤ 2 * sb + 1 := by
    refine le_trans (card_le_card hs) ?_
    unfold lobe
    rw [Nat.card_Icc]
    omega
  have h2 := sum_le_card_nsmul s p (p c) hm
  rw [nsmul_eq_mul] at h2
  refine le_trans h2 (mul_le_mul_of_nonneg_right ?_ (hp c))
  exact_mod_cast h1

private theorem signal_power (p : List ℝ) (n sb f : ℕ) (hn : n ≤ p.length) : signalPower p n sb f = power (fun i => p.getD i 0) (range n ∩ lobe f sb) := by
  unfold signalPower power
  rw [slice_sum]
  congr 1
  ext i
  unfold lobe
  simp only [mem_Ico, mem_inter, mem_range, mem_Icc]
  omega

private theorem level_mono {x y : ℝ} (hx : 0 < x) (h : x ≤ y) : level x ≤ level y :=
  mul_le_mul_of_nonneg_left (Real.logb_le_logb_of_le (by norm_num) hx h) (by norm_num)

private theorem level_mul {x y : ℝ} (hx : 0 < x) (hy : 0 < y) : level (x * y) = level x + level y := by
  unfold level
  rw [Real.logb_mul hx.ne' hy.ne']
  ring

/-- **C108 (signal text against the red dot).** With a fundamental above its side bins and at least `1e-20` of power in its bin, `v_offset` is what the printed signal power exceeds the red dot by: it
is at least `-10 log10(1 + 1e-20 / p)` (0 with a cutoff) and at most `10 log10(2 sb + 1)`, for `sb` side bins. -/
theorem C108_signal_text (lib : WinLib) (data : List (List ℝ)) (a : SpectrumArgs) (r : SpectrumResult) (h : computeSpectrum lib data a = .ok r)
    (ha : a.assumed = none) :
    ∃ n sb, rfftInbandBinCount (r.N : ℤ) a.osr = .ok n ∧ sb = sideBinOf lib a r.N n r.power ∧
      (sb < r.fundamentalBin → 1 / 10 ^ 20 ≤ r.power.getD r.fundamentalBin 0 → ∃ v : ℝ, vOffset a r = (v : EReal) ∧
        (plotDb a r).getD r.fundamentalBin 0 + (v : EReal) = (r.sigPwr : EReal) ∧
        -level (1 + 1 / 10 ^ 20 / r.power.getD r.fundamentalBin 0) ≤ v ∧ (0 < a.cutoff → 0 ≤ v) ∧ v ≤ level (2 * sb + 1)) := by
  obtain ⟨n, hn, hN, hnl, hM, hpn, hosr, hnn, hF, _, hsig, _⟩ := facts lib data a r h
  refine ⟨n, _, hn, rfl, ?_⟩
  generalize sideBinOf lib a r.N n r.power = sb at hsig
  intro hsb hpow
  have h1n : 1 < n := by
    by_contra hc
    rw [hF, C27_only_dc _ _ (Or.inl (by omega))] at hsb
    omega
  obtain ⟨f1, f2, f3, _⟩ := C27_fundamental_strongest r.power n hnl h1n
  rw [← hF] at f1 f2 f3
  have hp := getD_nonneg _ hnn
  obtain ⟨b1, b2⟩ := lobe_sum_bounds (fun i => r.power.getD i 0) hp (range n ∩ lobe r.fundamentalBin sb) r.fundamentalBin sb
    (by unfold lobe; simp only [mem_inter, mem_range, mem_Icc]; omega) inter_subset_right (by
      intro i hi
      unfold lobe at hi
      simp only [mem_inter, mem_range, mem_Icc] at hi
      exact f3 i (by omega) hi.1)
  rw [← signal_power r.power n sb _ hnl] at b1 b2
  have e := plotDb_getD a r r.fundamentalBin (by omega)
  generalize signalPower r.power n sb r.fundamentalBin = S at *
  have hlv : vOffset a r = (r.sigPwr : EReal) - (plotDb a r).getD r.fundamentalBin 0 := rfl
  rw [hlv]
  generalize r.power.getD r.fundamentalBin 0 = p at *
  have h20 : (0 : ℝ) < 1 / 10 ^ 20 := by positivity
  have hp0 : 0 < p := lt_of_lt_of_le h20 hpow
  have hS : r.sigPwr = level S := by
    rw [hsig]
    unfold sigPwrDbfs level
    rw [ha]
    simp only
    rw [max_eq_left]
    refine le_trans ?_ (le_trans hpow b1)
    norm_num
  have hup : level S ≤ level (2 * sb + 1) + level p := by
    rw [← level_mul (by positivity) hp0]
    exact level_mono (by linarith) b2
  have hlo : level p ≤ level S := level_mono hp0 b1
  obtain ⟨l, hl, l1, l2, l3⟩ : ∃ l : ℝ, (plotDb a r).getD r.fundamentalBin 0 = (l : EReal) ∧ level p ≤ l ∧ l ≤ level p + level (1 + 1 / 10 ^ 20 / p) ∧ (0 < a.cutoff → l = level p) := by
    have hpl : level p + level (1 + 1 / 10 ^ 20 / p) = level (p + 1 / 10 ^ 20) := by
      rw [← level_mul hp0 (by positivity)]
      congr 1
      field_simp
    rw [hpl, e]
    split_ifs with hc
    · exact ⟨level p, dB_pos hp0, le_rfl, level_mono hp0 (by linarith), fun _ => rfl⟩
    · exact ⟨level (p + 1 / 10 ^ 20), dB_pos (by linarith), level_mono hp0 (by linarith), le_rfl, fun h => absurd h hc⟩
  rw [hl]
  refine ⟨r.sigPwr - l, by rw [EReal.coe_sub], ?_, ?_, ?_, ?_⟩
  · rw [← EReal.coe_add]
    congr 1
    ring
  · rw [hS]; linarith
  · intro hc
    rw [hS, l3 hc]; linarith
  · rw [hS]; linarith

/-- **C108 (noise line).** The dashed line is the level of one bin if the noise power is spread evenly over the `N / (2 OSR)` bins of the band: that many times its power is the
printed noise floor. It differs from the printed noise density only by the width of a bin, `fs / N`. -/
theorem C108_noise_line (lib : WinLib) (data : List (List ℝ)) (a : SpectrumArgs) (r : SpectrumResult) (h : computeSpectrum lib data a = .ok r) (hfs : 0 < a.fs)
    (f : ℝ) (hf : r.noiseFloor = some (f : EReal)) :
    ∃ l d : ℝ, noiseLine a r = some (l : EReal) ∧ r.nsd = some d ∧ (r.N / (2 * a.osr)) * (10 : ℝ) ^ (l / 10) = (10 : ℝ) ^ (f / 10) ∧ l = d + level (a.fs / r.N) := by
  obtain ⟨n, hn, hN, hnl, hM, hpn, hosr, _⟩ := facts lib data a r h
  have hNr : (0 : ℝ) < r.N := by exact_mod_cast hpn
  have hB : (0 : ℝ) < r.N / (2 * a.osr) := by positivity
  refine ⟨f - 10 * Real.logb 10 (r.N / (2 * a.osr)), f - 10 * Real.logb 10 (a.fs / (2 * a.osr)), ?_, (C62_noise_floor_identities lib data a r h).2.1 f hf, ?_, ?_⟩
  · unfold noiseLine
    rw [hf, Option.map_some, EReal.coe_sub]
  · rw [sub_div, show 10 * Real.logb 10 ((r.N : ℝ) / (2 * a.osr)) / 10 = Real.logb 10 (r.N / (2 * a.osr)) by ring, Real.rpow_sub (by norm_num),
      Real.rpow_logb (by norm_num) (by norm_num) hB]
    field_simp
  · unfold level
    rw [Real.logb_div hNr.ne' (by positivity), Real.logb_div hfs.ne' (by positivity), Real.logb_div hfs.ne' hNr.ne']
    ring

/-- The spur search returns a strongest in-band bin outside the DC and signal lobes. -/
theorem spur_max (p : List ℝ) (hp : NonnegSpec p) (n sb f : ℕ) (hn : n ≤ p.length) (idx : ℕ) (s : ℝ)
    (h : extractHighestSpur p sb n (f - sb) (min (f + sb + 1) n) = .ok (idx, s)) (hex : ∃ i ∈ nadBins n sb f, 0 < p.getD i 0) :
    idx ∈ nadBins n sb f ∧ ∀ i ∈ nadBins n sb f, p.getD i 0 ≤ p.getD idx 0 := by
  unfold extractHighestSpur at h
  simp only at h
  split_ifs at h with hne
  injection h with h
  set c := clearedInband p n sb (f - sb) (min (f + sb + 1) n) with hc
  have hlen : c.length = n := by rw [hc, cleared_length, min_eq_left hn]
  have hidx : argmax c < c.length := argmax_lt c hne
  have h1 : argmax c = idx := congrArg Prod.fst h
  rw [h1] at hidx
  have hmem : ∀ i, i ∈ nadBins n sb f → i < n ∧ c.getD i 0 = p.getD i 0 := by
    intro i hi
    unfold nadBins dcLobe lobe at hi
    simp only [mem_sdiff, mem_range, mem_Icc] at hi
    refine ⟨by omega, ?_⟩
    rw [hc, cleared_getD, if_pos]
    omega
  have hmax : ∀ i < n, c.getD i 0 ≤ c.getD idx 0 := by
    intro i hi
    have ha : c[argmax c]? = some (c[idx]'hidx) := by rw [h1]; exact List.getElem?_eq_getElem hidx
    have := argmax_max c _ ha (c[i]'(by omega)) (List.getElem_mem _)
    rw [List.getD_eq_getElem?_getD, List.getD_eq_getElem?_getD, List.getElem?_eq_getElem hidx,
      List.getElem?_eq_getElem (by omega : i < c.length)]
    exact this
  obtain ⟨i, hi, hi0⟩ := hex
  obtain ⟨q1, q2⟩ := hmem i hi
  have hpos : 0 < c.getD idx 0 := by
    have := hmax i q1
    rw [q2] at this
    linarith
  have hin : idx ∈ nadBins n sb f := by
    rw [hc, cleared_getD] at hpos
    split_ifs at hpos with hcond
    · unfold nadBins dcLobe lobe
      simp only [mem_sdiff, mem_range, mem_Icc]
      omega
    · exact absurd hpos (lt_irrefl _)
  refine ⟨hin, fun j hj => ?_⟩
  obtain ⟨j1, j2⟩ := hmem j hj
  rw [← j2, ← (hmem idx hin).2]
  exact hmax j j1

/-- **C108 (spur marker).** If any in-band bin outside the DC and signal lobes has power, the marker stands on the curve, at the highest of these bins. Its bin lies below the
signal by the printed SFDR or up to `10 log10(2 sb + 1)` dB more, because the printed value adds the side bins. -/
theorem C108_spur_marker (lib : WinLib) (data : List (List ℝ)) (a : SpectrumArgs) (r : SpectrumResult) (h : computeSpectrum lib data a = .ok r)
    (hlev : a.assumed ≠ none ∨ -300 < r.sigPwr) :
    ∃ n sb, rfftInbandBinCount (r.N : ℤ) a.osr = .ok n ∧ sb = sideBinOf lib a r.N n r.power ∧
      ((∃ i ∈ nadBins n sb r.fundamentalBin, 0 < r.power.getD i 0) →
        r.spurBin ∈ nadBins n sb r.fundamentalBin ∧ spurMarkX a r = (plotFreq a r).getD r.spurBin 0 ∧
        (∀ i ∈ nadBins n sb r.fundamentalBin, (plotDb a r).getD i 0 ≤ (plotDb a r).getD r.spurBin 0) ∧
        ∃ s : ℝ, r.sfdr = some (s : EReal) ∧ s ≤ r.sigPwr - level (r.power.getD r.spurBin 0) ∧ r.sigPwr - level (r.power.getD r.spurBin 0) ≤ s + level (2 * sb + 1)) := by
  obtain ⟨n, hn, hN, hnl, hM, hpn, hosr, hnn, hF, _, hsig, v, hv⟩ := facts lib data a r h
  obtain ⟨n', sb', hn', hsb', _, _, hsf, _⟩ := C62_decibel_ledger lib data a r h hlev
  rw [hn] at hn'
  injection hn' with hn'
  subst hn'
  rw [← hsb'] at hv
  refine ⟨n, sb', hn, hsb', fun hex => ?_⟩
  obtain ⟨s1, s2⟩ := spur_max r.power hnn n sb' r.fundamentalBin hnl r.spurBin v hv hex
  have hlt : ∀ i ∈ nadBins n sb' r.fundamentalBin, i < n := by
    intro i hi
    unfold nadBins at hi
    simp only [mem_sdiff, mem_range] at hi
    exact hi.1.1
  have hs := hlt _ s1
  obtain ⟨i, hi, hi0⟩ := hex
  have hp0 : 0 < r.power.getD r.spurBin 0 := lt_of_lt_of_le hi0 (s2 i hi)
  obtain ⟨b1, b2⟩ := lobe_sum_bounds (fun i => r.power.getD i 0) (getD_nonneg _ hnn) (lobe r.spurBin sb' ∩ nadBins n sb' r.fundamentalBin) r.spurBin sb'
    (by refine mem_inter.mpr ⟨?_, s1⟩; unfold lobe; rw [mem_Icc]; omega) inter_subset_left (fun i hi => s2 i (mem_inter.mp hi).2)
  generalize power (fun i => r.power.getD i 0) (lobe r.spurBin sb' ∩ nadBins n sb' r.fundamentalBin) = S at *
  refine ⟨s1, ?_, fun i hi => (C108_curve lib data a r h r.spurBin (by omega)).2.2 i (by have := hlt i hi; omega) (s2 i hi), r.sigPwr - level S, ?_, ?_, ?_⟩
  · rw [plotFreq_getD a r _ (by omega)]
    unfold spurMarkX
    ring
  · rw [hsf, if_neg (by linarith)]
  · have := level_mono hp0 b1
    linarith
  · have := level_mono (by linarith : 0 < S) b2
    rw [level_mul (by positivity) hp0] at this
    linarith

/-- **C108 (texts).** The metric block has 8 to 11 lines, all inside the axis, at different heights and below the signal text (at 0.98). The signal text starts inside the axis whenever the fundamental is
not at DC and the record has more than two samples. -/
theorem C108_texts (lib : WinLib) (data : List (List ℝ)) (a : SpectrumArgs) (r : SpectrumResult) (h : computeSpectrum lib data a = .ok r) (hfs : 0 < a.fs) :
    8 ≤ legendRows a r ∧ legendRows a r ≤ 11 ∧ (∀ i < legendRows a r, 0 < legendY i ∧ legendY i < 98 / 100) ∧ (∀ i j, legendY i = legendY j → i = j) ∧
    (2 < r.N → 0 < r.fundamentalBin → (freqLimits a r).1 ≤ (signalTextX a r).1 ∧ (signalTextX a r).1 ≤ (freqLimits a r).2) := by
  obtain ⟨n, hn, hN, hnl, hM, hpn, hosr, hnn, hF, _⟩ := facts lib data a r h
  have h11 : legendRows a r ≤ 11 := by unfold legendRows; split_ifs <;> omega
  refine ⟨by unfold legendRows; omega, h11, fun i hi => ?_, fun i j hij => ?_, fun hN2 h0 => ?_⟩
  · have h2 : (i : ℚ) ≤ 10 := by
      have : i ≤ 10 := by omega
      exact_mod_cast this
    have h3 : (0 : ℚ) ≤ i := Nat.cast_nonneg i
    unfold legendY
    constructor <;> linarith
  · unfold legendY at hij
    have : (i : ℚ) = j := by linarith
    exact_mod_cast this
  · have hlt : r.fundamentalBin < r.N / 2 + 1 := by
      have : r.fundamentalBin < n := by
        rw [hF]
        by_cases h1 : 1 < n
        · exact (C27_fundamental_strongest r.power n hnl h1).2.1
        · rw [C27_only_dc _ _ (Or.inl (by omega))]; omega
      omega
    have hNr : (0 : ℝ) < r.N := by exact_mod_cast hpn
    have k1 : (1 : ℝ) / r.N ≤ (r.fundamentalBin : ℝ) / r.N := by
      rw [div_le_div_iff_of_pos_right hNr]; exact_mod_cast h0
    have k2 : (r.fundamentalBin : ℝ) / r.N ≤ 1 / 2 := by
      rw [div_le_div_iff₀ hNr (by norm_num)]
      have : r.fundamentalBin * 2 ≤ 1 * r.N := by omega
      exact_mod_cast this
    have k3 : 4 / 10 < (r.fundamentalBin : ℝ) / r.N → 1 / (r.N : ℝ) + 1 / 100 ≤ (r.fundamentalBin : ℝ) / r.N := by
      intro hx
      rw [lt_div_iff₀ hNr] at hx
      have h2 : 2 ≤ r.fundamentalBin := by
        by_contra hc
        have h1 : r.fundamentalBin = 1 := by omega
        rw [h1] at hx
        have : (3 : ℝ) ≤ r.N := by exact_mod_cast hN2
        push_cast at hx
        linarith
      have h2' : (2 : ℝ) ≤ r.fundamentalBin := by exact_mod_cast h2
      rw [div_add' _ _ _ hNr.ne', div_le_div_iff_of_pos_right hNr]
      linarith
    unfold signalTextX freqLimits
    rw [plotFreq_getD a r _ (by omega), mul_div_right_comm, show a.fs / r.N = 1 / r.N * a.fs by ring, show a.fs / 2 = 1 / 2 * a.fs by ring]
    generalize (r.fundamentalBin : ℝ) / r.N = x at *
    generalize (1 : ℝ) / r.N = y at *
    split_ifs with g1 g2 <;> simp only
    · exact ⟨mul_le_mul_of_nonneg_right k1 hfs.le, mul_le_mul_of_nonneg_right k2 hfs.le⟩
    · refine ⟨mul_le_mul_of_nonneg_right ?_ hfs.le, mul_le_mul_of_nonneg_right (by linarith) hfs.le⟩
      linarith [k3 g2]
    · exact ⟨mul_le_mul_of_nonneg_right (by linarith) hfs.le, mul_le_mul_of_nonneg_right (by linarith) hfs.le⟩

private theorem cis_quarter (k n : ℕ) : cis (-(((k : ℤ) : ℝ) * n / ((4 : ℕ) : ℝ))) = (-Complex.I) ^ (k * n) := by
  have c1 : cis (-(1 / 4)) = -Complex.I := by
    apply Complex.ext
    · rw [cis_re, show 2 * Real.pi * (-(1 / 4)) = -(Real.pi / 2) by ring, Real.cos_neg, Real.cos_pi_div_two]; simp
    · rw [cis_im, show 2 * Real.pi * (-(1 / 4)) = -(Real.pi / 2) by ring, Real.sin_neg, Real.sin_pi_div_two]; simp
  rw [← c1, ← cis_nat_mul]
  congr 1
  push_cast
  ring

private theorem dft_four (w x y z : ℝ) :
    ‖dft 4 (fun n => ((([w, x, y, z] : List ℝ).getD n 0 * 1 : ℝ) : ℂ)) (1 : ℕ)‖ ^ 2 = (w - y) ^ 2 + (x - z) ^ 2 ∧
    ‖dft 4 (fun n => ((([w, x, y, z] : List ℝ).getD n 0 * 1 : ℝ) : ℂ)) (2 : ℕ)‖ ^ 2 = (w - x + y - z) ^ 2 := by
  have e1 : dft 4 (fun n => ((([w, x, y, z] : List ℝ).getD n 0 * 1 : ℝ) : ℂ)) (1 : ℕ) = ⟨w - y, z - x⟩ := by
    unfold dft
    simp only [sum_range_succ, sum_range_zero, List.getD_cons_zero, List.getD_cons_succ]
    rw [cis_quarter 1 0, cis_quarter 1 1, cis_quarter 1 2, cis_quarter 1 3]
    apply Complex.ext <;> simp [pow_succ] <;> ring
  have e2 : dft 4 (fun n => ((([w, x, y, z] : List ℝ).getD n 0 * 1 : ℝ) : ℂ)) (2 : ℕ) = ⟨w - x + y - z, 0⟩ := by
    unfold dft
    simp only [sum_range_succ, sum_range_zero, List.getD_cons_zero, List.getD_cons_succ]
    rw [cis_quarter 2 0, cis_quarter 2 1, cis_quarter 2 2, cis_quarter 2 3]
    apply Complex.ext <;> simp [pow_succ] <;> ring
  rw [e1, e2, Complex.sq_norm, Complex.sq_norm, Complex.normSq_apply, Complex.normSq_apply]
  constructor <;> ring

/-- One run of four samples, boxcar window, given prepared data: the levels of the bins 1 and 2. -/
private theorem four_run (lib : WinLib) (row : List ℝ) (a : SpectrumArgs) (w x y z : ℝ) (hw : a.win = "boxcar") (ho : a.osr = 1) (hc : a.cutoff ≤ 0) (hco : a.coherent = false)
    (hm : 1 ≤ a.maxHarmonic) (hnf0 : 0 ≤ a.nfMethod) (hnf : a.nfMethod ≤ 4) (hp : prepareFftInput [row] a.scale = .ok [[w, x, y, z]]) :
    ∃ r, computeSpectrum lib [row] a = .ok r ∧ r.N = 4 ∧ rfftInbandBinCount (r.N : ℤ) a.osr = .ok 3 ∧ r.power.length = 3 ∧
      r.power.getD 1 0 = ((w - y) ^ 2 + (x - z) ^ 2) / 4 ∧ r.power.getD 2 0 = (w - x + y - z) ^ 2 / 8 := by
  obtain ⟨r, hr⟩ := (C63_compute_spectrum_total lib _ a _ hp (by simp)).mpr ⟨by rw [ho]; exact one_pos, hm, hnf0, hnf⟩
  refine ⟨r, hr, ?_⟩
  obtain ⟨d, n', hd, hn', h1, hnl, hlen, hN, _, hnn, hpow, hm⟩ := computeSpectrum_ok lib _ a r hr
  obtain ⟨bins, spur, noise, _, _, _, hq⟩ := spectrumMetrics_ok _ _ _ _ _ _ _ hm
  have hdd : d = [[w, x, y, z]] := by rw [hp] at hd; injection hd with h; exact h.symm
  subst hdd
  have eN : r.N = 4 := by rw [hq]; rfl
  have hwv : windowVector lib a.win 4 = fun _ => 1 := by
    funext n
    unfold windowVector
    rw [if_pos (Or.inl hw)]
  refine ⟨eN, by rw [eN, ho]; exact C25_osr_one (K := ℝ) 4 (by norm_num), by rw [hlen]; simp, ?_, ?_⟩ <;>
  · rw [hpow]
    unfold applyCutoff
    rw [if_neg (not_lt.mpr hc)]
    unfold rawSpectrum powerAverage
    simp only [List.headD_cons, List.length_cons, List.length_nil, Nat.zero_add, Nat.reduceAdd, hwv]
    rw [hco]
    simp only [Bool.false_eq_true, if_false, runsOf, List.map_cons, List.map_nil]
    rw [List.getD_eq_getElem?_getD, List.getElem?_map, List.getElem?_map, List.getElem?_range (by norm_num)]
    simp only [Option.map_some, Option.getD_some, (dft_four w x y z).1, (dft_four w x y z).2]
    unfold oneSided powerCorrection windowGain windowEnbw
    norm_num
    try ring

private theorem square_run (lib : WinLib) :
    ∃ r, computeSpectrum lib [[1, 1, -1, -1]] { win := "boxcar", sideBin := some 0 } = .ok r ∧ r.N = 4 ∧ rfftInbandBinCount (r.N : ℤ) (1 : ℝ) = .ok 3 ∧ r.power.length = 3 ∧
      r.power.getD 1 0 = 2 := by
  obtain ⟨r, h1, h2, h3, h4, h5, _⟩ := four_run lib [1, 1, -1, -1] { win := "boxcar", sideBin := some 0 } 1 1 (-1) (-1) rfl rfl (by norm_num) rfl (by norm_num) (by norm_num) (by norm_num) (by
    show prepareFftInput [[(1 : ℝ), 1, -1, -1]] .auto = _
    unfold prepareFftInput
    simp only [orient, peakAmplitude, removeDc, maxOf, minOf, List.flatten, List.foldl]
    norm_num)
  exact ⟨r, h1, h2, h3, h4, by rw [h5]; norm_num⟩

/-- The hypotheses of `C108_frequency_axis`, `C108_curve`, `C108_fundamental_marker`, `C108_texts` hold for a square wave. -/
example (lib : WinLib) : ∃ r, computeSpectrum lib [[1, 1, -1, -1]] { win := "boxcar", sideBin := some 0 } = .ok r ∧ 1 < r.N / 2 + 1 ∧ 2 < r.N := by
  obtain ⟨r, h, hN, _⟩ := square_run lib
  exact ⟨r, h, by rw [hN]; norm_num, by rw [hN]; norm_num⟩

/-- Those of `C108_signal_text` and `C108_noise_line` as well. -/
example (lib : WinLib) : ∃ r, computeSpectrum lib [[1, 1, -1, -1]] { win := "boxcar", sideBin := some 0 } = .ok r ∧
    sideBinOf lib { win := "boxcar", sideBin := some 0 } r.N 3 r.power < r.fundamentalBin ∧ 1 / 10 ^ 20 ≤ r.power.getD r.fundamentalBin 0 := by
  obtain ⟨r, h, hN, hn, hl, h1⟩ := square_run lib
  obtain ⟨n, hn', hf, hf1, hmax⟩ := C108_fundamental_marker lib _ _ r h
  have e3 : n = 3 := by
    have := hn'.symm.trans hn
    injection this
  subst e3
  obtain ⟨n2, hn2, _, _, _, _, _, _, hF, _⟩ := facts lib _ _ r h
  have e3 : n2 = 3 := by
    have := hn2.symm.trans hn
    injection this
  subst e3
  obtain ⟨_, _, f3, _⟩ := C27_fundamental_strongest r.power 3 (by omega) (by norm_num)
  rw [← hF] at f3
  refine ⟨r, h, ?_, ?_⟩
  · exact hf1 (by norm_num)
  · have := f3 1 le_rfl (by norm_num)
    rw [h1] at this
    exact le_trans (by norm_num) this

/-- Those of `C108_spur_marker` hold for a pulse. -/
example (lib : WinLib) : ∃ r, computeSpectrum lib [[1, 0, 0, 0]] { win := "boxcar", sideBin := some 0, scale := .scalar 1, assumed := some 0 } = .ok r ∧
    ∃ i ∈ nadBins 3 0 r.fundamentalBin, 0 < r.power.getD i 0 := by
  obtain ⟨r, h1, h2, h3, h4, h5, h6⟩ := four_run lib [1, 0, 0, 0] { win := "boxcar", sideBin := some 0, scale := .scalar 1, assumed := some 0 } (3 / 4) (-(1 / 4)) (-(1 / 4)) (-(1 / 4))
    rfl rfl (by norm_num) rfl (by norm_num) (by norm_num) (by norm_num) (by
    unfold prepareFftInput
    simp only [orient, peakAmplitude, removeDc]
    norm_num)
  obtain ⟨n, hn', hf, hf1, hmax⟩ := C108_fundamental_marker lib _ _ r h1
  have e3 : n = 3 := by
    have := hn'.symm.trans h3
    injection this
  subst e3
  refine ⟨r, h1, ?_⟩
  have hf1 := hf1 (by norm_num)
  rcases (show r.fundamentalBin = 1 ∨ r.fundamentalBin = 2 by omega) with e | e
  · exact ⟨2, by rw [e]; decide, by rw [h6]; norm_num⟩
  · exact ⟨1, by rw [e]; decide, by rw [h5]; norm_num⟩

/-- **C108 (levels above full scale).** The level axis ends at 0 dBFS, but with the automatic range a record can exceed it: the fundamental of this square wave is plotted at more than 3 dBFS,
outside the axis. -/
theorem C108_above_axis (lib : WinLib) :
    ∃ r, computeSpectrum lib [[1, 1, -1, -1]] { win := "boxcar", sideBin := some 0 } = .ok r ∧
      levelTop + ((3 : ℝ) : EReal) < (plotDb { win := "boxcar", sideBin := some 0 } r).getD r.fundamentalBin 0 := by
  obtain ⟨r, hr, hN, hn3, hlen, hp1⟩ := square_run lib
  set a : SpectrumArgs := { win := "boxcar", sideBin := some 0 } with ha
  refine ⟨r, hr, ?_⟩
  obtain ⟨n, hn, hf, _, hmax⟩ := C108_fundamental_marker lib _ a r hr
  have hn3 : n = 3 := by
    have := hn.symm.trans hn3
    injection this
  have hc := plotDb_getD a r 1 (by rw [hlen]; norm_num)
  rw [if_neg (by norm_num [ha]), hp1, dB_pos (by positivity)] at hc
  refine lt_of_lt_of_le ?_ (hmax 1 le_rfl (by omega))
  rw [hc]
  unfold levelTop
  rw [zero_add, EReal.coe_lt_coe_iff]
  have h3 : (3 : ℝ) = 10 * Real.logb 10 ((10 : ℝ) ^ ((3 : ℝ) / 10)) := by
    rw [Real.logb_rpow (by norm_num) (by norm_num)]; norm_num
  rw [h3]
  refine mul_lt_mul_of_pos_left (Real.logb_lt_logb (by norm_num) (by positivity) ?_) (by norm_num)
  have h2 : (10 : ℝ) ^ ((3 : ℝ) / 10) < 2 := by
    have : ((10 : ℝ) ^ ((3 : ℝ) / 10)) ^ 10 < 2 ^ 10 := by
      rw [← Real.rpow_natCast, ← Real.rpow_mul (by norm_num)]
      norm_num
    exact lt_of_pow_lt_pow_left₀ 10 (by norm_num) this
  have : (0 : ℝ) < 1 / 10 ^ 20 := by positivity
  linarith

/-! ## Dead runs -/

private theorem removeDc_const (c : ℝ) (n : ℕ) : removeDc (List.replicate n c) = List.replicate n 0 := by
  unfold removeDc
  rw [List.map_replicate, List.sum_replicate, List.length_replicate]
  rcases Nat.eq_zero_or_pos n with h | h
  · subst h; rfl
  · congr 1
    have : (n : ℝ) ≠ 0 := by exact_mod_cast h.ne'
    rw [nsmul_eq_mul, mul_div_cancel_left₀ _ this, sub_self]

private theorem coherent_append_zero (d : List (List ℝ)) (w : ℕ → ℝ) (N n m : ℕ) :
    coherentAverage (runsOf (d ++ [List.replicate m 0]) w) N n = coherentAverage (runsOf d w) N n := by
  have hz : ∀ t, (List.replicate m (0 : ℝ)).getD t 0 * w t = 0 := by
    intro t
    have : (List.replicate m (0 : ℝ)).getD t 0 = 0 := by
      rw [List.getD_eq_getElem?_getD, List.getElem?_replicate]
      split_ifs <;> rfl
    rw [this, zero_mul]
  have hnone : coherentRun (fun t => (List.replicate m (0 : ℝ)).getD t 0 * w t) N n = none := by
    unfold coherentRun
    rw [if_pos]
    intro t _
    show |(List.replicate m (0 : ℝ)).getD t 0 * w t| < 1 / 10 ^ 10
    rw [hz, abs_zero]
    positivity
  have hf : (runsOf (d ++ [List.replicate m 0]) w).filterMap (fun x => coherentRun x N n) = (runsOf d w).filterMap fun x => coherentRun x N n := by
    unfold runsOf
    rw [List.map_append, List.filterMap_append, List.map_cons, List.map_nil, List.filterMap_cons, hnone]
    simp
  unfold coherentAverage coherentSum
  rw [hf]

/-- **C108 (dead runs).** With coherent averaging and a given full scale, a further run that is constant changes nothing in the spectrum, and with the noise methods 2, 3 and 4 nothing in the report except the
number of runs `M`. That number is what the title and the coherent-gain note show, so both count the dead run. -/
theorem C108_dead_run (lib : WinLib) (data : List (List ℝ)) (a : SpectrumArgs) (v c : ℝ) (hs : a.scale = .scalar v) (hco : a.coherent = true)
    (hm : a.nfMethod = 2 ∨ a.nfMethod = 3 ∨ a.nfMethod = 4) (hne : data ≠ []) (hshape : data.length < (data.headD []).length) (r : SpectrumResult)
    (h : computeSpectrum lib data a = .ok r) :
    computeSpectrum lib (data ++ [List.replicate (data.headD []).length c]) a = .ok { r with M := r.M + 1 } ∧
    coherentNote a { r with M := r.M + 1 } = some (10 * Real.logb 10 (r.M + 1)) := by
  have hhead : (data ++ [List.replicate (data.headD []).length c]).headD [] = data.headD [] := by
    cases data with
    | nil => exact absurd rfl hne
    | cons x l => rfl
  have ho : ∀ d : List (List ℝ), d.length ≤ (d.headD []).length → orient d = d := by
    intro d hd
    unfold orient
    simp only
    rw [if_neg (by omega), if_neg (by omega)]
  have o1 := ho data hshape.le
  have o2 := ho (data ++ [List.replicate (data.headD []).length c]) (by rw [hhead, List.length_append]; simpa using hshape)
  obtain ⟨d, n, hd, hn, hN, hnl, hM, hpn, hosr, hnn, hpow, hmet⟩ := computeSpectrum_ok lib data a r h
  obtain ⟨bins, spur, noise, h1, h2, h3, hr⟩ := spectrumMetrics_ok _ _ _ _ _ _ _ hmet
  have eM : r.M = d.length := by rw [hr]; rfl
  have hdl : d.length = data.length := by
    rw [hs] at hd
    unfold prepareFftInput at hd
    simp only [o1, peakAmplitude] at hd
    injection hd with hd
    rw [← hd, List.length_map]
  obtain ⟨m, hprep⟩ : ∃ m, prepareFftInput (data ++ [List.replicate (data.headD []).length c]) a.scale = .ok (d ++ [List.replicate m 0]) := by
    refine ⟨(data.headD []).length, ?_⟩
    rw [hs] at hd ⊢
    unfold prepareFftInput at hd ⊢
    simp only [o1, peakAmplitude] at hd
    injection hd with hd
    simp only [o2, peakAmplitude]
    rw [← hd, List.map_append, List.map_cons, List.map_nil, removeDc_const]
    simp
  have hdne : d ≠ [] := by
    intro hc
    rw [hc] at hdl
    exact hne (List.length_eq_zero_iff.mp hdl.symm)
  have hhd : (d ++ [List.replicate m 0]).headD [] = d.headD [] := by
    cases d with
    | nil => exact absurd rfl hdne
    | cons x l => rfl
  have hraw : rawSpectrum lib a (d ++ [List.replicate m 0]) (d.headD []).length n = rawSpectrum lib a d (d.headD []).length n := by
    unfold rawSpectrum
    simp only [hco, if_true, coherent_append_zero]
  constructor
  · unfold computeSpectrum
    rw [hprep]
    simp only [hhd]
    rw [hn]
    simp only
    rw [hraw, ← hpow]
    unfold spectrumMetrics
    simp only
    rw [h1]
    simp only
    rw [h2]
    simp only
    have h4 : estimateNoisePower r.power a.nfMethod n (d ++ [List.replicate m 0]).length (locateFundamental r.power n).1 bins (sideBinOf lib a (d.headD []).length n r.power)
        = .ok noise := by
      rw [← h3]
      unfold estimateNoisePower
      rcases hm with hm | hm | hm <;> rw [hm] <;> norm_num
    rw [h4]
    simp only
    congr 1
    have eM' : ∀ k, { assemble a d.length (d.headD []).length n r.power (sideBinOf lib a (d.headD []).length n r.power) bins spur noise with M := k }
        = assemble a k (d.headD []).length n r.power (sideBinOf lib a (d.headD []).length n r.power) bins spur noise := fun k => rfl
    rw [List.length_append, List.length_singleton, ← eM' (d.length + 1), ← hr, eM]
  · unfold coherentNote
    have : 1 ≤ r.M := by
      rw [eM]
      exact List.length_pos_iff.mpr hdne
    rw [if_pos ⟨hco, by simp only; omega⟩]
    push_cast
    rfl

example : ∃ r, computeSpectrum ⟨fun _ _ => 1, fun _ _ => 1⟩ [[1, 1, -1, -1]] { win := "boxcar", scale := .scalar 1, coherent := true, nfMethod := 3 } = .ok r :=
  (C63_compute_spectrum_total _ _ _ [[1, 1, -1, -1]] (by
    unfold prepareFftInput
    simp only [orient, peakAmplitude, removeDc]
    norm_num) (by simp)).mpr ⟨one_pos, by norm_num, by norm_num, by norm_num⟩

end Verif
