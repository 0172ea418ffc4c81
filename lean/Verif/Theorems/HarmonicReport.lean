import Verif.Theorems.HarmonicNoise
import Verif.Theorems.Sinad

/-!
# C152, continued: the harmonic decomposition and the spectrum report agree

`decompose_harmonic_error` (time domain, least squares) and `compute_spectrum` (frequency domain) on the same record.
-/

namespace Verif

open Model Finset Spec

/-- The magnitude of the transform at an alias. -/
private theorem alias_norm (N : ℕ) (hN : N ≠ 0) (x : ℕ → ℝ) (m : ℕ) (c : ℕ) (h : FirstZoneAlias (m : ℝ) (N : ℝ) (c : ℝ)) :
    ‖dft N (fun t => (x t : ℂ)) (c : ℤ)‖ = ‖dft N (fun t => (x t : ℂ)) (m : ℤ)‖ := by
  obtain ⟨_, _, z, hz | hz⟩ := h
  · have e : (c : ℤ) = m + -z * N := by
      have : (c : ℝ) = m + -z * N := by linarith
      exact_mod_cast this
    rw [e, dft_periodic N hN]
  · have e : (c : ℤ) = -(m : ℤ) + z * N := by
      have : (c : ℝ) = -(m : ℝ) + z * N := by linarith
      exact_mod_cast this
    rw [e, dft_periodic N hN, ← dft_conj, RCLike.norm_conj]

private theorem alias_dvd (N m c : ℕ) (h : FirstZoneAlias (m : ℝ) (N : ℝ) (c : ℝ)) : (N : ℤ) ∣ (m : ℤ) - c ∨ (N : ℤ) ∣ (m : ℤ) + c := by
  obtain ⟨_, _, z, hz | hz⟩ := h
  · have e : (m : ℤ) = z * N + c := by exact_mod_cast hz
    exact Or.inl ⟨z, by rw [e]; ring⟩
  · have e : (m : ℝ) + c = z * N := by linarith
    have e : (m : ℤ) + c = z * N := by exact_mod_cast e
    exact Or.inr ⟨z, by rw [e]; ring⟩

private theorem apart_int {n b H : ℕ} (h : HarmonicsApart n b H) (m : ℤ) (h0 : m ≠ 0) (h1 : |m| ≤ 2 * H) : ¬ (n : ℤ) ∣ m * b := by
  intro hd
  refine h.apart m.natAbs (by omega) (by have := Int.natCast_natAbs m; omega) ?_
  have := Int.natAbs_dvd_natAbs.mpr hd
  rwa [Int.natAbs_natCast, Int.natAbs_mul, Int.natAbs_natCast] at this

/-- Where the aliases are. -/
private theorem alias_bin {n b H : ℕ} (h : HarmonicsApart n b H) (k c : ℕ) (hk0 : 0 < k) (hk : k ≤ H) (hc : FirstZoneAlias (((k * b : ℕ) : ℕ) : ℝ) (n : ℝ) (c : ℝ)) :
    0 < c ∧ 2 * c < n ∧ ∀ j c' : ℕ, 0 < j → j ≤ H → j ≠ k → FirstZoneAlias (((j * b : ℕ) : ℕ) : ℝ) (n : ℝ) (c' : ℝ) → c' ≠ c := by
  have hd := alias_dvd _ _ _ hc
  push_cast at hd
  refine ⟨?_, ?_, fun j c' hj0 hj hjk hc' he => ?_⟩
  · by_contra h0
    have h0 : c = 0 := by omega
    rw [h0] at hd
    apply apart_int h k (by omega) (by rw [abs_of_nonneg (by omega)]; omega)
    rcases hd with hd | hd <;> simpa using hd
  · have h1 : (c : ℝ) ≤ n / 2 := hc.2.1
    have h2 : 2 * c ≤ n := by
      have : (2 : ℝ) * c ≤ n := by linarith
      exact_mod_cast this
    by_contra h3
    have h4 : n = 2 * c := by omega
    apply apart_int h (2 * k) (by omega) (by rw [abs_of_nonneg (by omega)]; omega)
    have h4' : (n : ℤ) = 2 * c := by exact_mod_cast h4
    rcases hd with ⟨z, hz⟩ | ⟨z, hz⟩
    · exact ⟨2 * z + 1, by linear_combination 2 * hz - h4'⟩
    · exact ⟨2 * z - 1, by linear_combination 2 * hz + h4'⟩
  · subst he
    have hd' := alias_dvd _ _ _ hc'
    push_cast at hd'
    rcases hd with ⟨z, hz⟩ | ⟨z, hz⟩ <;> rcases hd' with ⟨w, hw⟩ | ⟨w, hw⟩
    · exact apart_int h ((j : ℤ) - k) (by omega) (by rw [abs_le]; omega) ⟨w - z, by linear_combination hw - hz⟩
    · exact apart_int h ((j : ℤ) + k) (by omega) (by rw [abs_le]; omega) ⟨w + z, by linear_combination hw + hz⟩
    · exact apart_int h ((j : ℤ) + k) (by omega) (by rw [abs_le]; omega) ⟨w + z, by linear_combination hw + hz⟩
    · exact apart_int h ((j : ℤ) - k) (by omega) (by rw [abs_le]; omega) ⟨w - z, by linear_combination hw - hz⟩

/-- The report of a call without window and side bins. -/
private theorem plain_report (lib : WinLib) (a : SpectrumArgs) (ha : PlainCall a) (row : List ℝ) (V : ℝ) (hV : V ≠ 0)
    (hpk : peakAmplitude [row] a.scale = .ok V) (s : SpectrumResult) (h : computeSpectrum lib [row] a = .ok s) :
    ∃ sig, sig = signalPower s.power s.power.length 0 s.fundamentalBin ∧
      s.sndr = dB (sig / (noiseAndDistortion s.power s.power.length 0 s.fundamentalBin + 1 / 10 ^ 20)) ∧
      s.thd = (if 0 < sig then some (dB ((calculateHarmonicPower s.power s.fundamentalBin s.harmonicBins 0).1 / sig)) else none) ∧
      s.harmonics = (if 0 < sig then some ((calculateHarmonicPower s.power s.fundamentalBin s.harmonicBins 0).2.1.map fun v => dB (v / sig)) else none) := by
  obtain ⟨hN0, hrN, hpl, hp0, hpk', hsum⟩ := boxcar_spectrum lib a ha.win row V hV hpk ha.coh ha.cut s h
  obtain ⟨d, n', hd, hn', _, hnl, hpl', _, _, hnn, hpow, hm⟩ := computeSpectrum_ok lib _ a s h
  obtain ⟨bins, spur, noise, _, _, _, hr⟩ := spectrumMetrics_ok _ _ _ _ _ _ _ hm
  have hdl : (d.headD []).length = row.length := by
    have : s.N = (d.headD []).length := by rw [hr]; rfl
    rw [← this, hrN]
  have hcount : n' = s.power.length := by
    rw [hdl, ha.osr, C25_osr_one _ (by exact_mod_cast hN0)] at hn'
    injection hn' with hn'
    omega
  have hsb : sideBinOf lib a (d.headD []).length n' s.power = 0 := by unfold sideBinOf; rw [ha.side]
  rw [hsb, hcount] at hr
  have hf : s.fundamentalBin = (locateFundamental s.power s.power.length).1 := by
    conv_lhs => rw [hr]
    rfl
  have hb : s.harmonicBins = bins := by
    conv_lhs => rw [hr]
    rfl
  have hsig : ∀ v, sigLinear a v = v := by intro v; unfold sigLinear; rw [ha.ass]
  refine ⟨_, rfl, ?_, ?_, ?_⟩
  · conv_lhs => rw [hr]
    rw [hf]
    show dB (sigLinear a _ / _) = _
    rw [hsig]
  · conv_lhs => rw [hr]
    rw [hf, hb]
    show (if 0 < sigLinear a _ then some (dB (_ / sigLinear a _)) else none) = _
    rw [hsig]
  · conv_lhs => rw [hr]
    rw [hf, hb]
    show (if 0 < sigLinear a _ then some (List.map (fun v => dB (v / sigLinear a _)) _) else none) = _
    rw [hsig]

private theorem signal_bin (p : List ℝ) (b : ℕ) (hb : b < p.length) : signalPower p p.length 0 b = p.getD b 0 := by
  unfold signalPower
  rw [slice_sum]
  rw [show min (min (b + 0 + 1) p.length) p.length = b + 1 by omega]
  rw [Nat.sub_zero, Finset.sum_Ico_succ_top (by omega)]
  simp

private theorem floor_ratio (x y V : ℝ) (hV : V ≠ 0) : max ((x / (2 * V)) ^ 2) (1 / 10 ^ 15) / (y / (2 * V)) ^ 2 = max (x ^ 2) (4 * V ^ 2 / 10 ^ 15) / y ^ 2 := by
  have hV2 : 0 < 4 * V ^ 2 := by positivity
  have e : (1 : ℝ) / 10 ^ 15 = (4 * V ^ 2 / 10 ^ 15) / (4 * V ^ 2) := by field_simp
  rw [div_pow, div_pow, show (2 * V) ^ 2 = 4 * V ^ 2 by ring, e, max_div_div_right hV2.le, div_div_div_cancel_right₀ hV2.ne']

private theorem single (row : List ℝ) (t : ℕ) : averageRecord 1 (fun _ t => row.getD t 0) t = row.getD t 0 := by
  unfold averageRecord
  simp

section

variable (lib : WinLib) (a : SpectrumArgs) (ha : PlainCall a) (row : List ℝ) (hrow : row.length ≠ 1) (V : ℝ) (hV : V ≠ 0) (hpk : peakAmplitude [row] a.scale = .ok V)
  (s : SpectrumResult) (h : computeSpectrum lib [row] a = .ok s) (H : ℕ) (hap : HarmonicsApart row.length s.fundamentalBin H) (solve : Lstsq) (hs : IsLstsq solve) (freq : Option ℝ) (maxIter : ℤ) (tol : ℝ) (r : HarmonicSplit)
  (hr : decomposeHarmonic solve 1 row.length (fun _ t => row.getD t 0) H freq maxIter tol = .ok r) (hf : r.fundamentalFreq = (s.fundamentalBin : ℝ) / row.length)

include ha hrow hV hpk h hap hs hr hf

/-- The power spectrum at the bin of a harmonic. -/
private theorem bin_power (k c : ℕ) (hk : k < H) (hc : FirstZoneAlias ((((k + 1) * s.fundamentalBin : ℕ) : ℕ) : ℝ) (row.length : ℝ) (c : ℝ)) :
    0 < c ∧ 2 * c < row.length ∧ c < s.power.length ∧ s.power.getD c 0 = (r.magnitudes k / (2 * V)) ^ 2 := by
  obtain ⟨hN0, hrN, hpl, hp0, hpk', hsum⟩ := boxcar_spectrum lib a ha.win row V hV hpk ha.coh ha.cut s h
  obtain ⟨h1, h2, _⟩ := alias_bin hap (k + 1) c (by omega) (by omega) hc
  have hNR : (row.length : ℝ) ≠ 0 := by exact_mod_cast hN0.ne'
  refine ⟨h1, h2, by omega, ?_⟩
  have hd := C152_dft solve hs 1 hrow _ freq maxIter tol r hr hap hf k hk
  simp only [single] at hd
  rw [hpk' c h1 (by omega) (by omega), alias_norm _ hN0.ne' (fun t => row.getD t 0) _ c hc, hd]
  unfold oneSided
  simp only
  rw [if_neg (by omega), if_neg (by omega)]
  field_simp
  ring

/-- The fundamental itself. -/
private theorem fund_power : 0 < s.fundamentalBin ∧ 2 * s.fundamentalBin < row.length ∧ s.fundamentalBin < s.power.length ∧
    s.power.getD s.fundamentalBin 0 = (r.magnitudes 0 / (2 * V)) ^ 2 := by
  obtain ⟨hN0, hrN, hpl, hp0, hpk', hsum⟩ := boxcar_spectrum lib a ha.win row V hV hpk ha.coh ha.cut s h
  obtain ⟨hH, _⟩ := decompose_ok solve 1 row.length _ H freq maxIter tol r hr hrow
  have hfb := (plain_metrics lib a ha row V hV hpk s h).1
  have hlt := (C27_fundamental_strongest s.power s.power.length le_rfl (by omega)).2.1
  rw [← hfb] at hlt
  refine bin_power lib a ha row hrow V hV hpk s h H hap solve hs freq maxIter tol r hr hf 0 s.fundamentalBin (by exact_mod_cast hH) ⟨by positivity, ?_, 0, Or.inl (by push_cast; ring)⟩
  have : 2 * s.fundamentalBin ≤ row.length := by omega
  have : (2 : ℝ) * s.fundamentalBin ≤ row.length := by exact_mod_cast this
  linarith

/-- **C152 (SNDR).** `compute_spectrum` without window and side bins and `decompose_harmonic_error` with any number of harmonics, at the located bin: the reported SNDR is the
power of the fundamental over that of the other harmonics and the residual, up to the documented floor of 1e-20 of full scale. -/
theorem C152_sndr : s.sndr = dB (r.magnitudes 0 ^ 2 / (∑ k ∈ Ico 1 H, r.magnitudes k ^ 2 + r.residualRms ^ 2 + 4 * V ^ 2 / 10 ^ 20)) := by
  obtain ⟨hN0, hrN, hpl, hp0, hpk', hsum⟩ := boxcar_spectrum lib a ha.win row V hV hpk ha.coh ha.cut s h
  obtain ⟨hH, _⟩ := decompose_ok solve 1 row.length _ H freq maxIter tol r hr hrow
  have hH : 0 < H := by exact_mod_cast hH
  obtain ⟨f1, f2, f3, f4⟩ := fund_power lib a ha row hrow V hV hpk s h H hap solve hs freq maxIter tol r hr hf
  have hpow := C152_power solve hs 1 hrow _ freq maxIter tol r hr hap hf
  simp only [single] at hpow
  rw [((plain_metrics lib a ha row V hV hpk s h).2 f1 f2).1, f4, hsum]
  have hNR : (row.length : ℝ) ≠ 0 := by exact_mod_cast hN0.ne'
  have e1 : 2 / (row.length : ℝ) * (∑ n ∈ range row.length, (row.getD n 0 - recMean row.length (fun n => row.getD n 0)) ^ 2) / V ^ 2
      = (∑ k ∈ range H, r.magnitudes k ^ 2 + r.residualRms ^ 2) / (4 * V ^ 2) := by
    unfold recMean
    rw [← sum_div] at hpow
    have : ∑ t ∈ range row.length, (row.getD t 0 - (∑ u ∈ range row.length, row.getD u 0) / row.length) ^ 2
        = row.length * ((∑ k ∈ range H, r.magnitudes k ^ 2) / 8 + r.residualRms ^ 2 / 8) := by
      rw [← hpow, mul_comm, div_mul_cancel₀ _ hNR]
    rw [this]
    field_simp
    ring
  rw [e1, ← Nat.Ico_zero_eq_range, sum_eq_sum_Ico_succ_bot hH, zero_add]
  have hV2 : 0 < V ^ 2 := by positivity
  have hnn : 0 ≤ ∑ k ∈ Ico 1 H, r.magnitudes k ^ 2 := sum_nonneg fun _ _ => sq_nonneg _
  obtain ⟨T, hT⟩ : ∃ T, T = ∑ k ∈ Ico 1 H, r.magnitudes k ^ 2 := ⟨_, rfl⟩
  rw [← hT] at hnn ⊢
  congr 1
  have e2 : (r.magnitudes 0 ^ 2 + T + r.residualRms ^ 2) / (4 * V ^ 2) - (r.magnitudes 0 / (2 * V)) ^ 2 + 1 / 10 ^ 20
      = (T + r.residualRms ^ 2 + 4 * V ^ 2 / 10 ^ 20) / (4 * V ^ 2) := by
    field_simp
    ring
  rw [e2, div_pow, show (2 * V) ^ 2 = 4 * V ^ 2 by ring, div_div_div_cancel_right₀ (by positivity)]

/-- **C152 (HD).** Every reported harmonic level is the ratio of the two magnitudes of the decomposition, down to the documented floor of 1e-15 of full scale, for every harmonic
whose bin was located. -/
theorem C152_hd (hpos : 0 < r.magnitudes 0) : ∃ hl, s.harmonics = some hl ∧ ∀ i < s.harmonicBins.length, i + 1 < H → ∀ c : ℕ, s.harmonicBins.getD i 0 = c →
    FirstZoneAlias ((((i + 2) * s.fundamentalBin : ℕ) : ℕ) : ℝ) (row.length : ℝ) (c : ℝ) →
    hl.getD i 0 = dB (max (r.magnitudes (i + 1) ^ 2) (4 * V ^ 2 / 10 ^ 15) / r.magnitudes 0 ^ 2) := by
  obtain ⟨f1, f2, f3, f4⟩ := fund_power lib a ha row hrow V hV hpk s h H hap solve hs freq maxIter tol r hr hf
  obtain ⟨sig, e1, _, _, e4⟩ := plain_report lib a ha row V hV hpk s h
  rw [signal_bin s.power s.fundamentalBin f3, f4] at e1
  have hV2 : 0 < V ^ 2 := by positivity
  have hsig : 0 < sig := by rw [e1]; positivity
  rw [if_pos hsig] at e4
  refine ⟨_, e4, fun i hi hiH c hc hal => ?_⟩
  obtain ⟨g1, g2, g3, g4⟩ := bin_power lib a ha row hrow V hV hpk s h H hap solve hs freq maxIter tol r hr hf (i + 1) c hiH hal
  obtain ⟨_, _, g5⟩ := alias_bin hap (i + 2) c (by omega) (by omega) hal
  have hne : s.fundamentalBin ≠ c := g5 1 s.fundamentalBin one_pos (by omega) (by omega) ⟨by positivity, by
    have : (2 : ℝ) * s.fundamentalBin < row.length := by exact_mod_cast f2
    linarith, 0, Or.inl (by push_cast; ring)⟩
  obtain ⟨hl, hv⟩ := C29_harmonic_power_spec s.power s.fundamentalBin 0 s.harmonicBins i hi
  rw [hc, if_pos ⟨by rw [lt_abs]; omega, by omega⟩] at hv
  have hset : ((range s.power.length).filter fun j : ℕ => |(j : ℤ) - (c : ℤ)| ≤ ((0 : ℕ) : ℤ)) = {c} := by
    ext j
    rw [mem_filter, mem_range, mem_singleton, abs_le]
    omega
  rw [hset, Spec.power, sum_singleton, g4] at hv
  rw [List.getD_eq_getElem _ _ (by rw [List.length_map, hl]; exact hi), List.getElem_map]
  rw [List.getD_eq_getElem _ _ (by rw [hl]; exact hi)] at hv
  rw [hv, e1]
  congr 1
  rw [floor_ratio _ _ _ hV]

/-- **C152 (THD).** The same for the total over the harmonics `2 … H`, all located. -/
theorem C152_thd (hpos : 0 < r.magnitudes 0) (hlen : s.harmonicBins.length = H - 1)
    (hbins : ∀ i < H - 1, ∃ c : ℕ, s.harmonicBins.getD i 0 = c ∧ FirstZoneAlias ((((i + 2) * s.fundamentalBin : ℕ) : ℕ) : ℝ) (row.length : ℝ) (c : ℝ)) :
    s.thd = some (dB (max (∑ k ∈ Ico 1 H, r.magnitudes k ^ 2) (4 * V ^ 2 / 10 ^ 15) / r.magnitudes 0 ^ 2)) := by
  obtain ⟨f1, f2, f3, f4⟩ := fund_power lib a ha row hrow V hV hpk s h H hap solve hs freq maxIter tol r hr hf
  obtain ⟨sig, e1, _, e3, _⟩ := plain_report lib a ha row V hV hpk s h
  rw [signal_bin s.power s.fundamentalBin f3, f4] at e1
  have hV2 : 0 < V ^ 2 := by positivity
  have hsig : 0 < sig := by rw [e1]; positivity
  rw [if_pos hsig, C29_thd_power] at e3
  choose! c hc1 hc2 using hbins
  have hpow := fun i (hi : i < H - 1) => bin_power lib a ha row hrow V hV hpk s h H hap solve hs freq maxIter tol r hr hf (i + 1) (c i) (by omega) (hc2 i hi)
  have hinj : ∀ i < H - 1, ∀ j < H - 1, c i = c j → i = j := by
    intro i hi j hj he
    by_contra hne
    exact (alias_bin hap (j + 2) (c j) (by omega) (by omega) (hc2 j hj)).2.2 (i + 2) (c i) (by omega) (by omega) (by omega) (hc2 i hi) he
  have hnf : ∀ i < H - 1, s.fundamentalBin ≠ c i := fun i hi => (alias_bin hap (i + 2) (c i) (by omega) (by omega) (hc2 i hi)).2.2 1 s.fundamentalBin one_pos (by omega) (by omega)
    ⟨by positivity, by
      have : (2 : ℝ) * s.fundamentalBin < row.length := by exact_mod_cast f2
      linarith, 0, Or.inl (by push_cast; ring)⟩
  have hset : thdBins s.power.length s.fundamentalBin 0 s.harmonicBins = (range (H - 1)).image c := by
    ext j
    rw [C29_thd_bins_spec, mem_image]
    constructor
    · rintro ⟨_, b, hb, _, _, hj⟩
      obtain ⟨i, hi, rfl⟩ := List.mem_iff_getElem.mp hb
      rw [hlen] at hi
      refine ⟨i, mem_range.mpr hi, ?_⟩
      have := hc1 i hi
      rw [List.getD_eq_getElem _ _ (by omega)] at this
      rw [this, abs_le] at hj
      omega
    · rintro ⟨i, hi, rfl⟩
      have hi := mem_range.mp hi
      obtain ⟨g1, _, g3, _⟩ := hpow i hi
      have := hnf i hi
      refine ⟨g3, (c i : ℤ), ?_, by rw [lt_abs]; omega, by omega, by simp⟩
      rw [← hc1 i hi, List.getD_eq_getElem _ _ (by omega)]
      exact List.getElem_mem _
  rw [e3, hset, Spec.power, sum_image fun i hi j hj => hinj i (mem_range.mp hi) j (mem_range.mp hj), sum_congr rfl fun i hi => (hpow i (mem_range.mp hi)).2.2.2]
  have e5 : ∑ k ∈ Ico 1 H, r.magnitudes k ^ 2 = ∑ i ∈ range (H - 1), r.magnitudes (i + 1) ^ 2 := by
    rw [sum_Ico_eq_sum_range]
    exact sum_congr rfl fun i _ => by rw [add_comm]
  rw [e5, e1]
  have e6 : ∑ i ∈ range (H - 1), (r.magnitudes (i + 1) / (2 * V)) ^ 2 = (Real.sqrt (∑ i ∈ range (H - 1), r.magnitudes (i + 1) ^ 2) / (2 * V)) ^ 2 := by
    rw [div_pow, Real.sq_sqrt (sum_nonneg fun _ _ => sq_nonneg _), sum_div]
    exact sum_congr rfl fun i _ => div_pow _ _ _
  rw [e6, floor_ratio _ _ _ hV, Real.sq_sqrt (sum_nonneg fun _ _ => sq_nonneg _)]

omit hrow hap hs hr hf in
/-- **C152 (located harmonics).** The bins of all harmonics are located when the fundamental stands four decades above one of its neighbours. -/
theorem C152_located (hfl : 1 / 10 ^ 16 < s.power.getD s.fundamentalBin 0)
    (hnb : s.power.getD (s.fundamentalBin - 1) 0 < s.power.getD s.fundamentalBin 0 / 10 ^ 4 ∨ s.power.getD (s.fundamentalBin + 1) 0 < s.power.getD s.fundamentalBin 0 / 10 ^ 4) :
    s.harmonicBins.length = a.maxHarmonic - 1 ∧ ∀ i < s.harmonicBins.length, ∃ c : ℕ, s.harmonicBins.getD i 0 = c ∧
      FirstZoneAlias ((((i + 2) * s.fundamentalBin : ℕ) : ℕ) : ℝ) (row.length : ℝ) (c : ℝ) := by
  obtain ⟨hN0, hrN, hpl, hp0, hpk', hsum⟩ := boxcar_spectrum lib a ha.win row V hV hpk ha.coh ha.cut s h
  obtain ⟨d, n', hd, hn', _, hnl, hpl', _, _, hnn, hpow, hm⟩ := computeSpectrum_ok lib _ a s h
  obtain ⟨bins, spur, noise, hb, _, _, hr⟩ := spectrumMetrics_ok _ _ _ _ _ _ _ hm
  have hdl : (d.headD []).length = row.length := by
    have : s.N = (d.headD []).length := by rw [hr]; rfl
    rw [← this, hrN]
  have hcount : n' = s.power.length := by
    rw [hdl, ha.osr, C25_osr_one _ (by exact_mod_cast hN0)] at hn'
    injection hn' with hn'
    omega
  have hfb : s.fundamentalBin = fundamentalBin s.power s.power.length := (plain_metrics lib a ha row V hV hpk s h).1
  have hbins : s.harmonicBins = bins := by rw [hr]; rfl
  have hfr := C27_coherent_bin_exact s.power s.power.length le_rfl (by rw [← hfb]; exact hfl) (by rw [← hfb]; exact hnb)
  have hf1 : (locateFundamental s.power s.power.length).1 = s.fundamentalBin := hfb.symm
  obtain ⟨hs, e1, e2, e3⟩ := C29_harmonic_bin_is_alias (s.fundamentalBin : ℝ) a.maxHarmonic row.length ha.harm hN0 (Or.inl ⟨s.fundamentalBin, by simp⟩)
  rw [hcount, hfr, hf1, hdl, e1] at hb
  injection hb with hb
  rw [hbins, ← hb]
  refine ⟨e2, fun i hi => ?_⟩
  obtain ⟨p1, q, p2, _, p4⟩ := e3 i hi
  obtain ⟨c, hc⟩ := Int.eq_ofNat_of_zero_le p1
  rw [List.getD_eq_getElem _ _ hi]
  refine ⟨c, hc, ?_⟩
  have h4 := p4 ⟨s.fundamentalBin, by simp⟩
  rw [hc, Int.cast_natCast] at h4
  rw [h4]
  have e5 : ((((i + 2) * s.fundamentalBin : ℕ) : ℕ) : ℝ) = (s.fundamentalBin : ℝ) * ((i + 2 : ℕ) : ℝ) := by push_cast; ring
  rw [e5]
  exact p2

end

/-! ## Concrete case -/

/-- Sixteen samples of three periods with a third harmonic of a tenth: both functions report it, 20 dB down. -/
example (lib : WinLib) (solve : Lstsq) (hs : IsLstsq solve) : ∃ (s : SpectrumResult) (hl : List EReal),
    computeSpectrum lib [(List.range 16).map fun t : ℕ => distorted 0 (((3 : ℕ) : ℝ) / (16 : ℕ)) 5 (fun k => if k = 0 then 1 else if k = 2 then 1 / 10 else 0) (fun _ => 0) t]
      { win := "boxcar", sideBin := some 0, scale := .scalar (1 : ℝ), maxHarmonic := 5 } = .ok s ∧ s.harmonics = some hl ∧ hl.getD 1 0 = dB (1 / 100) ∧ s.thd = some (dB (1 / 100)) := by
  obtain ⟨row, hrow⟩ : ∃ row : List ℝ, row = (List.range 16).map fun t : ℕ => distorted 0 (((3 : ℕ) : ℝ) / (16 : ℕ)) 5 (fun k => if k = 0 then 1 else if k = 2 then 1 / 10 else 0) (fun _ => 0) t := ⟨_, rfl⟩
  rw [← hrow]
  have hlen : row.length = 16 := by rw [hrow]; simp
  have hval : ∀ t < 16, row.getD t 0 = distorted 0 (((3 : ℕ) : ℝ) / (16 : ℕ)) 5 (fun k => if k = 0 then 1 else if k = 2 then 1 / 10 else 0) (fun _ => 0) t := by
    intro t ht
    rw [hrow, List.getD_eq_getElem _ _ (by simpa using ht)]
    simp
  have hplain : PlainCall { win := "boxcar", sideBin := some 0, scale := .scalar (1 : ℝ), maxHarmonic := 5 } :=
    ⟨Or.inl rfl, rfl, rfl, rfl, rfl, rfl, by norm_num, by norm_num, by norm_num⟩
  obtain ⟨s, hs1, hs2, _⟩ := C95_bounded_error lib _ hplain row 1 one_pos rfl 3 (by norm_num) (by rw [hlen]; norm_num) 1 0 0 (1 / 10)
    (fun t => 1 / 10 * Real.cos (3 * (2 * Real.pi * (((3 : ℕ) : ℝ) / (16 : ℕ)) * t))) (by
      intro t ht
      rw [hlen] at ht
      rw [hval t ht, hlen]
      unfold distorted sineAt
      simp only [sum_range_succ, sum_range_zero]
      norm_num) (by norm_num) (by
      refine (sum_le_card_nsmul _ _ ((1 / 10) ^ 2) fun t _ => ?_).trans (by rw [card_range, nsmul_eq_mul])
      rw [mul_pow]
      have := Real.cos_sq_le_one (3 * (2 * Real.pi * (((3 : ℕ) : ℝ) / (16 : ℕ)) * t))
      linarith) (by norm_num)
  obtain ⟨r, hr, hf⟩ := (C51_frequency solve 1 row.length (fun _ t => row.getD t 0) (5 : ℕ) (((3 : ℕ) : ℝ) / (16 : ℕ)) (1 / 10 ^ 9) 0).2.1 (by norm_num)
  have hf := hf rfl
  have hap : HarmonicsApart row.length s.fundamentalBin 5 := by
    rw [hlen, hs2]
    exact ⟨by norm_num, by intro m h1 h2 h3; interval_cases m <;> omega⟩
  have hf' : r.fundamentalFreq = (s.fundamentalBin : ℝ) / row.length := by rw [hf, hlen, hs2]
  have hm : ∀ k < 5, r.magnitudes k = 2 * (if k = 0 then 1 else if k = 2 then 1 / 10 else 0) := by
    have := C152_error solve hs 1 (by rw [hlen]; norm_num) _ _ _ _ r hr hap hf' 0 (fun k => if k = 0 then 1 else if k = 2 then 1 / 10 else 0) (fun _ => 0)
      (fun k _ => by split_ifs <;> norm_num) (fun _ => 0) (by
        intro t ht
        rw [hlen] at ht
        rw [single, hval t ht, hs2, hlen, add_zero])
    intro k hk
    have := this.2 k hk
    rw [show dft row.length (fun _ => ((0 : ℝ) : ℂ)) (((k + 1) * s.fundamentalBin : ℕ) : ℤ) = 0 by unfold dft; simp, norm_zero, mul_zero] at this
    have := abs_nonpos_iff.mp this
    linarith
  have m0 : r.magnitudes 0 = 2 := by rw [hm 0 (by norm_num)]; norm_num
  have hrow1 : row.length ≠ 1 := by rw [hlen]; norm_num
  have h4 := bin_power lib _ hplain row hrow1 1 one_ne_zero rfl s hs1 5 hap solve hs _ _ _ r hr hf' 3 4 (by norm_num) (by
    rw [hs2, hlen]
    exact ⟨by norm_num, by norm_num, 1, Or.inr (by norm_num)⟩)
  have h3 := fund_power lib _ hplain row hrow1 1 one_ne_zero rfl s hs1 5 hap solve hs _ _ _ r hr hf'
  rw [m0] at h3
  obtain ⟨l1, l2⟩ := C152_located lib _ hplain row 1 one_ne_zero rfl s hs1 (by rw [h3.2.2.2]; norm_num) (Or.inr (by
    rw [h3.2.2.2, hs2, h4.2.2.2, hm 3 (by norm_num)]
    norm_num))
  obtain ⟨hl, q1, q2⟩ := C152_hd lib _ hplain row hrow1 1 one_ne_zero rfl s hs1 5 hap solve hs _ _ _ r hr hf' (by rw [m0]; norm_num)
  have q3 := C152_thd lib _ hplain row hrow1 1 one_ne_zero rfl s hs1 5 hap solve hs _ _ _ r hr hf' (by rw [m0]; norm_num) l1 (fun i hi => l2 i (by rw [l1]; exact hi))
  refine ⟨s, hl, hs1, q1, ?_, ?_⟩
  · obtain ⟨c, c1, c2⟩ := l2 1 (by rw [l1]; norm_num)
    rw [q2 1 (by rw [l1]; norm_num) (by norm_num) c c1 c2, m0, hm 2 (by norm_num)]
    norm_num
  · rw [q3, m0]
    simp only [sum_Ico_eq_sum_range, sum_range_succ, sum_range_zero]
    norm_num [hm]

end Verif
