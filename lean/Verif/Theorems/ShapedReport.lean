import Verif.Proofs.InBand
import Verif.Theorems.SpectrumReport
import Mathlib.Analysis.Real.Pi.Bounds

/-!
# C147: noise shaping and the oversampled spectrum report
-/

namespace Verif

open Model Finset Spec

/-! ## Specification -/

namespace Spec

/-- A call of `compute_spectrum` without window, side bins, high-pass, coherent averaging or assumed signal level, at any oversampling ratio. -/
structure InBandCall (a : SpectrumArgs) : Prop where
  win : a.win = "boxcar" ∨ a.win = "rectangular"
  side : a.sideBin = some 0
  osr : 0 < a.osr
  coh : a.coherent = false
  cut : a.cutoff = 0
  ass : a.assumed = none
  harm : 1 ≤ a.maxHarmonic
  nf0 : 0 ≤ a.nfMethod
  nf4 : a.nfMethod ≤ 4

/-- The part of the step of a quantizer that remains in band after shaping of order `L` at oversampling ratio `osr` in a record of `N` samples: the high-pass
response of the shaping at the band edge, and the start of the record. -/
noncomputable def shapedStep (L N : ℕ) (osr : ℝ) : ℝ := (Real.pi / osr) ^ L + 2 ^ L / Real.sqrt (N * osr)

end Spec

/-! ## The band -/

/-- A band edge on a bin is included. -/
theorem inband_exact (N M : ℕ) (osr : ℝ) (hM : 0 < M) (hMN : 2 * M ≤ N) (h : osr * (2 * M) = N) : rfftInbandBinCount (N : ℤ) osr = .ok (M + 1) := by
  have hMR : (0 : ℝ) < M := by exact_mod_cast hM
  have hN : 0 < N := by omega
  have hNR : (0 : ℝ) < N := by exact_mod_cast hN
  have hosr : 0 < osr := by
    by_contra hc
    push Not at hc
    nlinarith
  have e : (N : ℝ) / (2 * osr) = (M : ℝ) := by
    rw [div_eq_iff (by positivity)]
    linarith
  have hr : rint (M : ℝ) = (M : ℤ) := by
    unfold rint
    simp
  unfold rfftInbandBinCount
  rw [if_neg (by omega), if_neg (not_le.mpr hosr)]
  simp only [Int.cast_natCast, e, hr, ite_self, Int.floor_natCast]
  congr 1
  omega

/-! ## In-band error -/

/-- The report on a coherent sine plus an error, in terms of the error's power in the band and in the bin of the sine. -/
theorem in_band_report (lib : WinLib) (a : SpectrumArgs) (ha : InBandCall a) (row : List ℝ) (V : ℝ) (hV : 0 < V)
    (hpk : peakAmplitude [row] a.scale = .ok V) (n : ℕ) (hn : rfftInbandBinCount (row.length : ℤ) a.osr = .ok n) (b : ℕ) (hb : 0 < b) (hbn : b < n)
    (hbN : 2 * b < row.length) (A φ D σ : ℝ) (e : ℕ → ℝ) (hrow : ∀ m < row.length, row.getD m 0 = sineAt A ((b : ℝ) / row.length) φ D m + e m)
    (hσ : 0 ≤ σ) (he : bandPower row.length (n - 1) e ≤ σ ^ 2) (hA : 2 * σ < A) :
    ∃ r, computeSpectrum lib [row] a = .ok r ∧ r.fundamentalBin = b ∧
      (∃ Am, |Am - A| ≤ Real.sqrt 2 * σ ∧ r.sigPwr = 10 * Real.logb 10 (max ((Am / V) ^ 2) (1 / 10 ^ 30))) ∧
      dB (max (A ^ 2 / 2 / (σ ^ 2 + V ^ 2 / 2 / 10 ^ 20) - 1) 0) ≤ r.sndr ∧
      ∃ Am, |Am - A| ≤ 2 / row.length * ‖dft row.length (fun m => (e m : ℂ)) b‖ ∧
        r.sndr = dB (Am ^ 2 / 2 / (bandPower row.length (n - 1) e - (2 / row.length * ‖dft row.length (fun m => (e m : ℂ)) b‖) ^ 2 / 2 + V ^ 2 / 2 / 10 ^ 20)) := by
  have hN0 : 0 < row.length := by omega
  have hNR : (0 : ℝ) < row.length := by exact_mod_cast hN0
  have hprep : prepareFftInput [row] a.scale = .ok [(removeDc row).map (· / V)] := by
    have ho : orient [row] = [row] := by simp [orient]
    unfold prepareFftInput
    simp only [ho, hpk, List.map_cons, List.map_nil]
    rw [if_pos hV.ne']
  obtain ⟨r, h⟩ := (C63_compute_spectrum_total lib [row] a _ hprep (by simpa [removeDc] using hN0)).mpr ⟨ha.osr, ha.harm, ha.nf0, ha.nf4⟩
  refine ⟨r, h, ?_⟩
  obtain ⟨_, hrN, hpl, hp0, hpk', _⟩ := boxcar_spectrum lib a ha.win row V hV.ne' hpk ha.coh ha.cut r h
  obtain ⟨d, n', hd, hn', _, hnl, hpl', _, _, hnn, hpow, hm⟩ := computeSpectrum_ok lib _ a r h
  obtain ⟨bins, spur, noise, _, _, _, hr⟩ := spectrumMetrics_ok _ _ _ _ _ _ _ hm
  have hdl : (d.headD []).length = row.length := by
    have : r.N = (d.headD []).length := by rw [hr]; rfl
    rw [← this, hrN]
  rw [hdl, hn] at hn'
  injection hn' with hn'
  subst hn'
  have hsb : sideBinOf lib a (d.headD []).length n r.power = 0 := by unfold sideBinOf; rw [ha.side]
  rw [hsb] at hr
  have hV2 : 0 < V ^ 2 := by positivity
  -- amplitudes
  set N := row.length with hNdef
  obtain ⟨E, hE⟩ : ∃ E : ℕ → ℝ, E = fun k => lineCount N k * (‖dft N (fun m => (e m : ℂ)) k‖ ^ 2 / (N : ℝ) ^ 2) := ⟨_, rfl⟩
  have hE0 : ∀ k, 0 ≤ E k := fun k => by
    rw [hE]
    have := lineCount_pos N k
    positivity
  have hEsum : ∑ k ∈ Icc 1 (n - 1), E k ≤ σ ^ 2 := by
    rw [bandPower_eq] at he
    rw [hE]
    exact he
  have hdft : ∀ k : ℕ, dft N (fun m => (row.getD m 0 : ℂ)) k = dft N (fun m => ((sineAt A ((b : ℝ) / N) φ D m : ℝ) : ℂ)) k + dft N (fun m => (e m : ℂ)) k :=
    fun k => dft_add_real N _ e _ hrow k
  have hother : ∀ k, 1 ≤ k → k < n → k ≠ b → r.power.getD k 0 = 2 * E k / V ^ 2 := by
    intro k h1 h2 h3
    rw [hpk' k h1 (by omega) (by omega), hdft k, dft_sine_other N b k hbN h1 (by omega) h3 A φ D, zero_add, oneSided_lines N k h1, hE]
    ring
  obtain ⟨Am, hAm⟩ : ∃ Am, Am = 2 / N * ‖dft N (fun m => (row.getD m 0 : ℂ)) b‖ := ⟨_, rfl⟩
  obtain ⟨u, hu⟩ : ∃ u, u = 2 / N * ‖dft N (fun m => (e m : ℂ)) b‖ := ⟨_, rfl⟩
  have hu0 : 0 ≤ u := by rw [hu]; positivity
  have hlc : lineCount N b = 2 := by unfold lineCount; rw [if_neg (by omega)]
  have hu2 : u ^ 2 = 2 * E b := by
    rw [hu, hE]
    simp only
    rw [hlc]
    ring
  have hAu : |Am - A| ≤ u := by
    have h1 : A = 2 / N * ‖dft N (fun m => ((sineAt A ((b : ℝ) / N) φ D m : ℝ) : ℂ)) b‖ := by
      rw [norm_sine_bin N b hb hbN A φ D (by linarith)]
      field_simp
    have h2 := abs_norm_sub_norm_le (dft N (fun m => (row.getD m 0 : ℂ)) b) (dft N (fun m => ((sineAt A ((b : ℝ) / N) φ D m : ℝ) : ℂ)) b)
    rw [hdft b, add_sub_cancel_left, ← hdft b] at h2
    rw [hAm, hu]
    nth_rewrite 1 [h1]
    rw [← mul_sub, abs_mul, abs_of_pos (by positivity : (0 : ℝ) < 2 / N)]
    exact mul_le_mul_of_nonneg_left h2 (by positivity)
  have hpb : r.power.getD b 0 = Am ^ 2 / V ^ 2 := by
    rw [hpk' b hb (by omega) (by omega), oneSided_lines N b hb, hlc, hAm]
    ring
  have hlow : A - u ≤ Am := by have := (abs_le.mp hAu).1; linarith
  have hbm : b ∈ Icc 1 (n - 1) := by rw [mem_Icc]; omega
  have huE : u ^ 2 ≤ 2 * σ ^ 2 := by
    have := single_le_sum (f := E) (fun k _ => hE0 k) hbm
    linarith
  have huA : u ≤ A := by
    by_contra hc
    push Not at hc
    nlinarith
  have hus : u ≤ Real.sqrt 2 * σ := by
    rw [← Real.sqrt_sq hσ, ← Real.sqrt_mul (by norm_num), ← Real.sqrt_sq hu0]
    exact Real.sqrt_le_sqrt huE
  have hrest : ∑ k ∈ (Icc 1 (n - 1)).erase b, 2 * E k ≤ 2 * σ ^ 2 - u ^ 2 := by
    rw [← mul_sum, hu2]
    have := sum_erase_add (Icc 1 (n - 1)) E hbm
    linarith
  have hpeak : ∀ k, k < n → k ≠ b → r.power.getD k 0 < r.power.getD b 0 := by
    intro k hk hkb
    have h3 : (A - u) ^ 2 ≤ Am ^ 2 := pow_le_pow_left₀ (by linarith) hlow 2
    have h2 : (2 * σ ^ 2 - u ^ 2) / V ^ 2 < Am ^ 2 / V ^ 2 := by
      apply div_lt_div_of_pos_right _ hV2
      nlinarith [sq_nonneg (u - A / 2)]
    rw [hpb]
    by_cases hk0 : k = 0
    · rw [hk0, hp0]
      refine lt_of_le_of_lt ?_ h2
      apply div_nonneg _ hV2.le
      linarith
    · rw [hother k (by omega) hk hkb]
      refine lt_of_le_of_lt (div_le_div_of_nonneg_right ?_ hV2.le) h2
      refine le_trans ?_ hrest
      exact single_le_sum (f := fun k => 2 * E k) (fun k _ => by have := hE0 k; linarith) (mem_erase.mpr ⟨hkb, by rw [mem_Icc]; omega⟩)
  have hfund : fundamentalBin r.power n = b := by
    obtain ⟨f1, f2, f3, _⟩ := C27_fundamental_strongest r.power n hnl (by omega)
    by_contra hne
    have h4 := hpeak (fundamentalBin r.power n) (by omega) hne
    have h5 := f3 b (by omega) (by omega)
    linarith
  have hloc : (locateFundamental r.power n).1 = b := hfund
  have hrf : r.fundamentalBin = b := by
    rw [hr]
    exact hloc
  have hsig : signalPower r.power n 0 b = r.power.getD b 0 := by
    unfold signalPower
    rw [slice_sum, show min (min (b + 0 + 1) n) r.power.length = b + 1 by omega, Nat.sub_zero, Finset.sum_Ico_succ_top (by omega)]
    simp
  have hnad : noiseAndDistortion r.power n 0 b ≤ (2 * σ ^ 2 - u ^ 2) / V ^ 2 := by
    rw [C28_noise_and_distortion_spec r.power n 0 b hnl]
    have h1 : nadBins n 0 b ⊆ (Icc 1 (n - 1)).erase b := by
      intro k hk
      unfold nadBins dcLobe lobe at hk
      simp only [mem_sdiff, mem_range, mem_Icc, mem_union, not_or, not_and, mem_erase] at hk ⊢
      omega
    refine (sum_le_sum_of_subset_of_nonneg h1 fun k _ _ => getD_nonneg r.power hnn k).trans ?_
    have h2 : ∀ k ∈ (Icc 1 (n - 1)).erase b, r.power.getD k 0 = 2 * E k / V ^ 2 := by
      intro k hk
      rw [mem_erase, mem_Icc] at hk
      exact hother k hk.2.1 (by omega) hk.1
    rw [sum_congr rfl h2, ← sum_div]
    exact div_le_div_of_nonneg_right hrest hV2.le
  have hnad0 : 0 ≤ noiseAndDistortion r.power n 0 b := by
    rw [C28_noise_and_distortion_spec r.power n 0 b hnl]
    exact sum_nonneg fun k _ => getD_nonneg r.power hnn k
  refine ⟨hrf, ⟨Am, hAu.trans hus, ?_⟩, ?_⟩
  · conv_lhs => rw [hr]
    unfold assemble sigPwrDbfs
    simp only [ha.ass, hloc]
    rw [hsig, hpb, div_pow]
  · have hsn : r.sndr = dB (signalPower r.power n 0 b / (noiseAndDistortion r.power n 0 b + 1 / 10 ^ 20)) := by
      conv_lhs => rw [hr]
      unfold assemble sigLinear
      simp only [ha.ass, hloc]
    constructor
    · rw [hsn, hsig]
      apply dB_mono (le_max_right _ _)
      refine ratio_bound A u Am _ (V ^ 2) _ _ (by positivity) hV2 (by positivity) huA hlow hpb ?_
      have : (2 * (σ ^ 2 + V ^ 2 / 2 / 10 ^ 20) - u ^ 2) / V ^ 2 = (2 * σ ^ 2 - u ^ 2) / V ^ 2 + 1 / 10 ^ 20 := by field_simp; ring
      rw [this]
      linarith
    · refine ⟨Am, by rw [← hu]; exact hAu, ?_⟩
      have hnadE : noiseAndDistortion r.power n 0 b = (2 * bandPower N (n - 1) e - u ^ 2) / V ^ 2 := by
        rw [C28_noise_and_distortion_spec r.power n 0 b hnl]
        have h1 : nadBins n 0 b = (Icc 1 (n - 1)).erase b := by
          ext k
          unfold nadBins dcLobe lobe
          simp only [mem_sdiff, mem_range, mem_Icc, mem_erase]
          omega
        have h2 : ∀ k ∈ (Icc 1 (n - 1)).erase b, r.power.getD k 0 = 2 * E k / V ^ 2 := by
          intro k hk
          rw [mem_erase, mem_Icc] at hk
          exact hother k hk.2.1 (by omega) hk.1
        have h3 : bandPower N (n - 1) e = ∑ k ∈ Icc 1 (n - 1), E k := by rw [bandPower_eq, hE]
        rw [h1]
        unfold power
        rw [sum_congr rfl h2, ← sum_div, ← mul_sum, h3, hu2, ← sum_erase_add (Icc 1 (n - 1)) E hbm]
        congr 1
        ring
      rw [hsn, hsig, hnadE, hpb, ← hu]
      congr 1
      have : bandPower N (n - 1) e - u ^ 2 / 2 + V ^ 2 / 2 / 10 ^ 20 = V ^ 2 / 2 * ((2 * bandPower N (n - 1) e - u ^ 2) / V ^ 2 + 1 / 10 ^ 20) := by field_simp
      rw [this]
      field_simp

/-- **C147 (in-band error).** A coherent sine plus any error whose power inside the analysed band is at most `σ^2`: the report finds the sine, its
amplitude within `√2 σ`, and an SNDR of at least `A^2 / (2 σ^2) - 1` (with the numerical floor). Errors outside the band, of any size, do not count. -/
theorem C147_in_band_error (lib : WinLib) (a : SpectrumArgs) (ha : InBandCall a) (row : List ℝ) (V : ℝ) (hV : 0 < V)
    (hpk : peakAmplitude [row] a.scale = .ok V) (n : ℕ) (hn : rfftInbandBinCount (row.length : ℤ) a.osr = .ok n) (b : ℕ) (hb : 0 < b) (hbn : b < n)
    (hbN : 2 * b < row.length) (A φ D σ : ℝ) (e : ℕ → ℝ) (hrow : ∀ m < row.length, row.getD m 0 = sineAt A ((b : ℝ) / row.length) φ D m + e m)
    (hσ : 0 ≤ σ) (he : bandPower row.length (n - 1) e ≤ σ ^ 2) (hA : 2 * σ < A) :
    ∃ r, computeSpectrum lib [row] a = .ok r ∧ r.fundamentalBin = b ∧
      (∃ Am, |Am - A| ≤ Real.sqrt 2 * σ ∧ r.sigPwr = 10 * Real.logb 10 (max ((Am / V) ^ 2) (1 / 10 ^ 30))) ∧
      dB (max (A ^ 2 / 2 / (σ ^ 2 + V ^ 2 / 2 / 10 ^ 20) - 1) 0) ≤ r.sndr := by
  obtain ⟨r, h1, h2, h3, h4, _⟩ := in_band_report lib a ha row V hV hpk n hn b hb hbn hbN A φ D σ e hrow hσ he hA
  exact ⟨r, h1, h2, h3, h4⟩

/-! ## Noise shaping -/

/-- **C147 (shaped quantization).** `apply_noise_shaping` of order 1 to 5 on a coherent sine inside the quantizer's range, analysed at an oversampling
ratio of at least 4 whose band edge is a bin: the report finds the sine, and its SNDR is at least that of a quantizer whose step is smaller by the factor
`(π / OSR)^L + 2^L / √(N OSR)`. -/
theorem C147_shaped_sndr (lib : WinLib) (a : SpectrumArgs) (ha : InBandCall a) (g : Gen) (input : Option (ℕ → ℝ)) (bits : ℕ) (hbits : bits ≠ 0)
    (vmin vmax : ℝ) (hv : vmin < vmax) (hscale : a.scale = .seq [vmin, vmax]) (order : ℤ) (h1 : 1 ≤ order) (h5 : order ≤ 5) (N b M : ℕ) (hb : 0 < b) (hbM : b ≤ M)
    (hosr : 4 ≤ a.osr) (hedge : a.osr * (2 * M) = N) (A φ D : ℝ) (hsine : ∀ n < N, g.resolve input n = sineAt A ((b : ℝ) / N) φ D n)
    (hin : ∀ n < N, vmin ≤ sineAt A ((b : ℝ) / N) φ D n ∧ sineAt A ((b : ℝ) / N) φ D n ≤ vmax)
    (hA : (vmax - vmin) / 2 ^ bits * shapedStep order.toNat N a.osr < A) :
    ∃ y r, g.noiseShaping input bits vmin vmax order .default = .ok y ∧ computeSpectrum lib [(List.range N).map y] a = .ok r ∧ r.fundamentalBin = b ∧
      dB (max (A ^ 2 / 2 / (((vmax - vmin) / 2 ^ bits * shapedStep order.toNat N a.osr) ^ 2 / 4 + ((vmax - vmin) / 2) ^ 2 / 2 / 10 ^ 20) - 1) 0) ≤ r.sndr := by
  obtain ⟨y, hy, hye⟩ := C55_default g input bits vmin vmax order h1 h5
  refine ⟨y, ?_⟩
  have hM : 0 < M := by omega
  have hMR : (0 : ℝ) < M := by exact_mod_cast hM
  have hMN : 8 * M ≤ N := by
    have : (8 * M : ℝ) ≤ N := by nlinarith
    exact_mod_cast this
  have hN : 0 < N := by omega
  have hNR : (0 : ℝ) < N := by exact_mod_cast hN
  have hosr0 : 0 < a.osr := ha.osr
  have hd : 0 < vmax - vmin := by linarith
  obtain ⟨Δ, hΔ⟩ : ∃ Δ, Δ = (vmax - vmin) / 2 ^ bits := ⟨_, rfl⟩
  have hΔ0 : 0 < Δ := by rw [hΔ]; positivity
  obtain ⟨L, hL⟩ : ∃ L : ℕ, order.toNat = L + 1 := ⟨order.toNat - 1, by omega⟩
  obtain ⟨q, hq⟩ : ∃ q : ℕ → ℝ, q = fun j => g.quantization input bits vmin vmax j - g.resolve input j := ⟨_, rfl⟩
  have hqb : ∀ n < N, -Δ ≤ q n ∧ q n ≤ 0 := by
    intro n hn
    obtain ⟨t1, t2⟩ := quantize_band bits hbits (g.resolve input n) vmin vmax hv (by rw [hsine n hn]; exact (hin n hn).1) (by rw [hsine n hn]; exact (hin n hn).2)
    rw [hq, hΔ]
    simp only
    unfold Gen.quantization
    constructor <;> linarith
  have hG : 2 * Real.pi * M / N = Real.pi / a.osr := by
    rw [← hedge]
    field_simp
  have hG1 : Real.pi / a.osr ≤ 1 := by
    rw [div_le_one hosr0]
    have := Real.pi_le_four
    linarith
  have hband := bandPower_shaped q N M hN (by omega) Δ (Real.pi / a.osr) hqb hG hG1 L
  have hsq : Real.sqrt (2 * M) / N = 1 / Real.sqrt (N * a.osr) := by
    have e : (N : ℝ) * a.osr = (N : ℝ) ^ 2 / (2 * M) := by
      rw [← hedge]
      field_simp
    rw [e, Real.sqrt_div (sq_nonneg _), Real.sqrt_sq hNR.le, one_div_div]
  obtain ⟨σ, hσ⟩ : ∃ σ, σ = Δ * shapedStep (L + 1) N a.osr / 2 := ⟨_, rfl⟩
  have hstep0 : 0 ≤ shapedStep (L + 1) N a.osr := by unfold shapedStep; positivity
  have hσ0 : 0 ≤ σ := by rw [hσ]; positivity
  have hband2 : bandPower N M (bdiff^[L + 1] q) ≤ σ ^ 2 := by
    have h2 : Real.sqrt (bandPower N M (bdiff^[L + 1] q)) ≤ σ := by
      refine hband.trans (le_of_eq ?_)
      rw [hsq, hσ]
      unfold shapedStep
      rw [pow_succ (2 : ℝ) L]
      ring
    exact (Real.sqrt_le_left hσ0).mp h2
  have hlen : ((List.range N).map y).length = N := by simp
  have hget : ∀ n < N, ((List.range N).map y).getD n 0 = y n := by
    intro n hn
    rw [List.getD_eq_getElem?_getD, List.getElem?_map, List.getElem?_range hn]
    rfl
  have hσA : 2 * σ < A := by
    rw [hL, ← hΔ] at hA
    rw [hσ]
    linarith
  obtain ⟨r, hr, hf, _, hs⟩ := C147_in_band_error lib a ha ((List.range N).map y) ((vmax - vmin) / 2) (by linarith) (by rw [hscale]; rfl) (M + 1)
    (by rw [hlen]; exact inband_exact N M a.osr hM (by omega) hedge) b hb (by omega) (by rw [hlen]; omega) A φ D σ (bdiff^[L + 1] q)
    (by
      rw [hlen]
      intro m hm
      have h2 := hye m
      rw [hL, ← hq, hsine m hm] at h2
      rw [hget m hm]
      linarith) hσ0 (by rw [hlen]; exact hband2) hσA
  refine ⟨r, hy, hr, hf, ?_⟩
  rw [hL, ← hΔ]
  have e : σ ^ 2 = (Δ * shapedStep (L + 1) N a.osr) ^ 2 / 4 := by rw [hσ]; ring
  rw [← e]
  exact hs

/-- **C147 (bits gained).** A full-scale sine through the same chain: if the shaping leaves at most `2^-m` of the step in band, the report shows more than
`bits + m - 1` effective bits. -/
theorem C147_shaped_enob (lib : WinLib) (a : SpectrumArgs) (ha : InBandCall a) (g : Gen) (input : Option (ℕ → ℝ)) (bits m : ℕ) (hbits : bits ≠ 0) (h2 : 2 ≤ bits + m)
    (h30 : bits + m ≤ 30) (vmin vmax : ℝ) (hv : vmin < vmax) (hscale : a.scale = .seq [vmin, vmax]) (order : ℤ) (h1 : 1 ≤ order) (h5 : order ≤ 5) (N b M : ℕ)
    (hb : 0 < b) (hbM : b ≤ M) (hosr : 4 ≤ a.osr) (hedge : a.osr * (2 * M) = N) (φ : ℝ)
    (hsine : ∀ n < N, g.resolve input n = sineAt ((vmax - vmin) / 2) ((b : ℝ) / N) φ ((vmin + vmax) / 2) n)
    (hgain : shapedStep order.toNat N a.osr ≤ 1 / 2 ^ m) :
    ∃ y r, g.noiseShaping input bits vmin vmax order .default = .ok y ∧ computeSpectrum lib [(List.range N).map y] a = .ok r ∧ r.fundamentalBin = b ∧
      (((bits : ℝ) + m - 1 : ℝ) : EReal) < r.enob := by
  have hd : 0 < vmax - vmin := by linarith
  obtain ⟨k, hk⟩ : ∃ k, bits + m = k + 1 := ⟨bits + m - 1, by omega⟩
  have hstep0 : 0 ≤ shapedStep order.toNat N a.osr := by
    have := ha.osr
    unfold shapedStep
    positivity
  have hS : (vmax - vmin) / 2 ^ bits * shapedStep order.toNat N a.osr ≤ (vmax - vmin) / 2 / 2 ^ k := by
    calc (vmax - vmin) / 2 ^ bits * shapedStep order.toNat N a.osr ≤ (vmax - vmin) / 2 ^ bits * (1 / 2 ^ m) :=
          mul_le_mul_of_nonneg_left hgain (by positivity)
      _ = (vmax - vmin) / (2 ^ bits * 2 ^ m) := by field_simp
      _ = (vmax - vmin) / 2 / 2 ^ k := by rw [← pow_add, hk, pow_succ]; field_simp
  have hkk : (2 : ℝ) ≤ 2 ^ k := by
    calc (2 : ℝ) = 2 ^ 1 := by norm_num
      _ ≤ 2 ^ k := pow_le_pow_right₀ (by norm_num) (by omega)
  have hlt : (vmax - vmin) / 2 / 2 ^ k < (vmax - vmin) / 2 := by
    rw [div_lt_iff₀ (by positivity)]
    nlinarith
  obtain ⟨y, r, hy, hr, hf, hs⟩ := C147_shaped_sndr lib a ha g input bits hbits vmin vmax hv hscale order h1 h5 N b M hb hbM hosr hedge ((vmax - vmin) / 2) φ
    ((vmin + vmax) / 2) hsine (fun n _ => by
      unfold sineAt
      constructor
      · nlinarith [Real.neg_one_le_cos (2 * Real.pi * ((b : ℝ) / N) * n + φ)]
      · nlinarith [Real.cos_le_one (2 * Real.pi * ((b : ℝ) / N) * n + φ)]) (hS.trans_lt hlt)
  refine ⟨y, r, hy, hr, hf, ?_⟩
  rw [(C62_noise_floor_identities lib _ a r hr).2.2.2]
  have hbm : (bits : ℝ) + m - 1 = (k : ℝ) := by
    have : ((bits + m : ℕ) : ℝ) = ((k + 1 : ℕ) : ℝ) := by rw [hk]
    push_cast at this
    linarith
  rw [hbm]
  apply enob_above k _ _ _ hs
  refine le_max_of_le_left ?_
  have hS0 : 0 ≤ (vmax - vmin) / 2 ^ bits * shapedStep order.toNat N a.osr := by positivity
  generalize (vmax - vmin) / 2 ^ bits * shapedStep order.toNat N a.osr = S at *
  have hS2 : S ^ 2 ≤ ((vmax - vmin) / 2 / 2 ^ k) ^ 2 := pow_le_pow_left₀ hS0 hS 2
  have e : ((vmax - vmin) / 2) ^ 2 / 2 / (((vmax - vmin) / 2 / 2 ^ k) ^ 2 / 4 + ((vmax - vmin) / 2) ^ 2 / 2 / 10 ^ 20)
      = 2 * 4 ^ k / (1 + 2 * 4 ^ k / 10 ^ 20) := by
    have : (4 : ℝ) ^ k = (2 ^ k) ^ 2 := by rw [← pow_mul, mul_comm, pow_mul]; norm_num
    rw [this]
    have hk : (2 : ℝ) ^ k ≠ 0 := by positivity
    generalize (2 : ℝ) ^ k = z at *
    field_simp
    try ring
  have hle : ((vmax - vmin) / 2) ^ 2 / 2 / (((vmax - vmin) / 2 / 2 ^ k) ^ 2 / 4 + ((vmax - vmin) / 2) ^ 2 / 2 / 10 ^ 20)
      ≤ ((vmax - vmin) / 2) ^ 2 / 2 / (S ^ 2 / 4 + ((vmax - vmin) / 2) ^ 2 / 2 / 10 ^ 20) := by
    apply div_le_div_of_nonneg_left (by positivity) (by positivity)
    linarith
  rw [e] at hle
  have h4 : (4 : ℝ) ≤ 4 ^ k := by
    calc (4 : ℝ) = 4 ^ 1 := by norm_num
      _ ≤ 4 ^ k := pow_le_pow_right₀ (by norm_num) (by omega)
  have h4' : (4 : ℝ) ^ k ≤ 4 ^ 29 := pow_le_pow_right₀ (by norm_num) (by omega)
  generalize (4 : ℝ) ^ k = z at *
  have t1 : 2 * z / (1 + 2 * z / 10 ^ 20) ≥ 2 * z / (101 / 100) := by
    apply div_le_div_of_nonneg_left (by linarith) (by positivity)
    norm_num at h4' ⊢
    linarith
  have t2 : 2 * z / (101 / 100) = 200 / 101 * z := by ring
  linarith

/-- **C147 (each doubling).** Doubling the oversampling ratio and the record length divides what is left in band by at least `2^L`, apart from the start of the
record, which is divided by two. -/
theorem C147_doubling (L N : ℕ) (osr : ℝ) (hosr : 0 < osr) :
    shapedStep L (2 * N) (2 * osr) = (Real.pi / osr) ^ L / 2 ^ L + 2 ^ L / Real.sqrt (N * osr) / 2 := by
  unfold shapedStep
  congr 1
  · rw [← div_pow]
    congr 1
    field_simp
  · have : ((2 * N : ℕ) : ℝ) * (2 * osr) = 2 ^ 2 * (N * osr) := by push_cast; ring
    rw [this, Real.sqrt_mul (by norm_num), Real.sqrt_sq (by norm_num)]
    rw [div_div, mul_comm]

/-! ## A concrete case -/

/-- A 3-bit second-order modulator, 2^22 samples at 64 times oversampling: the report shows more than 10 bits. -/
example (lib : WinLib) : ∃ (a : SpectrumArgs) (y : ℕ → ℝ) (r : SpectrumResult),
    (Gen.mk (2 ^ 22) 1 (1001 / 2 ^ 22) (1 / 2) (1 / 2)).noiseShaping none 3 0 1 2 .default = .ok y ∧
    computeSpectrum lib [(List.range (2 ^ 22)).map y] a = .ok r ∧ a.osr = 64 ∧ r.fundamentalBin = 1001 ∧ ((10 : ℝ) : EReal) < r.enob := by
  have hsq : Real.sqrt (((2 ^ 22 : ℕ) : ℝ) * 64) = 2 ^ 14 := by
    rw [show ((2 ^ 22 : ℕ) : ℝ) * 64 = (2 ^ 14) ^ 2 by norm_num, Real.sqrt_sq (by norm_num)]
  obtain ⟨y, r, h1, h2, h3, h4⟩ := C147_shaped_enob lib { win := "boxcar", sideBin := some 0, scale := .seq [0, 1], osr := 64 }
    ⟨Or.inl rfl, rfl, by norm_num, rfl, rfl, rfl, by norm_num, by norm_num, by norm_num⟩
    (Gen.mk (2 ^ 22) 1 (1001 / 2 ^ 22) (1 / 2) (1 / 2)) none 3 8 (by norm_num) (by norm_num) (by norm_num) 0 1 one_pos rfl 2 (by norm_num) (by norm_num)
    (2 ^ 22) 1001 (2 ^ 15) (by norm_num) (by norm_num) (by norm_num) (by norm_num) (-(Real.pi / 2))
    (fun n _ => by
      unfold Gen.resolve Gen.base Gen.t sineAt
      simp only
      rw [show 2 * Real.pi * (((1001 : ℕ) : ℝ) / ((2 ^ 22 : ℕ) : ℝ)) * (n : ℝ) + -(Real.pi / 2) = 2 * Real.pi * (1001 / 2 ^ 22) * ((n : ℝ) / 1) - Real.pi / 2 by
        push_cast; ring, Real.cos_sub_pi_div_two]
      norm_num)
    (by
      unfold shapedStep
      rw [show ((2 : ℤ).toNat) = 2 from rfl, hsq]
      have := Real.pi_lt_d2
      have h0 := Real.pi_pos
      have : (Real.pi / 64) ^ 2 ≤ (3.15 / 64) ^ 2 := by
        apply pow_le_pow_left₀ (by positivity)
        linarith
      norm_num at this ⊢
      linarith)
  refine ⟨_, y, r, h1, h2, rfl, h3, ?_⟩
  have e : (((3 : ℕ) : ℝ) + ((8 : ℕ) : ℝ) - 1) = 10 := by norm_num
  rw [e] at h4
  exact h4

end Verif
