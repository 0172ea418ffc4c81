import Verif.Proofs.Leakage
import Verif.Theorems.WindowedSinad

/-!
# C146: sines that do not fit the record
-/

namespace Verif

open Model Finset Spec

/-! ## Specification -/

namespace Spec

/-- A record of `N` samples of a sine with `ν` periods per record; `ν` need not be an integer. -/
noncomputable def sineRow (N : ℕ) (A ν φ D : ℝ) : List ℝ := (List.range N).map fun (n : ℕ) => sineAt A (ν / N) φ D n

/-- A power-averaging call over the whole band with a given number of side bins. -/
structure FixedLobeCall (a : SpectrumArgs) (m : ℕ) : Prop where
  side : a.sideBin = some m
  osr : a.osr = 1
  coh : a.coherent = false
  cut : a.cutoff = 0
  ass : a.assumed = none

end Spec

/-! ## What one bin outside the signal region costs -/

private theorem two_bins (lib : WinLib) (a : SpectrumArgs) (m : ℕ) (ha : FixedLobeCall a m) (row : List ℝ) (N : ℕ) (hl : row.length = N) (V : ℝ) (hV : 0 < V)
    (hpk : peakAmplitude [row] a.scale = .ok V) (hw : ∑ n ∈ range N, windowVector lib a.win N n ≠ 0) (b : ℕ) (hb : 2 * m < b) (hbN : b + m + 1 ≤ N / 2) (q T : ℝ)
    (hq : 0 < q) (h1 : q ≤ binPower (windowVector lib a.win N) N (preparedRun V row) (b - m))
    (h2 : q ≤ binPower (windowVector lib a.win N) N (preparedRun V row) (b + m + 1))
    (hT : ∑ k ∈ range (N / 2 + 1), binPower (windowVector lib a.win N) N (preparedRun V row) k ≤ T) (r : SpectrumResult)
    (h : computeSpectrum lib [row] a = .ok r) : r.sndr ≤ dB (T / q - 1) := by
  obtain ⟨d, hd, hdl, hpow⟩ := power_is_average lib a ha.coh ha.cut [row] N (by omega) (by simp) (by simpa using hl) (by simp; omega) V hV hpk hw
  obtain ⟨d', n', hd', hn', _, hnl, hpl, _, _, hnn, hp, hmet⟩ := computeSpectrum_ok lib [row] a r h
  rw [hd] at hd'
  injection hd' with hd'
  subst hd'
  rw [hdl] at hn' hpl hp hmet
  rw [ha.osr, C25_osr_one (K := ℝ) (N : ℤ) (by omega)] at hn'
  injection hn' with hn'
  have hn2 : n' = N / 2 + 1 := by omega
  subst hn2
  rw [hpow _] at hp
  obtain ⟨bins, spur, noise, _, _, _, hr⟩ := spectrumMetrics_ok _ _ _ _ _ _ _ hmet
  have hpk' : ∀ k ≤ N / 2, r.power.getD k 0 = binPower (windowVector lib a.win N) N (preparedRun V row) k := by
    intro k hk
    rw [hp, List.getD_eq_getElem?_getD, List.getElem?_map, List.getElem?_range (by omega)]
    simp
  have hsb : sideBinOf lib a N (N / 2 + 1) r.power = m := by unfold sideBinOf; rw [ha.side]
  rw [hsb] at hr
  set f := (locateFundamental r.power (N / 2 + 1)).1 with hf
  have hfn : f < N / 2 + 1 := (C27_fundamental_strongest r.power (N / 2 + 1) hnl (by omega)).2.1
  have hsn : r.sndr = dB (signalPower r.power (N / 2 + 1) m f / (noiseAndDistortion r.power (N / 2 + 1) m f + 1 / 10 ^ 20)) := by
    conv_lhs => rw [hr]
    unfold assemble sigLinear
    simp only [ha.ass, ← hf]
  have hsig : signalPower r.power (N / 2 + 1) m f = ∑ k ∈ Ico (f - m) (min (f + m + 1) (N / 2 + 1)), r.power.getD k 0 := by
    unfold signalPower
    rw [slice_sum]
    congr 2
    omega
  have hnad := C28_noise_and_distortion_spec r.power (N / 2 + 1) m f hnl
  unfold power at hnad
  have h0 : ∀ k, 0 ≤ r.power.getD k 0 := fun k => getD_nonneg r.power hnn k
  have hmiss : ∃ k ∈ nadBins (N / 2 + 1) m f, q ≤ r.power.getD k 0 := by
    by_cases hfb : f ≤ b
    · refine ⟨b + m + 1, ?_, ?_⟩
      · unfold nadBins dcLobe lobe
        simp only [mem_sdiff, mem_range, mem_Icc, not_and]
        omega
      · rw [hpk' _ (by omega)]
        exact h2
    · refine ⟨b - m, ?_, ?_⟩
      · unfold nadBins dcLobe lobe
        simp only [mem_sdiff, mem_range, mem_Icc, not_and]
        omega
      · rw [hpk' _ (by omega)]
        exact h1
  obtain ⟨k, hk, hqk⟩ := hmiss
  have hq2 : q ≤ noiseAndDistortion r.power (N / 2 + 1) m f := by
    rw [hnad]
    exact hqk.trans (single_le_sum (f := fun k => r.power.getD k 0) (fun i _ => h0 i) hk)
  have hsum : signalPower r.power (N / 2 + 1) m f + noiseAndDistortion r.power (N / 2 + 1) m f ≤ T := by
    rw [hsig, hnad, ← sum_union]
    · refine (sum_le_sum_of_subset_of_nonneg (t := range (N / 2 + 1)) ?_ fun i _ _ => h0 i).trans ?_
      · intro i hi
        unfold nadBins at hi
        simp only [mem_union, mem_Ico, mem_sdiff, mem_range] at hi ⊢
        omega
      · rw [sum_congr rfl fun i hi => hpk' i (by have := mem_range.mp hi; omega)]
        exact hT
    · rw [disjoint_left]
      intro i hi hi2
      unfold nadBins lobe at hi2
      simp only [mem_Ico, mem_sdiff, mem_Icc, not_and] at hi hi2
      omega
  have hs0 : 0 ≤ signalPower r.power (N / 2 + 1) m f := by
    rw [hsig]
    exact sum_nonneg fun i _ => h0 i
  rw [hsn]
  set S := signalPower r.power (N / 2 + 1) m f
  set R := noiseAndDistortion r.power (N / 2 + 1) m f
  have hR : 0 < R := hq.trans_le hq2
  apply dB_mono (div_nonneg hs0 (by positivity))
  calc S / (R + 1 / 10 ^ 20) ≤ S / R := div_le_div_of_nonneg_left hs0 hR (by norm_num)
    _ ≤ (T - R) / R := div_le_div_of_nonneg_right (by linarith) hR.le
    _ = T / R - 1 := by field_simp
    _ ≤ T / q - 1 := by
        have : T / R ≤ T / q := div_le_div_of_nonneg_left (by linarith) hq hq2
        linarith

/-- The prepared record is a sine with a small offset. -/
private theorem prepared_sine (N : ℕ) (hN : N ≠ 0) (A ν φ D V : ℝ) (hA : 0 < A) (hV : 0 < V) (L : ℝ) (hL : 0 < L) (h1 : L ≤ ν) (h2 : ν ≤ N - L) :
    ∃ c, |c| ≤ 1 / (2 * L) * (A / V) ∧ ∀ n < N, preparedRun V (sineRow N A ν φ D) n = A / V * Real.cos (2 * Real.pi * (ν * n / N) + φ) + c := by
  have hNR : (0 : ℝ) < N := by exact_mod_cast Nat.pos_of_ne_zero hN
  have hlen : (sineRow N A ν φ D).length = N := by simp [sineRow]
  have hget : ∀ n < N, (sineRow N A ν φ D).getD n 0 = A * Real.cos (2 * Real.pi * (ν * n / N) + φ) + D := by
    intro n hn
    unfold sineRow
    rw [List.getD_eq_getElem?_getD, List.getElem?_map, List.getElem?_range hn]
    simp only [Option.map_some, Option.getD_some]
    unfold sineAt
    rw [show 2 * Real.pi * (ν / N) * n = 2 * Real.pi * (ν * n / N) by ring]
    try ring
  set s := ∑ n ∈ range N, 1 * Real.cos (2 * Real.pi * (ν * n / N) + φ) with hs
  have hsum : (sineRow N A ν φ D).sum = A * s + N * D := by
    rw [list_sum_getD, hlen, sum_congr rfl fun n hn => hget n (mem_range.mp hn), sum_add_distrib, ← mul_sum, hs]
    simp
  have hsb : |s| ≤ N / (2 * L) := by
    refine (abs_cos_sum (fun _ => 1) N ν φ).trans ?_
    have hsin := sin_dist N hN L ν hL.le h1 h2
    have hp : 0 < 2 * L / N := by positivity
    have hb := norm_box N hN ν
    rw [abs_of_pos (hp.trans_le hsin)] at hb
    have h3 := Real.abs_sin_le_one (Real.pi * ν)
    have h4 : ‖winSpectrum (fun _ => 1) N ν‖ * (2 * L / N) ≤ 1 := by
      calc _ ≤ ‖winSpectrum (fun _ => 1) N ν‖ * Real.sin (Real.pi * (ν / N)) := mul_le_mul_of_nonneg_left hsin (norm_nonneg _)
        _ ≤ 1 := by rw [hb]; exact h3
    rw [← mul_div_assoc, div_le_iff₀ hNR] at h4
    rw [le_div_iff₀ (by positivity)]
    linarith
  refine ⟨-(A * s / N) / V, ?_, fun n hn => ?_⟩
  · rw [abs_div, abs_neg, abs_div, abs_mul, abs_of_pos hA, abs_of_pos hV, abs_of_pos hNR]
    rw [div_le_iff₀ hV, div_le_iff₀ hNR]
    have : 1 / (2 * L) * (A / V) * V * N = A * (N / (2 * L)) := by field_simp
    rw [this]
    exact mul_le_mul_of_nonneg_left hsb hA.le
  · unfold preparedRun
    rw [hlen, hsum, hget n hn]
    field_simp
    ring

private theorem binPower_congr (w : ℕ → ℝ) (N : ℕ) (z z' : ℕ → ℝ) (h : ∀ n < N, z n = z' n) (k : ℕ) : binPower w N z k = binPower w N z' k := by
  have e : dft N (fun n => ((z n * w n : ℝ) : ℂ)) k = dft N (fun n => ((z' n * w n : ℝ) : ℂ)) k := by
    unfold dft
    exact sum_congr rfl fun n hn => by beta_reduce; rw [h n (mem_range.mp hn)]
  unfold binPower
  rw [e]

/-- A bin holds at least what the nearer copy of the window's spectrum leaves after the farther one. -/
private theorem bin_ge (w : ℕ → ℝ) (N k : ℕ) (hk : 0 < k) (hkN : 2 * k < N) (A ν φ c g : ℝ) (hA : 0 ≤ A) (hz : winSpectrum w N (k : ℤ) = 0) (hg : 0 ≤ g)
    (hm : g * N ≤ ‖winSpectrum w N (((k : ℤ) : ℝ) - ν)‖ - ‖winSpectrum w N (((k : ℤ) : ℝ) + ν)‖) :
    A ^ 2 * g ^ 2 * (N / ∑ n ∈ range N, w n ^ 2) ≤ binPower w N (fun n => A * Real.cos (2 * Real.pi * (ν * n / N) + φ) + c) k := by
  have hNR : (0 : ℝ) < N := by exact_mod_cast (by omega : 0 < N)
  have h := norm_between w N A ν φ c hA (k : ℤ) (by rw [hz, mul_zero])
  have h1 : A / 2 * (g * N) ≤ _ := (mul_le_mul_of_nonneg_left hm (by positivity)).trans h
  have h2 := pow_le_pow_left₀ (by positivity) h1 2
  unfold binPower
  rw [oneSided_eq, foldShare_inner N k hk hkN, one_mul]
  have hs : 0 ≤ ∑ n ∈ range N, w n ^ 2 := sum_nonneg fun n _ => sq_nonneg _
  calc A ^ 2 * g ^ 2 * (N / ∑ n ∈ range N, w n ^ 2) = (A / 2 * (g * N)) ^ 2 / N ^ 2 * (4 * N / ∑ n ∈ range N, w n ^ 2) := by field_simp; ring
    _ ≤ _ := mul_le_mul_of_nonneg_right (div_le_div_of_nonneg_right h2 (by positivity)) (by positivity)

/-! ## No window -/

/-- **C146 (without a window, at most).** A noiseless sine with `ν` periods in the record, at least `d` away from every whole number, analysed without window or side
bins: the reported SNDR is at most `1.1 / d^2 - 1`, whatever the amplitude, phase, offset and record length. -/
theorem C146_plain_ceiling (lib : WinLib) (a : SpectrumArgs) (ha : FixedLobeCall a 0) (hwin : a.win = "boxcar" ∨ a.win = "rectangular") (N b : ℕ) (d ν A φ D V : ℝ)
    (hb : 32 ≤ b) (hN : 2 * (b + 1) + 64 ≤ N) (hd : 0 < d) (h1 : b + d ≤ ν) (h2 : ν ≤ b + 1 - d) (hA : 0 < A) (hV : 0 < V)
    (hpk : peakAmplitude [sineRow N A ν φ D] a.scale = .ok V) (r : SpectrumResult) (h : computeSpectrum lib [sineRow N A ν φ D] a = .ok r) :
    r.sndr ≤ dB (11 / 10 / d ^ 2 - 1) := by
  have hw : windowVector lib a.win N = fun _ => 1 := by
    funext n
    unfold windowVector
    rw [if_pos hwin]
  have hN0 : N ≠ 0 := by omega
  have hbR : (32 : ℝ) ≤ b := by exact_mod_cast hb
  have hNR : 2 * ((b : ℝ) + 1) + 64 ≤ N := by exact_mod_cast hN
  have hNp : (0 : ℝ) < N := by linarith
  have hpi := Real.pi_pos
  have hpi2 := Real.pi_lt_d2
  obtain ⟨c, hc, hz⟩ := prepared_sine N hN0 A ν φ D V hA hV 32 (by norm_num) (by linarith) (by linarith)
  have hA' : 0 < A / V := by positivity
  set A' := A / V with hAd
  set δ := ν - b with hδ
  have hδ0 : d ≤ δ := by linarith
  have hδ1 : δ ≤ 1 - d := by linarith
  set s := Real.sin (Real.pi * δ) with hs
  have hpar := parabola_le_sin δ (by linarith) (by linarith)
  rw [← hs] at hpar
  have hs0 : 0 < s := lt_of_lt_of_le (mul_pos hpi (mul_pos (by linarith) (by linarith))) hpar
  have bin : ∀ (k : ℕ) (x : ℝ), 0 < x → x ≤ 1 → |(k : ℝ) - ν| = x → b ≤ k → k ≤ b + 1 → Real.pi * (x * d) ≤ s →
      A' ^ 2 * (95 / 100 * d ^ 2) ≤ binPower (fun _ => 1) N (preparedRun V (sineRow N A ν φ D)) k := by
    intro k x hx0 hx1 hx hk1 hk2 hsx
    have hk1R : (b : ℝ) ≤ k := by exact_mod_cast hk1
    have hk2R : (k : ℝ) ≤ b + 1 := by exact_mod_cast hk2
    have hsm : |Real.sin (Real.pi * ((k : ℝ) - ν))| = s := by
      have := abs_sin_add_int ((k : ℤ) - b) (-δ)
      rw [mul_neg, Real.sin_neg, abs_neg, ← hs, abs_of_pos hs0] at this
      rw [← this]
      congr 3
      push_cast
      rw [hδ]
      ring
    have hsi : |Real.sin (Real.pi * ((k : ℝ) + ν))| = s := by
      have := abs_sin_add_int ((k : ℤ) + b) δ
      rw [← hs, abs_of_pos hs0] at this
      rw [← this]
      congr 3
      push_cast
      rw [hδ]
      ring
    have m1 := box_ge N hN0 ((k : ℝ) - ν)
    rw [hsm, hx] at m1
    have m2 := box_le N hN0 64 ((k : ℝ) + ν) (by norm_num) (by linarith) (by linarith)
    rw [hsi] at m2
    rw [binPower_congr _ N _ _ hz]
    have hg : 975 / 1000 * d * N ≤ ‖winSpectrum (fun _ => 1) N ((k : ℝ) - ν)‖ - ‖winSpectrum (fun _ => 1) N ((k : ℝ) + ν)‖ := by
      set X := ‖winSpectrum (fun _ => 1) N ((k : ℝ) - ν)‖
      have m3 : s * N / (Real.pi * x) ≤ X := by
        rw [div_le_iff₀ (by positivity)]
        have : X * (Real.pi / N * x) * N = X * (Real.pi * x) := by field_simp
        rw [← this]
        exact mul_le_mul_of_nonneg_right m1 hNp.le
      have m4 : 975 / 1000 * d * N ≤ s * N / (Real.pi * x) - s * (N / (2 * 64)) := by
        have e : s * N / (Real.pi * x) - s * (N / (2 * 64)) = s / (Real.pi * x) * (1 - Real.pi * x / 128) * N := by field_simp; ring
        rw [e]
        apply mul_le_mul_of_nonneg_right _ hNp.le
        have g1 : d ≤ s / (Real.pi * x) := by rw [le_div_iff₀ (by positivity)]; linarith
        have g2 : 975 / 1000 ≤ 1 - Real.pi * x / 128 := by nlinarith
        calc 975 / 1000 * d = d * (975 / 1000) := by ring
          _ ≤ _ := mul_le_mul g1 g2 (by norm_num) (by positivity)
      linarith
    have := bin_ge (fun _ => 1) N k (by omega) (by omega) A' ν φ c (975 / 1000 * d) hA'.le (box_int N k (by omega) (by rw [abs_lt]; omega)) (by positivity) (by exact_mod_cast hg)
    refine le_trans ?_ this
    simp only [one_pow, sum_const, card_range, nsmul_eq_mul, mul_one]
    rw [div_self hNp.ne', mul_one]
    apply mul_le_mul_of_nonneg_left _ (sq_nonneg _)
    nlinarith [sq_nonneg d]
  have b1 := bin b δ (by linarith) (by linarith) (by rw [abs_sub_comm, abs_of_pos (by linarith)]) le_rfl (by omega) (by nlinarith [mul_pos hpi (lt_of_lt_of_le hd hδ0)])
  have b2 := bin (b + 1) (1 - δ) (by linarith) (by linarith) (by push_cast; rw [abs_of_pos (by linarith)]; rw [hδ]; ring) (by omega) le_rfl
    (by nlinarith [mul_pos hpi (lt_of_lt_of_le hd (by linarith : d ≤ 1 - δ))])
  have tot : ∑ k ∈ range (N / 2 + 1), binPower (fun _ => 1) N (preparedRun V (sineRow N A ν φ D)) k ≤ A' ^ 2 * (101 / 100) := by
    rw [sum_congr rfl fun k _ => binPower_congr _ N _ _ hz k]
    have hsum : ∑ n ∈ range N, ((fun _ => 1 : ℕ → ℝ) n) ^ 2 = N := by simp
    have small : ∀ L y : ℝ, 0 < L → L ≤ y → y ≤ N - L → ‖winSpectrum (fun n => ((fun _ => 1 : ℕ → ℝ) n) ^ 2) N y‖ ≤ 1 / (2 * L) * N := by
      intro L y hL hy1 hy2
      simp only [one_pow]
      refine (box_le N hN0 L y hL hy1 hy2).trans ?_
      rw [one_div_mul_eq_div]
      exact mul_le_of_le_one_left (by positivity) (Real.abs_sin_le_one _)
    refine (between_total (fun _ => 1) N hN0 (by rw [hsum]; exact hNp.ne') A' ν φ c (1 / (2 * 32)) (1 / (2 * 32)) (1 / (2 * 64)) hA'.le hc (by norm_num)
      (by rw [hsum]; exact small 32 ν (by norm_num) (by linarith) (by linarith)) (by rw [hsum]; exact small 64 (2 * ν) (by norm_num) (by linarith) (by linarith))).trans ?_
    apply mul_le_mul_of_nonneg_left _ (sq_nonneg _)
    norm_num
  have key := two_bins lib a 0 ha (sineRow N A ν φ D) N (by simp [sineRow]) V hV hpk (by rw [hw]; simpa using hN0) b (by omega) (by omega) (A' ^ 2 * (95 / 100 * d ^ 2)) (A' ^ 2 * (101 / 100))
    (by positivity) (by rw [hw]; exact b1) (by rw [hw]; exact b2) (by rw [hw]; exact tot) r h
  refine key.trans ?_
  have hd2 : d ≤ 1 / 2 := by linarith
  have hd4 : d ^ 2 ≤ 1 := by nlinarith
  apply dB_mono
  · rw [sub_nonneg, le_div_iff₀ (by positivity), one_mul]
    apply mul_le_mul_of_nonneg_left _ (sq_nonneg _)
    nlinarith
  · apply sub_le_sub_right
    rw [div_div, div_le_div_iff₀ (by positivity) (by positivity)]
    nlinarith [mul_pos (pow_pos hA' 2) (pow_pos hd 2)]

/-! ## The Hann window -/

private theorem lobe_product (x : ℝ) (hx0 : 1 < |x|) (hx1 : |x| ≤ 2) : 0 < |x| * |x - 1| * |x + 1| ∧ |x| * |x - 1| * |x + 1| ≤ 6 := by
  have e : |x| * |x - 1| * |x + 1| = |x| * (|x| ^ 2 - 1) := by
    rw [mul_assoc, ← abs_mul, show (x - 1) * (x + 1) = x ^ 2 - 1 by ring, ← sq_abs x, abs_of_pos (a := |x| ^ 2 - 1) (by nlinarith)]
  rw [e]
  constructor
  · exact mul_pos (by linarith) (by nlinarith)
  · nlinarith

/-- What the nearer copy of the Hann spectrum leaves next to its main lobe. -/
private theorem hann_gap (N : ℕ) (hN : 130 ≤ N) (k : ℕ) (ν x s q : ℝ) (hs : 0 ≤ s) (hq : 0 ≤ q) (hx0 : 1 < |x|) (hx1 : |x| ≤ 2) (hx : (k : ℝ) - ν = x)
    (hsm : |Real.sin (Real.pi * ((k : ℝ) - ν))| = s) (hsi : |Real.sin (Real.pi * ((k : ℝ) + ν))| = s) (h1 : 63 ≤ (k : ℝ) + ν) (h2 : (k : ℝ) + ν ≤ N - 63)
    (hsx : Real.pi * (|x| * |x - 1| * |x + 1| * q) ≤ s) :
    498 / 1000 * q * N ≤ ‖winSpectrum (generalCosine [1 / 2, 1 / 2] N) N ((k : ℝ) - ν)‖ - ‖winSpectrum (generalCosine [1 / 2, 1 / 2] N) N ((k : ℝ) + ν)‖ := by
  have hpi := Real.pi_pos
  have hpi2 := Real.pi_lt_d2
  have hNp : (0 : ℝ) < N := by exact_mod_cast (by omega : 0 < N)
  have m1 := hann_ge N hN ((k : ℝ) - ν) (by rw [hx]; exact hx0) (by rw [hx]; exact hx1)
  have m2 := hann_le N (by omega) 62 ((k : ℝ) + ν) (by norm_num) (by linarith) (by linarith)
  rw [hsm, hx] at m1
  rw [hsi] at m2
  obtain ⟨hM0, hM6⟩ := lobe_product x hx0 hx1
  rw [hx]
  generalize ‖winSpectrum (generalCosine [1 / 2, 1 / 2] N) N x‖ = X at *
  generalize ‖winSpectrum (generalCosine [1 / 2, 1 / 2] N) N ((k : ℝ) + ν)‖ = Y at *
  generalize |x| * |x - 1| * |x + 1| = M at *
  have m3 : s * (998 / 1000 * N) / (2 * Real.pi * M) ≤ X := by
    rw [div_le_iff₀ (by positivity)]
    exact m1
  have m4 : 498 / 1000 * q * N ≤ s * (998 / 1000 * N) / (2 * Real.pi * M) - s * (Real.pi ^ 2 * N / (16 * 62 ^ 3)) := by
    have e : s * (998 / 1000 * N) / (2 * Real.pi * M) - s * (Real.pi ^ 2 * N / (16 * 62 ^ 3))
        = s / (Real.pi * M) * (499 / 1000 - Real.pi ^ 3 * M / (16 * 62 ^ 3)) * N := by field_simp; ring
    rw [e]
    apply mul_le_mul_of_nonneg_right _ hNp.le
    have g1 : q ≤ s / (Real.pi * M) := by rw [le_div_iff₀ (by positivity)]; linarith
    have g3 : Real.pi ^ 3 * M ≤ 4 ^ 3 * 6 := mul_le_mul (pow_le_pow_left₀ hpi.le (by linarith) 3) hM6 hM0.le (by norm_num)
    have g2 : 498 / 1000 ≤ 499 / 1000 - Real.pi ^ 3 * M / (16 * 62 ^ 3) := by
      have : Real.pi ^ 3 * M / (16 * 62 ^ 3) ≤ 4 ^ 3 * 6 / (16 * 62 ^ 3) := div_le_div_of_nonneg_right g3 (by norm_num)
      norm_num at this ⊢
      linarith
    calc 498 / 1000 * q = q * (498 / 1000) := by ring
      _ ≤ _ := mul_le_mul g1 g2 (by norm_num) (by positivity)
  linarith

private theorem hann_sum_ne (N : ℕ) (hN : 2 < N) : ∑ n ∈ range N, generalCosine [1 / 2, 1 / 2] N n ≠ 0 := by
  have hNp : (0 : ℝ) < N := by exact_mod_cast (by omega : 0 < N)
  have hW : winSpectrum (generalCosine [1 / 2, 1 / 2] N) N 0 = ((1 / 2 * N : ℝ) : ℂ) := by
    have i1 := box_int N 1 (by omega) (by rw [abs_lt]; omega)
    have i2 := box_int N (-1) (by omega) (by rw [abs_lt]; omega)
    push_cast at i1 i2
    rw [hann_spectrum N (by omega)]
    norm_num [i1, i2, box_zero]
  have hW2 : winSpectrum (generalCosine [1 / 2, 1 / 2] N) N 0 = ((∑ n ∈ range N, generalCosine [1 / 2, 1 / 2] N n : ℝ) : ℂ) := by
    unfold winSpectrum
    rw [Complex.ofReal_sum]
    refine sum_congr rfl fun n _ => ?_
    simp [cis]
  rw [hW2] at hW
  rw [Complex.ofReal_inj.mp hW]
  positivity

private theorem hann_total (N : ℕ) (hN : 130 ≤ N) (A ν φ c : ℝ) (hA : 0 ≤ A) (hc : |c| ≤ 1 / (2 * 32) * A) (h1 : 32 ≤ ν) (h2 : 2 * ν + 64 ≤ N) :
    ∑ k ∈ range (N / 2 + 1), binPower (generalCosine [1 / 2, 1 / 2] N) N (fun n => A * Real.cos (2 * Real.pi * (ν * n / N) + φ) + c) k ≤ A ^ 2 * (103 / 100) := by
  have hNp : (0 : ℝ) < N := by exact_mod_cast (by omega : 0 < N)
  have hsum := hann_sum_sq N (by omega)
  have small : ∀ L y : ℝ, 0 < L → L + 2 ≤ y → y ≤ N - L - 2 → ‖winSpectrum (fun n => generalCosine [1 / 2, 1 / 2] N n ^ 2) N y‖ ≤ 4 / (3 * L) * (3 / 8 * N) := by
    intro L y hL hy1 hy2
    refine (hann_sq_le N (by omega) L y hL hy1 hy2).trans (le_of_eq ?_)
    field_simp
    norm_num
  refine (between_total _ N (by omega) (by rw [hsum]; positivity) A ν φ c (1 / (2 * 32)) (4 / (3 * 30)) (4 / (3 * 62)) hA hc (by norm_num)
    (by rw [hsum]; exact small 30 ν (by norm_num) (by linarith) (by linarith)) (by rw [hsum]; exact small 62 (2 * ν) (by norm_num) (by linarith) (by linarith))).trans ?_
  apply mul_le_mul_of_nonneg_left _ (sq_nonneg _)
  norm_num

private theorem hann_ratio (A q : ℝ) (hA : 0 < A) (hq : 0 < q) (hq1 : q ≤ 1) :
    dB (A ^ 2 * (103 / 100) / (A ^ 2 * (66 / 100 * q ^ 2)) - 1) ≤ dB (8 / 5 * (1 / q) ^ 2 - 1) := by
  have hq2 : q ^ 2 ≤ 1 := pow_le_one₀ hq.le hq1
  have e : A ^ 2 * (103 / 100) / (A ^ 2 * (66 / 100 * q ^ 2)) = 103 / 66 * (1 / q) ^ 2 := by field_simp
  have h1 : 1 ≤ (1 / q) ^ 2 := one_le_pow₀ ((one_le_div hq).mpr hq1)
  rw [e]
  apply dB_mono <;> linarith

/-- **C146 (Hann window with one side bin, at most).** With the Hann window and one side bin, a noiseless sine at least `d` away from a whole number of periods
has a reported SNDR of at most `1.6 ((2 - d) (3 - d) / d)^2 - 1`: less than 20 dB at half a bin. -/
theorem C146_hann_ceiling (lib : WinLib) (a : SpectrumArgs) (ha : FixedLobeCall a 1) (hwin : a.win = "hann") (N b : ℕ) (d ν A φ D V : ℝ)
    (hb : 32 ≤ b) (hN : 2 * (b + 1) + 64 ≤ N) (hd : 0 < d) (h1 : b + d ≤ ν) (h2 : ν ≤ b + 1 - d) (hA : 0 < A) (hV : 0 < V)
    (hpk : peakAmplitude [sineRow N A ν φ D] a.scale = .ok V) (r : SpectrumResult) (h : computeSpectrum lib [sineRow N A ν φ D] a = .ok r) :
    r.sndr ≤ dB (8 / 5 * ((2 - d) * (3 - d) / d) ^ 2 - 1) := by
  have hw : windowVector lib a.win N = generalCosine [1 / 2, 1 / 2] N := by
    funext n
    unfold windowVector
    rw [hwin, if_neg (by decide), if_neg (by decide), if_neg (by decide)]
    rfl
  have hN0 : N ≠ 0 := by omega
  have hbR : (32 : ℝ) ≤ b := by exact_mod_cast hb
  have hNR : 2 * ((b : ℝ) + 1) + 64 ≤ N := by exact_mod_cast hN
  have hNp : (0 : ℝ) < N := by linarith
  have hpi := Real.pi_pos
  have hpi2 := Real.pi_lt_d2
  obtain ⟨c, hc, hz⟩ := prepared_sine N hN0 A ν φ D V hA hV 32 (by norm_num) (by linarith) (by linarith)
  have hA' : 0 < A / V := by positivity
  set A' := A / V with hAd
  set δ := ν - b with hδ
  have hδ0 : d ≤ δ := by linarith
  have hδ1 : δ ≤ 1 - d := by linarith
  set s := Real.sin (Real.pi * δ) with hs
  have hpar := parabola_le_sin δ (by linarith) (by linarith)
  rw [← hs] at hpar
  have hs0 : 0 < s := lt_of_lt_of_le (mul_pos hpi (mul_pos (by linarith) (by linarith))) hpar
  have hsum := hann_sum_sq N (by omega)
  set w := generalCosine [1 / 2, 1 / 2] N with hwd
  have hq0 : 0 < d / ((2 - d) * (3 - d)) := div_pos hd (mul_pos (by linarith) (by linarith))
  set q := d / ((2 - d) * (3 - d)) with hq
  have bin : ∀ (k : ℕ) (x : ℝ), 1 < |x| → |x| ≤ 2 → (k : ℝ) - ν = x → b ≤ k + 1 → k ≤ b + 2 → Real.pi * (|x| * |x - 1| * |x + 1| * q) ≤ s →
      A' ^ 2 * (66 / 100 * q ^ 2) ≤ binPower w N (preparedRun V (sineRow N A ν φ D)) k := by
    intro k x hx0 hx1 hx hk1 hk2 hsx
    have hk1R : (b : ℝ) ≤ k + 1 := by exact_mod_cast hk1
    have hk2R : (k : ℝ) ≤ b + 2 := by exact_mod_cast hk2
    have hsm : |Real.sin (Real.pi * ((k : ℝ) - ν))| = s := by
      have := abs_sin_add_int ((k : ℤ) - b) (-δ)
      rw [mul_neg, Real.sin_neg, abs_neg, ← hs, abs_of_pos hs0] at this
      rw [← this]
      congr 3
      push_cast
      rw [hδ]
      ring
    have hsi : |Real.sin (Real.pi * ((k : ℝ) + ν))| = s := by
      have := abs_sin_add_int ((k : ℤ) + b) δ
      rw [← hs, abs_of_pos hs0] at this
      rw [← this]
      congr 3
      push_cast
      rw [hδ]
      ring
    rw [binPower_congr _ N _ _ hz]
    have hg := hann_gap N (by omega) k ν x s q hs0.le hq0.le hx0 hx1 hx hsm hsi (by linarith) (by linarith) hsx
    have := bin_ge w N k (by omega) (by omega) A' ν φ c (498 / 1000 * q) hA'.le (hann_int N k (by omega) (by omega)) (by positivity) (by exact_mod_cast hg)
    refine le_trans ?_ this
    rw [hsum, show (N : ℝ) / (3 / 8 * N) = 8 / 3 by field_simp]
    nlinarith [mul_pos (pow_pos hA' 2) (pow_pos hq0 2)]
  have hqa : ∀ t, d ≤ t → t ≤ 1 - d → q ≤ (1 - t) / ((1 + t) * (2 + t)) := by
    intro t ht1 ht2
    rw [hq, div_le_div_iff₀ (mul_pos (by linarith) (by linarith)) (mul_pos (by linarith) (by linarith))]
    have e1 : (1 + t) * (2 + t) ≤ (2 - d) * (3 - d) := mul_le_mul (by linarith) (by linarith) (by linarith) (by linarith)
    exact mul_le_mul (by linarith) e1 (mul_nonneg (by linarith) (by linarith)) (by linarith)
  have shape : ∀ t, d ≤ t → t ≤ 1 - d → Real.pi * (t * (1 - t)) ≤ s → Real.pi * ((1 + t) * t * (2 + t) * q) ≤ s := by
    intro t ht1 ht2 hts
    have h3 := hqa t ht1 ht2
    rw [le_div_iff₀ (mul_pos (by linarith) (by linarith))] at h3
    have h4 : t * (q * ((1 + t) * (2 + t))) ≤ t * (1 - t) := mul_le_mul_of_nonneg_left h3 (by linarith)
    have h5 := mul_le_mul_of_nonneg_left h4 hpi.le
    linarith
  have x1 : |-(1 + δ)| = 1 + δ := by rw [abs_neg, abs_of_pos (by linarith)]
  have x2 : |-(1 + δ) - 1| = 2 + δ := by rw [show -(1 + δ) - 1 = -(2 + δ) by ring, abs_neg, abs_of_pos (by linarith)]
  have x3 : |-(1 + δ) + 1| = δ := by rw [show -(1 + δ) + 1 = -δ by ring, abs_neg, abs_of_pos (by linarith)]
  have y1 : |2 - δ| = 2 - δ := abs_of_pos (by linarith)
  have y2 : |2 - δ - 1| = 1 - δ := by rw [show 2 - δ - 1 = 1 - δ by ring, abs_of_pos (by linarith)]
  have y3 : |2 - δ + 1| = 3 - δ := by rw [show 2 - δ + 1 = 3 - δ by ring, abs_of_pos (by linarith)]
  have b1 := bin (b - 1) (-(1 + δ)) (by rw [x1]; linarith) (by rw [x1]; linarith) (by rw [Nat.cast_sub (by omega), hδ]; push_cast; ring) (by omega) (by omega) (by
    rw [x1, x2, x3]
    have := shape δ hδ0 hδ1 hpar
    linarith)
  have b2 := bin (b + 2) (2 - δ) (by rw [y1]; linarith) (by rw [y1]; linarith) (by rw [hδ]; push_cast; ring) (by omega) le_rfl (by
    rw [y1, y2, y3]
    have := shape (1 - δ) (by linarith) (by linarith) (by linarith)
    ring_nf at this ⊢
    linarith)
  have tot : ∑ k ∈ range (N / 2 + 1), binPower w N (preparedRun V (sineRow N A ν φ D)) k ≤ A' ^ 2 * (103 / 100) := by
    rw [sum_congr rfl fun k _ => binPower_congr _ N _ _ hz k]
    exact hann_total N (by omega) A' ν φ c hA'.le hc (by linarith) (by linarith)
  have hws : ∑ n ∈ range N, w n ≠ 0 := hann_sum_ne N (by omega)
  have key := two_bins lib a 1 ha (sineRow N A ν φ D) N (by simp [sineRow]) V hV hpk (by rw [hw]; exact hws) b (by omega) (by omega) (A' ^ 2 * (66 / 100 * q ^ 2)) (A' ^ 2 * (103 / 100))
    (by positivity) (by rw [hw]; exact b1) (by rw [hw]; exact b2) (by rw [hw]; exact tot) r h
  refine key.trans ?_
  have hq1 : q ≤ 1 := by
    rw [hq, div_le_one (mul_pos (by linarith) (by linarith))]
    nlinarith
  have e : (2 - d) * (3 - d) / d = 1 / q := by rw [hq, one_div_div]
  rw [e]
  exact hann_ratio A' q hA' hq0 hq1

/-! ## How much of a bin is harmless -/

private theorem sum_sq_dist (N : ℕ) (t : ℝ) : ∑ n ∈ range N, ((n : ℝ) - t) ^ 2 = N * (N - 1) * (2 * N - 1) / 6 - t * (N * (N - 1)) + N * t ^ 2 := by
  induction N with
  | zero => simp
  | succ N ih =>
    rw [sum_range_succ, ih]
    push_cast
    ring

/-- **C146 (without a window, at least).** A noiseless sine at most a quarter of a bin away from `b` periods, analysed without window: the call succeeds, the sine is found in
bin `b`, and the SNDR is at least `1.5 / (π δ)^2 - 1` up to the numerical floor. -/
theorem C146_plain_floor (lib : WinLib) (a : SpectrumArgs) (ha : PlainCall a) (N b : ℕ) (δ A φ D V : ℝ) (hb : 0 < b) (hbN : 2 * b < N) (hδ : |δ| ≤ 1 / 4) (hA : 0 < A)
    (hV : 0 < V) (hpk : peakAmplitude [sineRow N A (b + δ) φ D] a.scale = .ok V) :
    ∃ r, computeSpectrum lib [sineRow N A (b + δ) φ D] a = .ok r ∧ r.fundamentalBin = b ∧
      dB (max (A ^ 2 / 2 / (A ^ 2 * (Real.pi * δ) ^ 2 / 3 + V ^ 2 / 2 / 10 ^ 20) - 1) 0) ≤ r.sndr := by
  have hlen : (sineRow N A (b + δ) φ D).length = N := by simp [sineRow]
  have hNp : (0 : ℝ) < N := by exact_mod_cast (by omega : 0 < N)
  have hN1 : (1 : ℝ) ≤ N := by exact_mod_cast (by omega : 1 ≤ N)
  have hpi := Real.pi_pos
  set φ' := φ + 2 * Real.pi * (δ * ((N - 1) / 2) / N) with hφ
  have hs3 : Real.sqrt 3 ^ 2 = 3 := Real.sq_sqrt (by norm_num)
  have h3 : 173 / 100 ≤ Real.sqrt 3 := Real.le_sqrt_of_sq_le (by norm_num)
  set σ := A * (Real.pi * |δ|) / Real.sqrt 3 with hσ
  have hσ2 : σ ^ 2 = A ^ 2 * (Real.pi * δ) ^ 2 / 3 := by rw [hσ, div_pow, hs3, mul_pow, mul_pow, mul_pow, sq_abs]
  obtain ⟨r, hr, hf, _, hsn⟩ := C95_bounded_error lib a ha (sineRow N A (b + δ) φ D) V hV hpk b hb (by rw [hlen]; exact hbN) A φ' D σ
    (fun n => sineAt A ((b + δ) / N) φ D n - sineAt A ((b : ℝ) / N) φ' D n) (fun n hn => by
      rw [hlen] at hn ⊢
      unfold sineRow
      rw [List.getD_eq_getElem?_getD, List.getElem?_map, List.getElem?_range hn]
      simp only [Option.map_some, Option.getD_some]
      ring) (by positivity) (by
      rw [hlen]
      have step : ∀ n ∈ range N, (sineAt A ((b + δ) / N) φ D n - sineAt A ((b : ℝ) / N) φ' D n) ^ 2
          ≤ (A * (2 * Real.pi * δ / N)) ^ 2 * ((n : ℝ) - (N - 1) / 2) ^ 2 := by
        intro n _
        have hd : |Real.cos (2 * Real.pi * ((b + δ) / N) * n + φ) - Real.cos (2 * Real.pi * ((b : ℝ) / N) * n + φ')|
            ≤ |2 * Real.pi * δ / N * ((n : ℝ) - (N - 1) / 2)| := by
          refine (Real.abs_cos_sub_cos_le _ _).trans (le_of_eq ?_)
          congr 1
          rw [hφ]
          field_simp
          ring
        have e : sineAt A ((b + δ) / N) φ D n - sineAt A ((b : ℝ) / N) φ' D n
            = A * (Real.cos (2 * Real.pi * ((b + δ) / N) * n + φ) - Real.cos (2 * Real.pi * ((b : ℝ) / N) * n + φ')) := by unfold sineAt; ring
        have e' : (A * (2 * Real.pi * δ / N)) ^ 2 * ((n : ℝ) - (N - 1) / 2) ^ 2 = A ^ 2 * (2 * Real.pi * δ / N * ((n : ℝ) - (N - 1) / 2)) ^ 2 := by ring
        rw [e, e', mul_pow]
        exact mul_le_mul_of_nonneg_left (sq_le_sq.mpr hd) (sq_nonneg _)
      refine (sum_le_sum step).trans ?_
      rw [← mul_sum, sum_sq_dist, hσ2]
      have e : (A * (2 * Real.pi * δ / N)) ^ 2 * (N * (N - 1) * (2 * N - 1) / 6 - (N - 1) / 2 * (N * (N - 1)) + N * ((N - 1) / 2) ^ 2)
          = A ^ 2 * (Real.pi * δ) ^ 2 / 3 * (N - 1 / N) := by field_simp; ring
      rw [e, mul_comm (N : ℝ)]
      apply mul_le_mul_of_nonneg_left _ (by positivity)
      have : 0 ≤ 1 / (N : ℝ) := by positivity
      linarith) (by
      rw [hσ, ← mul_div_assoc, div_lt_iff₀ (by positivity)]
      have : Real.pi * |δ| ≤ 4 / 5 := by nlinarith [Real.pi_lt_d2, abs_nonneg δ]
      nlinarith)
  exact ⟨r, hr, hf, by rwa [hσ2] at hsn⟩

/-! ## In effective bits -/

/-- A power ratio of at most `1.1 * 4^k` is less than `k` effective bits. -/
private theorem enob_below (k : ℕ) (hk : k ≤ 100) (s : EReal) (hs : s ≤ dB (11 / 10 * 4 ^ k)) :
    (s - ((1.76 : ℝ) : EReal)) / ((6.02 : ℝ) : EReal) < ((k : ℝ) : EReal) := by
  have h11 : 20 * Real.logb 10 (11 / 10) ≤ 1 := by
    have : Real.logb 10 ((11 / 10 : ℝ) ^ 20) ≤ Real.logb 10 (10 ^ 1) := Real.logb_le_logb_of_le (by norm_num) (by norm_num) (by norm_num)
    rw [Real.logb_pow, Real.logb_pow, Real.logb_self_eq_one (by norm_num)] at this
    push_cast at this
    linarith
  have h4 : 83 * Real.logb 10 4 ≤ 50 := by
    have : Real.logb 10 ((4 : ℝ) ^ 83) ≤ Real.logb 10 (10 ^ 50) := Real.logb_le_logb_of_le (by norm_num) (by norm_num) (by norm_num)
    rw [Real.logb_pow, Real.logb_pow, Real.logb_self_eq_one (by norm_num)] at this
    push_cast at this
    linarith
  have hkR : (k : ℝ) ≤ 100 := by exact_mod_cast hk
  have hk0 : (0 : ℝ) ≤ k := Nat.cast_nonneg k
  rw [dB_pos (by positivity), Real.logb_mul (by norm_num) (by positivity), Real.logb_pow] at hs
  induction s with
  | bot =>
    rw [EReal.bot_sub, EReal.bot_div_of_pos_ne_top (by norm_num) (EReal.coe_ne_top _)]
    exact EReal.bot_lt_coe _
  | top => exact absurd (top_le_iff.mp hs) (EReal.coe_ne_top _)
  | coe s =>
    rw [EReal.coe_le_coe_iff] at hs
    rw [← EReal.coe_sub, ← EReal.coe_div, EReal.coe_lt_coe_iff, div_lt_iff₀ (by norm_num)]
    nlinarith [mul_le_mul_of_nonneg_left h4 hk0]

private theorem pow_two_sq (k : ℕ) : ((2 : ℝ) ^ k) ^ 2 = 4 ^ k := by rw [← pow_mul, mul_comm, pow_mul]; norm_num

/-- **C146 (bits, without a window).** Without a window the distance from a whole number of periods decides the effective bits of a perfect sine: at least `2^-n` of a
bin away, fewer than `n` bits are reported. -/
theorem C146_plain_enob_below (lib : WinLib) (a : SpectrumArgs) (ha : FixedLobeCall a 0) (hwin : a.win = "boxcar" ∨ a.win = "rectangular") (N b n : ℕ) (hn : n ≤ 100)
    (ν A φ D V : ℝ) (hb : 32 ≤ b) (hN : 2 * (b + 1) + 64 ≤ N) (h1 : b + 1 / 2 ^ n ≤ ν) (h2 : ν ≤ b + 1 - 1 / 2 ^ n) (hA : 0 < A) (hV : 0 < V)
    (hpk : peakAmplitude [sineRow N A ν φ D] a.scale = .ok V) (r : SpectrumResult) (h : computeSpectrum lib [sineRow N A ν φ D] a = .ok r) :
    r.enob < ((n : ℝ) : EReal) := by
  have hp : (0 : ℝ) < 1 / 2 ^ n := by positivity
  have key := C146_plain_ceiling lib a ha hwin N b _ ν A φ D V hb hN hp h1 h2 hA hV hpk r h
  rw [(C62_noise_floor_identities lib _ a r h).2.2.2]
  apply enob_below n hn
  refine key.trans ?_
  have e : (11 / 10 : ℝ) / (1 / 2 ^ n) ^ 2 = 11 / 10 * 4 ^ n := by rw [div_pow, one_pow, pow_two_sq]; field_simp
  have h4 : (1 : ℝ) ≤ 4 ^ n := one_le_pow₀ (by norm_num)
  rw [e]
  apply dB_mono <;> linarith

/-- **C146 (bits, without a window).** At most `2^-(n+2)` of a bin away, and with the full scale at most twice the amplitude, more than `n` bits are reported (up to 30). -/
theorem C146_plain_enob_above (lib : WinLib) (a : SpectrumArgs) (ha : PlainCall a) (N b n : ℕ) (hn1 : 1 ≤ n) (hn : n ≤ 30) (δ A φ D V : ℝ) (hb : 0 < b) (hbN : 2 * b < N)
    (hδ : |δ| ≤ 1 / 2 ^ (n + 2)) (hA : 0 < A) (hV : 0 < V) (hVA : V ≤ 2 * A) (hpk : peakAmplitude [sineRow N A (b + δ) φ D] a.scale = .ok V) :
    ∃ r, computeSpectrum lib [sineRow N A (b + δ) φ D] a = .ok r ∧ r.fundamentalBin = b ∧ ((n : ℝ) : EReal) < r.enob := by
  have hz2 : (2 : ℝ) ≤ 2 ^ n := by
    calc (2 : ℝ) = 2 ^ 1 := by norm_num
      _ ≤ 2 ^ n := pow_le_pow_right₀ (by norm_num) hn1
  have hz30 : (2 : ℝ) ^ n ≤ 2 ^ 30 := pow_le_pow_right₀ (by norm_num) hn
  have e4 : (2 : ℝ) ^ (n + 2) = 4 * 2 ^ n := by rw [pow_add]; norm_num; ring
  rw [e4] at hδ
  obtain ⟨r, hr, hf, hs⟩ := C146_plain_floor lib a ha N b δ A φ D V hb hbN (hδ.trans (by
    rw [div_le_div_iff₀ (by positivity) (by norm_num)]; linarith)) hA hV hpk
  refine ⟨r, hr, hf, ?_⟩
  rw [(C62_noise_floor_identities lib _ a r hr).2.2.2]
  apply enob_above n _ _ _ hs
  refine le_max_of_le_left ?_
  rw [← pow_two_sq]
  generalize (2 : ℝ) ^ n = z at *
  have hz0 : 0 < z := by linarith
  have hpd : (Real.pi * δ) ^ 2 ≤ (63 / 80 / z) ^ 2 := by
    rw [← sq_abs, abs_mul, abs_of_pos Real.pi_pos]
    apply pow_le_pow_left₀ (by positivity)
    calc Real.pi * |δ| ≤ 63 / 20 * (1 / (4 * z)) := mul_le_mul (by linarith [Real.pi_lt_d2]) hδ (abs_nonneg _) (by norm_num)
      _ = _ := by field_simp; norm_num
  have hden : A ^ 2 * (Real.pi * δ) ^ 2 / 3 + V ^ 2 / 2 / 10 ^ 20 ≤ A ^ 2 * (24 / 100) / z ^ 2 := by
    have v2 : V ^ 2 ≤ (2 * A) ^ 2 := pow_le_pow_left₀ hV.le hVA 2
    have z2 : z ^ 2 ≤ (2 ^ 30) ^ 2 := pow_le_pow_left₀ hz0.le hz30 2
    have i1 : A ^ 2 * (Real.pi * δ) ^ 2 / 3 ≤ A ^ 2 * (63 / 80 / z) ^ 2 / 3 := by gcongr
    have i2 : V ^ 2 / 2 / 10 ^ 20 ≤ A ^ 2 * (3 / 100) / z ^ 2 := by
      rw [le_div_iff₀ (by positivity)]
      have hA2 := sq_nonneg A
      calc V ^ 2 / 2 / 10 ^ 20 * z ^ 2 ≤ (2 * A) ^ 2 / 2 / 10 ^ 20 * (2 ^ 30) ^ 2 := by gcongr
        _ = A ^ 2 * (2 / 10 ^ 20 * (2 ^ 30) ^ 2) := by ring
        _ ≤ _ := mul_le_mul_of_nonneg_left (by norm_num) hA2
    have e : A ^ 2 * (63 / 80 / z) ^ 2 / 3 = A ^ 2 * (1323 / 6400) / z ^ 2 := by field_simp; norm_num
    rw [e] at i1
    have e2 : A ^ 2 * (24 / 100) / z ^ 2 = A ^ 2 * (21 / 100) / z ^ 2 + A ^ 2 * (3 / 100) / z ^ 2 := by ring
    have i3 : A ^ 2 * (1323 / 6400) / z ^ 2 ≤ A ^ 2 * (21 / 100) / z ^ 2 :=
      div_le_div_of_nonneg_right (mul_le_mul_of_nonneg_left (by norm_num) (sq_nonneg _)) (sq_nonneg _)
    rw [e2]
    linarith
  have hpos : 0 < A ^ 2 * (Real.pi * δ) ^ 2 / 3 + V ^ 2 / 2 / 10 ^ 20 := by positivity
  have hfin : A ^ 2 / 2 / (A ^ 2 * (24 / 100) / z ^ 2) ≤ A ^ 2 / 2 / (A ^ 2 * (Real.pi * δ) ^ 2 / 3 + V ^ 2 / 2 / 10 ^ 20) :=
    div_le_div_of_nonneg_left (by positivity) hpos hden
  have e5 : A ^ 2 / 2 / (A ^ 2 * (24 / 100) / z ^ 2) = 25 / 12 * z ^ 2 := by field_simp; norm_num
  rw [e5] at hfin
  nlinarith

/-- **C146 (bits, Hann window).** `quick_sndr` with its default window and side bin: it answers, and a perfect sine at least `2^(3-n)` of a bin away from a whole number of
periods shows fewer than `n` bits. -/
theorem C146_quick_sndr_below (lib : WinLib) (N b n : ℕ) (hn : n ≤ 100) (ν A φ D V : ℝ) (scale : ScaleRange ℝ) (hb : 32 ≤ b) (hN : 2 * (b + 1) + 64 ≤ N)
    (h1 : b + 8 / 2 ^ n ≤ ν) (h2 : ν ≤ b + 1 - 8 / 2 ^ n) (hA : 0 < A) (hV : 0 < V) (hpk : peakAmplitude [sineRow N A ν φ D] scale = .ok V) :
    ∃ s e, quickSndr lib [sineRow N A ν φ D] "hann" none scale = .ok (s, e) ∧ e < ((n : ℝ) : EReal) := by
  have hp : (0 : ℝ) < 8 / 2 ^ n := by positivity
  have hlen : (sineRow N A ν φ D).length = N := by simp [sineRow]
  set a : SpectrumArgs := { scale := scale, sideBin := some 1 } with haa
  have hprep : prepareFftInput [sineRow N A ν φ D] a.scale = .ok [(removeDc (sineRow N A ν φ D)).map (· / V)] := by
    have ho : orient [sineRow N A ν φ D] = [sineRow N A ν φ D] := by simp [orient]
    have hpk' : peakAmplitude [sineRow N A ν φ D] a.scale = .ok V := hpk
    unfold prepareFftInput
    simp only [ho, hpk', List.map_cons, List.map_nil]
    rw [if_pos hV.ne']
  obtain ⟨r, hr⟩ := (C63_compute_spectrum_total lib [sineRow N A ν φ D] a _ hprep (by simp [removeDc, hlen]; omega)).mpr
    ⟨one_pos, by norm_num [haa], by norm_num [haa], by norm_num [haa]⟩
  have ha : FixedLobeCall a 1 := ⟨rfl, rfl, rfl, rfl, rfl⟩
  refine ⟨r.sndr, r.enob, C30_quick_sndr_agrees lib _ a r hr 1 rfl rfl rfl rfl rfl, ?_⟩
  have key := C146_hann_ceiling lib a ha rfl N b _ ν A φ D V hb hN hp h1 h2 hA hV hpk r hr
  rw [(C62_noise_floor_identities lib _ a r hr).2.2.2]
  apply enob_below n hn
  refine key.trans ?_
  have hd2 : (8 : ℝ) / 2 ^ n ≤ 1 / 2 := by linarith
  have hz : (4 : ℝ) ^ n = (8 / (8 / 2 ^ n)) ^ 2 := by rw [← pow_two_sq]; field_simp
  rw [hz]
  generalize (8 : ℝ) / 2 ^ n = d at *
  have h6 : (2 - d) * (3 - d) ≤ 6 := by nlinarith
  have h3 : 3 ≤ (2 - d) * (3 - d) := by nlinarith
  have e1 : ((2 - d) * (3 - d) / d) ^ 2 ≤ (6 / d) ^ 2 := pow_le_pow_left₀ (by positivity) (div_le_div_of_nonneg_right h6 hp.le) 2
  have e2 : 1 ≤ ((2 - d) * (3 - d) / d) ^ 2 := one_le_pow₀ ((one_le_div hp).mpr (by linarith))
  have e3 : 8 / 5 * (6 / d) ^ 2 ≤ 11 / 10 * (8 / d) ^ 2 := by
    rw [div_pow, div_pow, ← mul_div_assoc, ← mul_div_assoc]
    apply div_le_div_of_nonneg_right _ (sq_nonneg _)
    norm_num
  apply dB_mono <;> linarith

/-! ## Concrete cases -/

/-- A plain call also has a fixed lobe of no side bins. -/
theorem PlainCall.fixedLobe {a : SpectrumArgs} (ha : PlainCall a) : FixedLobeCall a 0 := ⟨ha.side, ha.osr, ha.coh, ha.cut, ha.ass⟩

/-- 4096 samples of 100.001 periods without a window: at least 7 and fewer than 10 bits, although the sine is exact. -/
example (lib : WinLib) : ∃ r, computeSpectrum lib [sineRow 4096 1 ((100 : ℕ) + 1 / 1000) 0 0] { scale := .seq [-1, 1], win := "boxcar", sideBin := some 0 } = .ok r ∧
    ((7 : ℝ) : EReal) < r.enob ∧ r.enob < ((10 : ℝ) : EReal) := by
  have hpk : peakAmplitude [sineRow 4096 1 ((100 : ℕ) + 1 / 1000) 0 0] (.seq [-1, 1]) = .ok 1 := by
    show Except.ok _ = _
    norm_num
  have ha : PlainCall { scale := .seq [-1, 1], win := "boxcar", sideBin := some 0 } :=
    ⟨Or.inl rfl, rfl, rfl, rfl, rfl, rfl, by norm_num, by norm_num, by norm_num⟩
  obtain ⟨r, hr, _, h7⟩ := C146_plain_enob_above lib _ ha 4096 100 7 (by norm_num) (by norm_num) (1 / 1000) 1 0 0 1 (by norm_num) (by norm_num)
    (by rw [abs_of_pos (by norm_num)]; norm_num) one_pos one_pos (by norm_num) hpk
  have h10 := C146_plain_enob_below lib _ ha.fixedLobe (Or.inl rfl) 4096 100 10 (by norm_num) ((100 : ℕ) + 1 / 1000) 1 0 0 1 (by norm_num) (by norm_num)
    (by norm_num) (by norm_num) one_pos one_pos hpk r hr
  exact ⟨r, hr, by exact_mod_cast h7, by exact_mod_cast h10⟩

/-- Half a bin off, the default `quick_sndr` reports fewer than 4 bits for a perfect sine. -/
example (lib : WinLib) : ∃ s e, quickSndr lib [sineRow 4096 1 ((100 : ℕ) + 1 / 2) 0 0] "hann" none (.seq [-1, 1]) = .ok (s, e) ∧ e < ((4 : ℝ) : EReal) := by
  have hpk : peakAmplitude [sineRow 4096 1 ((100 : ℕ) + 1 / 2) 0 0] (.seq [-1, 1]) = .ok 1 := by
    show Except.ok _ = _
    norm_num
  obtain ⟨s, e, h, he⟩ := C146_quick_sndr_below lib 4096 100 4 (by norm_num) ((100 : ℕ) + 1 / 2) 1 0 0 1 _ (by norm_num) (by norm_num) (by norm_num) (by norm_num) one_pos one_pos hpk
  exact ⟨s, e, h, by exact_mod_cast he⟩

end Verif
