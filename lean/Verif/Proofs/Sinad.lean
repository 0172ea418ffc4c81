import Verif.Theorems.Mismatch
import Verif.Theorems.SineFit
import Verif.Theorems.SpectrumEngine

/-!
# Lemmas for the SNDR of a record (C95): projections on one bin and the spectrum without a window
-/

namespace Verif

open Model Finset Spec

section Projection

variable (N b : ℕ) (x : ℕ → ℝ)

/-- In-phase coefficient of the bin-`b` sine. -/
noncomputable def binCos : ℝ := 2 / N * ∑ n ∈ range N, x n * Real.cos (2 * Real.pi * (b * n / N))

/-- Quadrature coefficient of the bin-`b` sine. -/
noncomputable def binSin : ℝ := 2 / N * ∑ n ∈ range N, x n * Real.sin (2 * Real.pi * (b * n / N))

/-- Mean of the record. -/
noncomputable def recMean : ℝ := (∑ n ∈ range N, x n) / N

variable {N b}

theorem not_dvd_bin (hb : 0 < b) (hbN : b < N) : ¬ (N : ℤ) ∣ (b : ℤ) := by
  intro h
  have := Int.le_of_dvd (by omega) h
  omega

theorem sum_binCos (hb : 0 < b) (hbN : 2 * b < N) (c : ℝ) : ∑ n ∈ range N, Real.cos (2 * Real.pi * (b * n / N) + c) = 0 := by
  have := sum_cos_zero N (by omega) b (not_dvd_bin hb (by omega)) c
  simpa using this

theorem sum_binCos2 (hb : 0 < b) (hbN : 2 * b < N) (c : ℝ) : ∑ n ∈ range N, Real.cos (2 * (2 * Real.pi * (b * n / N)) + c) = 0 := by
  have := sum_cos_zero N (by omega) ((2 * b : ℕ) : ℤ) (not_dvd_bin (by omega) (by omega)) c
  rw [← this]
  refine sum_congr rfl fun n _ => ?_
  push_cast
  congr 2
  ring

theorem bin_sums (hb : 0 < b) (hbN : 2 * b < N) :
    ∑ n ∈ range N, Real.cos (2 * Real.pi * (b * n / N)) = 0 ∧ ∑ n ∈ range N, Real.sin (2 * Real.pi * (b * n / N)) = 0 ∧
    ∑ n ∈ range N, Real.cos (2 * Real.pi * (b * n / N)) ^ 2 = N / 2 ∧ ∑ n ∈ range N, Real.sin (2 * Real.pi * (b * n / N)) ^ 2 = N / 2 ∧
    ∑ n ∈ range N, Real.cos (2 * Real.pi * (b * n / N)) * Real.sin (2 * Real.pi * (b * n / N)) = 0 := by
  have h1 := sum_binCos (N := N) (b := b) hb hbN 0
  have h2 := sum_binCos (N := N) (b := b) hb hbN (-(Real.pi / 2))
  have h3 := sum_binCos2 (N := N) (b := b) hb hbN 0
  have h4 := sum_binCos2 (N := N) (b := b) hb hbN (-(Real.pi / 2))
  simp only [add_zero] at h1 h3
  simp only [← sub_eq_add_neg, Real.cos_sub_pi_div_two] at h2 h4
  refine ⟨h1, h2, ?_, ?_, ?_⟩
  · rw [sum_congr rfl fun n _ => Real.cos_sq _, sum_add_distrib, ← sum_div, ← sum_div, h3]
    simp
  · rw [sum_congr rfl fun n _ => Real.sin_sq_eq_half_sub _, sum_sub_distrib, ← sum_div, ← sum_div, h3]
    simp
  · have : ∀ n ∈ range N, Real.cos (2 * Real.pi * (b * n / N)) * Real.sin (2 * Real.pi * (b * n / N))
        = Real.sin (2 * (2 * Real.pi * (b * n / N))) / 2 := by
      intro n _
      rw [Real.sin_two_mul]
      ring
    rw [sum_congr rfl this, ← sum_div, h4, zero_div]

/-- Distance of the record from any sine at bin `b` with offset: Pythagoras about the projection. -/
theorem bin_pythagoras (hb : 0 < b) (hbN : 2 * b < N) (p q c : ℝ) :
    ∑ n ∈ range N, (x n - (p * Real.cos (2 * Real.pi * (b * n / N)) + q * Real.sin (2 * Real.pi * (b * n / N)) + c)) ^ 2
      = ∑ n ∈ range N, (x n - recMean N x) ^ 2 - N / 2 * (binCos N b x ^ 2 + binSin N b x ^ 2)
        + N / 2 * ((p - binCos N b x) ^ 2 + (q - binSin N b x) ^ 2) + N * (c - recMean N x) ^ 2 := by
  obtain ⟨s1, s2, s3, s4, s5⟩ := bin_sums (N := N) (b := b) hb hbN
  have hN : (N : ℝ) ≠ 0 := by exact_mod_cast (by omega : N ≠ 0)
  have hC : ∑ n ∈ range N, x n * Real.cos (2 * Real.pi * (b * n / N)) = N / 2 * binCos N b x := by
    unfold binCos; field_simp
  have hS : ∑ n ∈ range N, x n * Real.sin (2 * Real.pi * (b * n / N)) = N / 2 * binSin N b x := by
    unfold binSin; field_simp
  have hM : ∑ n ∈ range N, x n = N * recMean N x := by unfold recMean; field_simp
  generalize binCos N b x = α at *
  generalize binSin N b x = β at *
  generalize recMean N x = γ at *
  have e : ∀ n ∈ range N, (x n - (p * Real.cos (2 * Real.pi * (b * n / N)) + q * Real.sin (2 * Real.pi * (b * n / N)) + c)) ^ 2
      = (x n - γ) ^ 2 + 2 * (γ - c) * x n + (c ^ 2 - γ ^ 2) - 2 * p * (x n * Real.cos (2 * Real.pi * (b * n / N)))
        - 2 * q * (x n * Real.sin (2 * Real.pi * (b * n / N))) + p ^ 2 * Real.cos (2 * Real.pi * (b * n / N)) ^ 2
        + q ^ 2 * Real.sin (2 * Real.pi * (b * n / N)) ^ 2
        + 2 * p * q * (Real.cos (2 * Real.pi * (b * n / N)) * Real.sin (2 * Real.pi * (b * n / N)))
        + 2 * c * p * Real.cos (2 * Real.pi * (b * n / N)) + 2 * c * q * Real.sin (2 * Real.pi * (b * n / N)) := by
    intro n _; ring
  rw [sum_congr rfl e]
  simp only [sum_add_distrib, sum_sub_distrib, ← mul_sum, s1, s2, s3, s4, s5, hC, hS, hM, sum_const, card_range, nsmul_eq_mul]
  ring

/-- Magnitude of the bin. -/
theorem norm_bin (hN : N ≠ 0) : ‖dft N (fun n => (x n : ℂ)) b‖ ^ 2 = (N : ℝ) ^ 2 / 4 * (binCos N b x ^ 2 + binSin N b x ^ 2) := by
  have hNR : (N : ℝ) ≠ 0 := by exact_mod_cast hN
  have hre : (dft N (fun n => (x n : ℂ)) b).re = N / 2 * binCos N b x := by
    unfold dft binCos
    rw [Complex.re_sum, ← mul_assoc, show (N : ℝ) / 2 * (2 / N) = 1 by field_simp, one_mul]
    refine sum_congr rfl fun n _ => ?_
    rw [Complex.re_ofReal_mul, cis_re]
    congr 1
    rw [show 2 * Real.pi * -((((b : ℕ) : ℤ) : ℝ) * n / N) = -(2 * Real.pi * (b * n / N)) by push_cast; ring, Real.cos_neg]
  have him : (dft N (fun n => (x n : ℂ)) b).im = -(N / 2 * binSin N b x) := by
    unfold dft binSin
    rw [Complex.im_sum, ← mul_assoc, show (N : ℝ) / 2 * (2 / N) = 1 by field_simp, one_mul, ← sum_neg_distrib]
    refine sum_congr rfl fun n _ => ?_
    rw [Complex.im_ofReal_mul, cis_im]
    rw [show 2 * Real.pi * -((((b : ℕ) : ℤ) : ℝ) * n / N) = -(2 * Real.pi * (b * n / N)) by push_cast; ring, Real.sin_neg]
    ring
  rw [Complex.sq_norm, Complex.normSq_apply, hre, him]
  ring

end Projection

/-! ### The spectrum without a window -/

private theorem getD_lt (l : List ℝ) (i : ℕ) (h : i < l.length) : l.getD i 0 = l[i] := by
  rw [List.getD_eq_getElem?_getD, List.getElem?_eq_getElem h]
  rfl


private theorem dft_affine (N : ℕ) (hN : N ≠ 0) (x y : ℕ → ℝ) (m V : ℝ) (hy : ∀ n < N, y n = (x n - m) / V) (k : ℕ) (hk : 0 < k) (hkN : k < N) :
    dft N (fun n => (y n : ℂ)) k = dft N (fun n => (x n : ℂ)) k / V := by
  rw [dft_congr N _ (fun n => (x n : ℂ) / V - (m : ℂ) / V) k (fun n hn => by rw [hy n hn]; push_cast; ring)]
  have h := sum_cis N hN (-(k : ℤ))
  rw [if_neg (by rw [Int.dvd_neg]; exact not_dvd_bin hk hkN)] at h
  unfold dft
  simp only [sub_mul, sum_sub_distrib, ← mul_sum]
  have e : ∑ i ∈ range N, cis (-(((k : ℤ) : ℝ) * i / N)) = 0 := by
    rw [← h]
    refine sum_congr rfl fun i _ => ?_
    congr 1
    push_cast
    ring
  rw [e, mul_zero, sub_zero, sum_div]
  exact sum_congr rfl fun i _ => by ring

/-- Bins of the returned spectrum of a single run without a window, and its sum. -/
theorem boxcar_spectrum (lib : WinLib) (a : SpectrumArgs) (hwin : a.win = "boxcar" ∨ a.win = "rectangular") (row : List ℝ) (V : ℝ) (hV : V ≠ 0)
    (hpk : peakAmplitude [row] a.scale = .ok V) (hcoh : a.coherent = false) (hcut : a.cutoff = 0) (r : SpectrumResult)
    (h : computeSpectrum lib [row] a = .ok r) :
    0 < row.length ∧ r.N = row.length ∧ r.power.length = row.length / 2 + 1 ∧
    r.power.getD 0 0 = 0 ∧
    (∀ k, 0 < k → k ≤ row.length / 2 → k < row.length → r.power.getD k 0 = oneSided row.length k (4 * ‖dft row.length (fun n => (row.getD n 0 : ℂ)) k‖ ^ 2 / (row.length : ℝ) ^ 2 / V ^ 2)) ∧
    r.power.sum = 2 / row.length * (∑ n ∈ range row.length, (row.getD n 0 - recMean row.length (fun n => row.getD n 0)) ^ 2) / V ^ 2 := by
  have ho : orient [row] = [row] := by simp [orient]
  have hprep : prepareFftInput [row] a.scale = .ok [(removeDc row).map (· / V)] := by
    unfold prepareFftInput
    simp only [ho, hpk, List.map_cons, List.map_nil]
    rw [if_pos hV]
  have hw1 : ∀ N n, windowVector lib a.win N n = 1 := by
    intro N n
    unfold windowVector
    rw [if_pos hwin]
  set N := row.length with hNdef
  have hlen : (([(removeDc row).map (· / V)] : List (List ℝ)).headD []).length = N := by simp [removeDc, hNdef]
  obtain ⟨d, n', hd, hn', _, hnl, hpl, hN0, _, hnn, hpow, hm⟩ := computeSpectrum_ok lib _ a r h
  have hdd : d = [(removeDc row).map (· / V)] := by rw [hprep] at hd; injection hd with h; exact h.symm
  subst hdd
  rw [hlen] at hn' hpow hm hpl hN0
  have hNR : (N : ℝ) ≠ 0 := by exact_mod_cast hN0.ne'
  obtain ⟨bins, spur, noise, _, _, _, hr⟩ := spectrumMetrics_ok _ _ _ _ _ _ _ hm
  have hrN : r.N = N := by rw [hr]; rfl
  have hsum1 : ∑ n ∈ range N, windowVector lib a.win N n = N := by simp [hw1]
  have hsum2 : ∑ n ∈ range N, windowVector lib a.win N n ^ 2 = N := by simp [hw1]
  have hcorr : powerCorrection (windowGain (windowVector lib a.win N) N) (windowEnbw (windowVector lib a.win N) N) = 4 := by
    rw [powerCorrection_eq _ _ hN0.ne' (by rw [hsum1]; exact hNR), hsum2]
    field_simp
  have hmean : row.sum / row.length = recMean N (fun n => row.getD n 0) := by
    unfold recMean
    rw [← hNdef]
    congr 1
    have := slice_sum row 0 N
    rw [← list_sum_map_range]
    congr 1
    apply List.ext_getElem
    · simp [hNdef]
    · intro i h1 h2
      simp only [List.getElem_map, List.getElem_range]
      rw [getD_lt _ _ h1]
  have hget : ∀ n < N, ((removeDc row).map (· / V)).getD n 0 = (row.getD n 0 - recMean N (fun n => row.getD n 0)) / V := by
    intro n hn
    unfold removeDc
    rw [hmean, List.getD_eq_getElem?_getD, List.getElem?_map, List.getElem?_map, List.getElem?_eq_getElem hn, getD_lt _ _ hn]
    rfl
  have hp : r.power = (powerAverage [fun n => ((removeDc row).map (· / V)).getD n 0 * windowVector lib a.win N n] N).map (· * 4) := by
    rw [hpow]
    unfold applyCutoff rawSpectrum
    rw [if_neg (by rw [hcut]; exact lt_irrefl 0)]
    simp only [hcoh, Bool.false_eq_true, if_false]
    rw [hcorr]
    rfl
  have hpk : ∀ k, k ≤ N / 2 → r.power.getD k 0 = oneSided N k (‖dft N (fun n => ((((removeDc row).map (· / V)).getD n 0 : ℝ) : ℂ)) k‖ ^ 2 / (N : ℝ) ^ 2) * 4 := by
    intro k hk
    rw [hp, getD_lt _ _ (by simp [powerAverage_length]; omega)]
    simp only [List.getElem_map, powerAverage, List.getElem_range, List.map_cons, List.map_nil, List.sum_cons, List.sum_nil, hw1, mul_one,
      add_zero, List.length_cons, List.length_nil, zero_add, Nat.cast_one, div_one]
  have hos : ∀ k v c, oneSided N k v * c = oneSided N k (v * c) := by
    intro k v c
    unfold oneSided
    simp only
    split_ifs <;> ring
  refine ⟨hN0, hrN, hpl, ?_, ?_, ?_⟩
  · rw [hpk 0 (by omega), hos]
    have hz : dft N (fun n => ((((removeDc row).map (· / V)).getD n 0 : ℝ) : ℂ)) (0 : ℕ) = 0 := by
      have : dft N (fun n => ((((removeDc row).map (· / V)).getD n 0 : ℝ) : ℂ)) (0 : ℕ)
          = ((∑ n ∈ range N, (row.getD n 0 - recMean N (fun n => row.getD n 0)) / V : ℝ) : ℂ) := by
        unfold dft
        rw [Complex.ofReal_sum]
        refine sum_congr rfl fun n hn => ?_
        beta_reduce
        rw [hget n (mem_range.mp hn)]
        simp [cis_zero]
      rw [this, ← sum_div, sum_sub_distrib, sum_const, card_range, nsmul_eq_mul]
      unfold recMean
      rw [mul_div_cancel₀ _ hNR, sub_self, zero_div, Complex.ofReal_zero]
    rw [hz]
    unfold oneSided
    simp
  · intro k hk0 hk hkN
    rw [hpk k hk, hos]
    congr 1
    rw [dft_affine N hN0.ne' (fun n => row.getD n 0) _ _ V hget k hk0 hkN, norm_div, Complex.norm_real, Real.norm_eq_abs, div_pow, sq_abs]
    field_simp
  · have hs := C26_compute_spectrum_total lib [row] a r h hcoh hcut _ hprep (by rw [hrN, hsum1]; exact hNR)
    rw [hrN, hsum2] at hs
    rw [hs]
    simp only [List.map_cons, List.map_nil, List.sum_cons, List.sum_nil, hw1, mul_one, add_zero, List.length_cons, List.length_nil, zero_add,
      Nat.cast_one, div_one]
    rw [sum_congr rfl fun n hn => by rw [hget n (mem_range.mp hn), div_pow]]
    rw [← sum_div]
    field_simp

/-! ### Decibels to bits -/

/-- A power ratio of at least `1.5 * 4^k` is more than `k` effective bits. -/
theorem enob_above (k : ℕ) (q : ℝ) (hq : 3 / 2 * 4 ^ k ≤ q) (s : EReal) (hs : dB q ≤ s) :
    ((k : ℝ) : EReal) < (s - ((1.76 : ℝ) : EReal)) / ((6.02 : ℝ) : EReal) := by
  have h32 : (22 : ℝ) < 125 * Real.logb 10 (3 / 2) := by
    have : Real.logb 10 ((10 : ℝ) ^ 22) < Real.logb 10 ((3 / 2 : ℝ) ^ 125) := Real.logb_lt_logb (by norm_num) (by norm_num) (by norm_num)
    rw [Real.logb_pow, Real.logb_pow, Real.logb_self_eq_one (by norm_num)] at this
    push_cast at this
    linarith
  have h4 : (59 : ℝ) < 98 * Real.logb 10 4 := by
    have : Real.logb 10 ((10 : ℝ) ^ 59) < Real.logb 10 ((4 : ℝ) ^ 98) := Real.logb_lt_logb (by norm_num) (by norm_num) (by norm_num)
    rw [Real.logb_pow, Real.logb_pow, Real.logb_self_eq_one (by norm_num)] at this
    push_cast at this
    linarith
  have hq0 : (0 : ℝ) < 3 / 2 * 4 ^ k := by positivity
  have hl : Real.logb 10 (3 / 2) + k * Real.logb 10 4 ≤ Real.logb 10 q := by
    rw [← Real.logb_pow, ← Real.logb_mul (by norm_num) (by positivity)]
    exact Real.logb_le_logb_of_le (by norm_num) hq0 hq
  rw [dB_pos (lt_of_lt_of_le hq0 hq)] at hs
  have hk : (0 : ℝ) ≤ k := Nat.cast_nonneg k
  induction s with
  | bot => exact absurd (le_bot_iff.mp hs) (EReal.coe_ne_bot _)
  | top =>
    rw [EReal.top_sub_coe, EReal.top_div_of_pos_ne_top (by norm_num) (EReal.coe_ne_top _)]
    exact EReal.coe_lt_top _
  | coe s =>
    rw [EReal.coe_le_coe_iff] at hs
    rw [← EReal.coe_sub, ← EReal.coe_div, EReal.coe_lt_coe_iff, lt_div_iff₀ (by norm_num)]
    nlinarith

end Verif
