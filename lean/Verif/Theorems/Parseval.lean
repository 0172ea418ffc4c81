import Verif.Proofs.Spectrum

/-!
# C26: power of the one-sided spectrum
-/

namespace Verif

open Model Finset

/-- One-sided folding of a symmetric full spectrum keeps half of its sum. -/
theorem oneSided_sum (N : ℕ) (hN : N ≠ 0) (g : ℕ → ℝ) (hsym : ∀ k, 0 < k → k < N → g (N - k) = g k) :
    ∑ k ∈ range (N / 2 + 1), oneSided N k (g k) = (∑ k ∈ range N, g k) / 2 := by
  rcases Nat.even_or_odd' N with ⟨h, hh | hh⟩
  · obtain ⟨m, rfl⟩ : ∃ m, h = m + 1 := ⟨h - 1, by omega⟩
    have hN' : N = 2 * m + 2 := by omega
    rw [show N / 2 + 1 = (m + 1) + 1 by omega, sum_range_succ, sum_range_succ']
    conv_rhs => rw [show range N = range (2 * m + 2) by rw [hN'], sum_fold_even]
    have e0 : oneSided N 0 (g 0) = g 0 / 2 := by
      unfold oneSided; simp only; rw [if_neg (by omega), if_pos (by trivial)]
    have e1 : oneSided N (m + 1) (g (m + 1)) = g (m + 1) / 2 := by
      unfold oneSided; simp only; rw [if_pos ⟨by omega, by omega⟩, if_neg (by omega)]
    have e2 : ∀ k ∈ range m, oneSided N (k + 1) (g (k + 1)) = (g (k + 1) + g (2 * m + 1 - k)) / 2 := by
      intro k hk
      rw [mem_range] at hk
      unfold oneSided; simp only; rw [if_neg (by omega), if_neg (by omega)]
      have := hsym (k + 1) (by omega) (by omega)
      rw [show N - (k + 1) = 2 * m + 1 - k by omega] at this
      rw [this]; ring
    rw [e0, e1, sum_congr rfl e2, ← sum_div]
    ring
  · rw [show N / 2 + 1 = h + 1 by omega, sum_range_succ']
    conv_rhs => rw [show range N = range (2 * h + 1) by rw [hh], sum_fold_odd]
    have e0 : oneSided N 0 (g 0) = g 0 / 2 := by
      unfold oneSided; simp only; rw [if_neg (by omega), if_pos (by trivial)]
    have e2 : ∀ k ∈ range h, oneSided N (k + 1) (g (k + 1)) = (g (k + 1) + g (2 * h - k)) / 2 := by
      intro k hk
      rw [mem_range] at hk
      unfold oneSided; simp only; rw [if_neg (by omega), if_neg (by omega)]
      have := hsym (k + 1) (by omega) (by omega)
      rw [show N - (k + 1) = 2 * h - k by omega] at this
      rw [this]; ring
    rw [e0, sum_congr rfl e2, ← sum_div]
    ring

theorem norm_dft_sym (N : ℕ) (hN : N ≠ 0) (x : ℕ → ℝ) (k : ℕ) (hk : k < N) :
    ‖dft N (fun n => (x n : ℂ)) ((N - k : ℕ) : ℤ)‖ = ‖dft N (fun n => (x n : ℂ)) k‖ := by
  have h := dft_conj N x k
  have h2 : dft N (fun n => (x n : ℂ)) ((N - k : ℕ) : ℤ) = dft N (fun n => (x n : ℂ)) (-(k : ℤ)) := by
    rw [show (((N - k : ℕ)) : ℤ) = -(k : ℤ) + 1 * (N : ℤ) by omega, dft_periodic N hN]
  rw [h2, ← h, Complex.norm_conj]

private theorem list_sum_comm (l : List (ℕ → ℝ)) (s : Finset ℕ) (f : (ℕ → ℝ) → ℕ → ℝ) :
    ∑ k ∈ s, (l.map fun x => f x k).sum = (l.map fun x => ∑ k ∈ s, f x k).sum := by
  induction l with
  | nil => simp
  | cons a l ih => simp only [List.map_cons, List.sum_cons]; rw [sum_add_distrib, ih]

private theorem list_sum_div (l : List ℝ) (c : ℝ) : (l.map (· / c)).sum = l.sum / c := by
  induction l with
  | nil => simp
  | cons v l ih => rw [List.map_cons, List.sum_cons, ih, List.sum_cons, add_div]

/-- **C26 (Parseval).** The one-sided power average sums to half the mean square of the runs, for every length (even or
odd). -/
theorem C26_total_power (runs : List (ℕ → ℝ)) (N : ℕ) (hN : N ≠ 0) :
    (powerAverage runs N).sum = (runs.map fun (x : ℕ → ℝ) => (∑ n ∈ range N, x n ^ 2) / (N : ℝ)).sum / runs.length / 2 := by
  have hNR : (N : ℝ) ≠ 0 := by exact_mod_cast hN
  unfold powerAverage
  rw [list_sum_map_range]
  rw [oneSided_sum N hN (fun k => (runs.map fun x => ‖dft N (fun n => (x n : ℂ)) k‖ ^ 2).sum / runs.length / (N : ℝ) ^ 2)]
  · rw [← sum_div, ← sum_div, list_sum_comm]
    congr 1
    have e : (runs.map fun x => ∑ k ∈ range N, ‖dft N (fun n => (x n : ℂ)) k‖ ^ 2)
        = runs.map fun (x : ℕ → ℝ) => (N : ℝ) * ∑ n ∈ range N, x n ^ 2 := by
      apply List.map_congr_left
      intro x _
      rw [parseval N hN]
      congr 1
      apply sum_congr rfl
      intro n _
      rw [Complex.norm_real, Real.norm_eq_abs, sq_abs]
    rw [e]
    rw [div_right_comm, ← list_sum_div, List.map_map]
    congr 2
    apply List.map_congr_left
    intro x _
    simp only [Function.comp]
    field_simp
  · intro k h0 hk
    congr 3
    apply List.map_congr_left
    intro x _
    rw [norm_dft_sym N hN x k hk]

/-- The correction in terms of the window alone. -/
theorem powerCorrection_eq (w : ℕ → ℝ) (N : ℕ) (hN : N ≠ 0) (hw : ∑ n ∈ range N, w n ≠ 0) :
    powerCorrection (windowGain w N) (windowEnbw w N) = 4 * N / ∑ n ∈ range N, w n ^ 2 := by
  have hNR : (N : ℝ) ≠ 0 := by exact_mod_cast hN
  unfold powerCorrection windowGain windowEnbw
  have e : ((∑ n ∈ range N, w n) / N) ^ 2 * (N * (∑ n ∈ range N, w n ^ 2) / (∑ n ∈ range N, w n) ^ 2)
      = (∑ n ∈ range N, w n ^ 2) / N := by
    field_simp
  rw [e, div_div_eq_mul_div]

/-- **C26 (window correction).** In every successful power-averaged `compute_spectrum` without cutoff, the returned spectrum
sums to twice the window-weighted mean square of the prepared runs, averaged over the runs, so that a full-scale sine has
power one. The window must have non-zero mean. -/
theorem C26_compute_spectrum_total (lib : WinLib) (data : List (List ℝ)) (a : SpectrumArgs) (r : SpectrumResult)
    (h : computeSpectrum lib data a = .ok r) (hcoh : a.coherent = false) (hcut : a.cutoff = 0) (d : List (List ℝ))
    (hd : prepareFftInput data a.scale = .ok d) (hw : ∑ n ∈ range r.N, windowVector lib a.win r.N n ≠ 0) :
    r.power.sum = (d.map fun x => 2 * (∑ n ∈ range r.N, (x.getD n 0 * windowVector lib a.win r.N n) ^ 2)
      / ∑ n ∈ range r.N, windowVector lib a.win r.N n ^ 2).sum / d.length := by
  obtain ⟨d', n, hd', hn, _, _, _, hN, _, _, hpow, hm⟩ := computeSpectrum_ok lib data a r h
  obtain ⟨bins, spur, noise, _, _, _, hr⟩ := spectrumMetrics_ok _ _ _ _ _ _ _ hm
  have hrN : r.N = (d'.headD []).length := by rw [hr]; rfl
  have hdd : d' = d := by rw [hd] at hd'; injection hd' with h; exact h.symm
  subst hdd
  rw [← hrN] at hpow hN
  rw [hpow]
  unfold applyCutoff rawSpectrum
  rw [if_neg (by rw [hcut]; exact lt_irrefl 0)]
  simp only [hcoh, Bool.false_eq_true, if_false]
  have hmul : ∀ (l : List ℝ) (c : ℝ), (l.map (· * c)).sum = l.sum * c := by
    intro l c
    induction l with
    | nil => simp
    | cons v l ih => rw [List.map_cons, List.sum_cons, ih, List.sum_cons, add_mul]
  rw [hmul, C26_total_power _ _ hN.ne', powerCorrection_eq _ _ hN.ne' hw]
  have hNR : (r.N : ℝ) ≠ 0 := by exact_mod_cast hN.ne'
  unfold runsOf
  rw [List.map_map, List.length_map]
  rw [show ∀ s : ℝ, s / (d'.length : ℝ) / 2 * (4 * r.N / ∑ n ∈ range r.N, windowVector lib a.win r.N n ^ 2)
      = s * (2 * r.N / ∑ n ∈ range r.N, windowVector lib a.win r.N n ^ 2) / d'.length by intro s; ring]
  rw [← hmul, List.map_map]
  congr 2
  apply List.map_congr_left
  intro x _
  simp only [Function.comp]
  field_simp

/-! ### Coherent tones -/

/-- `w` has no spectral content beyond `m` bins and its strongest line is the DC line. -/
structure LobeWindow (w : ℕ → ℝ) (N m : ℕ) : Prop where
  band : ∀ k : ℤ, (∀ j : ℤ, |j| ≤ m → ¬ (N : ℤ) ∣ k - j) → dft N (fun n => (w n : ℂ)) k = 0
  peak : ∀ k : ℤ, ¬ (N : ℤ) ∣ k → ‖dft N (fun n => (w n : ℂ)) k‖ < ‖dft N (fun n => (w n : ℂ)) 0‖
  mean : ∑ n ∈ range N, w n ≠ 0

/-- Spectrum of a windowed cosine: two shifted copies of the window's spectrum. -/
theorem dft_tone (N b : ℕ) (A φ : ℝ) (w : ℕ → ℝ) (k : ℤ) :
    dft N (fun n => ((A * Real.cos (2 * Real.pi * (b * n / N) + φ) * w n : ℝ) : ℂ)) k
      = A / 2 * Complex.exp (φ * Complex.I) * dft N (fun n => (w n : ℂ)) (k - b)
        + A / 2 * Complex.exp (-(φ * Complex.I)) * dft N (fun n => (w n : ℂ)) (k + b) := by
  unfold dft
  rw [mul_sum, mul_sum, ← sum_add_distrib]
  apply sum_congr rfl
  intro n _
  beta_reduce
  rw [Complex.ofReal_mul, cos_cis]
  have e1 : cis (-(((k - b : ℤ) : ℝ) * n / N)) = cis (b * n / N) * cis (-(k * n / N)) := by
    rw [← cis_add]; congr 1; push_cast; ring
  have e2 : cis (-(((k + b : ℤ) : ℝ) * n / N)) = cis (-(b * n / N)) * cis (-(k * n / N)) := by
    rw [← cis_add]; congr 1; push_cast; ring
  rw [e1, e2]
  ring

theorem tone_bin (N b m : ℕ) (A φ : ℝ) (w : ℕ → ℝ) (hw : LobeWindow w N m) (hm : m < b) (hb : 2 * (b + m) < N)
    (k : ℕ) (hk : k ≤ N / 2) :
    ‖dft N (fun n => ((A * Real.cos (2 * Real.pi * (b * n / N) + φ) * w n : ℝ) : ℂ)) k‖ ^ 2
      = A ^ 2 / 4 * ‖dft N (fun n => (w n : ℂ)) ((k : ℤ) - b)‖ ^ 2 := by
  rw [dft_tone]
  have h0 : dft N (fun n => (w n : ℂ)) ((k : ℤ) + b) = 0 := by
    apply hw.band
    intro j hj hd
    rw [abs_le] at hj
    obtain ⟨c, hc⟩ := hd
    have h1 : (0 : ℤ) < (k : ℤ) + b - j := by omega
    have h2 : (k : ℤ) + b - j < N := by omega
    rw [hc] at h1 h2
    have hN : (0 : ℤ) < N := by omega
    have : 0 < c := by nlinarith
    have : c < 1 := by nlinarith
    omega
  have hn : ‖Complex.exp ((φ : ℂ) * Complex.I)‖ = 1 := Complex.norm_exp_ofReal_mul_I φ
  rw [h0, mul_zero, add_zero, norm_mul, norm_mul, hn, mul_one, mul_pow]
  congr 1
  rw [show (A / 2 : ℂ) = ((A / 2 : ℝ) : ℂ) by push_cast; rfl, Complex.norm_real, Real.norm_eq_abs, sq_abs]
  ring

theorem window_outside (N b m : ℕ) (w : ℕ → ℝ) (hw : LobeWindow w N m) (hm : m < b) (hb : 2 * (b + m) < N) (k : ℕ)
    (hk : k < N) (hout : k < b - m ∨ b + m < k) : dft N (fun n => (w n : ℂ)) ((k : ℤ) - b) = 0 := by
  apply hw.band
  intro j hj hd
  rw [abs_le] at hj
  obtain ⟨c, hc⟩ := hd
  have h1 : -(N : ℤ) < (k : ℤ) - b - j := by omega
  have h2 : (k : ℤ) - b - j < N := by omega
  have hN : (0 : ℤ) < N := by omega
  have hc0 : c = 0 := by
    rw [hc] at h1 h2
    have : -1 < c := by nlinarith
    have : c < 1 := by nlinarith
    omega
  rw [hc0] at hc
  omega

theorem lobe_sum (N b m : ℕ) (w : ℕ → ℝ) (hw : LobeWindow w N m) (hm : m < b) (hb : 2 * (b + m) < N) :
    ∑ k ∈ Ico (b - m) (b + m + 1), ‖dft N (fun n => (w n : ℂ)) ((k : ℤ) - b)‖ ^ 2 = N * ∑ n ∈ range N, w n ^ 2 := by
  have hN : N ≠ 0 := by omega
  have hp := parseval N hN (fun n => (w n : ℂ) * cis (b * n / N))
  have e1 : ∀ k : ℕ, dft N (fun n => (w n : ℂ) * cis (b * n / N)) k = dft N (fun n => (w n : ℂ)) ((k : ℤ) - b) := by
    intro k
    unfold dft
    apply sum_congr rfl
    intro n _
    rw [mul_assoc, ← cis_add]
    congr 2; push_cast; ring
  have e2 : ∀ n, ‖(w n : ℂ) * cis (b * n / N)‖ ^ 2 = w n ^ 2 := by
    intro n
    rw [norm_mul, norm_cis, mul_one, Complex.norm_real, Real.norm_eq_abs, sq_abs]
  simp only [e1, e2] at hp
  rw [← hp]
  apply sum_subset
  · intro k hk
    rw [mem_Ico] at hk
    rw [mem_range]; omega
  · intro k hk hk2
    rw [mem_range] at hk
    rw [mem_Ico] at hk2
    rw [window_outside N b m w hw hm hb k hk (by omega)]
    simp

/-- The windowed, corrected one-sided spectrum of a coherent tone. -/
theorem tone_spectrum (N b m : ℕ) (A φ : ℝ) (w : ℕ → ℝ) (hw : LobeWindow w N m) (hm : m < b) (hb : 2 * (b + m) < N)
    (p : List ℝ) (hp : p = (powerAverage [fun n => A * Real.cos (2 * Real.pi * (b * n / N) + φ) * w n] N).map
      (· * powerCorrection (windowGain w N) (windowEnbw w N))) :
    p.length = N / 2 + 1 ∧
    (∀ k, k ≤ N / 2 → p.getD k 0 = (if k < b - m ∨ b + m < k then 0 else
      A ^ 2 * ‖dft N (fun n => (w n : ℂ)) ((k : ℤ) - b)‖ ^ 2 / (N * ∑ n ∈ range N, w n ^ 2))) ∧
    ∑ k ∈ Ico (b - m) (b + m + 1), p.getD k 0 = A ^ 2 := by
  have hN : N ≠ 0 := by omega
  have hNR : (N : ℝ) ≠ 0 := by exact_mod_cast hN
  have hw2 : ∑ n ∈ range N, w n ^ 2 ≠ 0 := by
    intro h0
    apply hw.mean
    apply sum_eq_zero
    intro n hn
    have := (sum_eq_zero_iff_of_nonneg (fun i _ => sq_nonneg (w i))).mp h0 n hn
    exact pow_eq_zero_iff (two_ne_zero) |>.mp this
  have hget : ∀ k, k ≤ N / 2 → p.getD k 0 = (if k < b - m ∨ b + m < k then 0 else
      A ^ 2 * ‖dft N (fun n => (w n : ℂ)) ((k : ℤ) - b)‖ ^ 2 / (N * ∑ n ∈ range N, w n ^ 2)) := by
    intro k hk
    have hlen : k < (powerAverage [fun n => A * Real.cos (2 * Real.pi * (b * n / N) + φ) * w n] N).length := by
      rw [powerAverage_length]; omega
    have e : p.getD k 0 = oneSided N k (A ^ 2 / 4 * ‖dft N (fun n => (w n : ℂ)) ((k : ℤ) - b)‖ ^ 2 / (N : ℝ) ^ 2)
        * (4 * N / ∑ n ∈ range N, w n ^ 2) := by
      rw [hp, List.getD_eq_getElem?_getD, List.getElem?_map, List.getElem?_eq_getElem hlen]
      simp only [Option.map_some, Option.getD_some]
      rw [powerCorrection_eq w N hN hw.mean]
      congr 1
      unfold powerAverage
      simp only [List.getElem_map, List.getElem_range, List.map_cons, List.map_nil, List.sum_cons, List.sum_nil, add_zero,
        List.length_cons, List.length_nil]
      rw [tone_bin N b m A φ w hw hm hb k hk]
      norm_num
    rw [e]
    split_ifs with hout
    · rw [window_outside N b m w hw hm hb k (by omega) hout]
      unfold oneSided
      simp
    · have : oneSided N k (A ^ 2 / 4 * ‖dft N (fun n => (w n : ℂ)) ((k : ℤ) - b)‖ ^ 2 / (N : ℝ) ^ 2)
          = A ^ 2 / 4 * ‖dft N (fun n => (w n : ℂ)) ((k : ℤ) - b)‖ ^ 2 / (N : ℝ) ^ 2 := by
        unfold oneSided
        simp only
        rw [if_neg (by omega), if_neg (by omega)]
      rw [this]
      field_simp
  refine ⟨by rw [hp, List.length_map, powerAverage_length], hget, ?_⟩
  have e : ∀ k ∈ Ico (b - m) (b + m + 1), p.getD k 0
      = A ^ 2 / (N * ∑ n ∈ range N, w n ^ 2) * ‖dft N (fun n => (w n : ℂ)) ((k : ℤ) - b)‖ ^ 2 := by
    intro k hk
    rw [mem_Ico] at hk
    rw [hget k (by omega), if_neg (by omega)]
    ring
  rw [sum_congr rfl e, ← mul_sum, lobe_sum N b m w hw hm hb]
  field_simp

end Verif
