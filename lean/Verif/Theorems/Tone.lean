import Verif.Theorems.Parseval
import Verif.Theorems.Fundamental
import Mathlib.Tactic.IntervalCases

/-!
# C26: coherent tones through the whole engine
-/

namespace Verif

open Model Finset Spec

/-- Spectrum of a cosine-sum window. -/
theorem dft_generalCosine (a : List ℝ) (N : ℕ) (hN : 1 < N) (k : ℤ) :
    dft N (fun n => ((generalCosine a N n : ℝ) : ℂ)) k = ∑ j ∈ range a.length, ((a.getD j 0 * (-1) ^ j / 2 : ℝ) : ℂ) *
      ((if (N : ℤ) ∣ k - j then (N : ℂ) else 0) + (if (N : ℤ) ∣ k + j then (N : ℂ) else 0)) := by
  have hN0 : N ≠ 0 := by omega
  have hterm : ∀ n : ℕ, ((generalCosine a N n : ℝ) : ℂ)
      = ∑ j ∈ range a.length, ((a.getD j 0 * (-1) ^ j / 2 : ℝ) : ℂ) * (cis (j * n / N) + cis (-(j * n / N))) := by
    intro n
    unfold generalCosine
    rw [if_neg (by omega), list_sum_map_range, Complex.ofReal_sum]
    apply sum_congr rfl
    intro j _
    have e : Real.cos (j * (-Real.pi + 2 * Real.pi * n / N)) = (-1) ^ j * Real.cos (2 * Real.pi * (j * n / N)) := by
      rw [show (j : ℝ) * (-Real.pi + 2 * Real.pi * n / N) = 2 * Real.pi * (j * n / N) - j * Real.pi by ring,
        Real.cos_sub_nat_mul_pi]
    have e2 : cis ((j : ℝ) * n / N) + cis (-((j : ℝ) * n / N)) = ((2 * Real.cos (2 * Real.pi * (j * n / N)) : ℝ) : ℂ) := by
      rw [← conj_cis, Complex.add_conj, cis_re]
    rw [e, e2]
    push_cast
    ring
  unfold dft
  simp only [hterm, sum_mul]
  rw [sum_comm]
  apply sum_congr rfl
  intro j _
  have h1 := sum_cis N hN0 (-(k - j))
  have h2 := sum_cis N hN0 (-(k + j))
  simp only [dvd_neg] at h1 h2
  rw [← h1, ← h2, ← sum_add_distrib, mul_sum]
  apply sum_congr rfl
  intro n _
  rw [mul_assoc, add_mul, ← cis_add, ← cis_add]
  congr 3
  · congr 1; push_cast; ring
  · congr 1; push_cast; ring

/-- The line of a cosine-sum window at DC. -/
theorem dft_generalCosine_zero (a : List ℝ) (m N : ℕ) (hN : 1 < N) (hlen : a.length = m + 1) (hm : 2 * m < N) :
    dft N (fun n => ((generalCosine a N n : ℝ) : ℂ)) 0 = ((a.getD 0 0 * N : ℝ) : ℂ) := by
  rw [dft_generalCosine a N hN, hlen, sum_range_succ']
  have : ∀ j ∈ range m, ((a.getD (j + 1) 0 * (-1) ^ (j + 1) / 2 : ℝ) : ℂ) *
      ((if (N : ℤ) ∣ (0 : ℤ) - ((j + 1 : ℕ) : ℤ) then (N : ℂ) else 0) + (if (N : ℤ) ∣ (0 : ℤ) + ((j + 1 : ℕ) : ℤ) then (N : ℂ) else 0)) = 0 := by
    intro j hj
    rw [mem_range] at hj
    have hnd : ¬ (N : ℤ) ∣ ((j + 1 : ℕ) : ℤ) := by
      intro hd
      have := Int.le_of_dvd (by omega) hd
      omega
    rw [if_neg (by rw [zero_sub, dvd_neg]; exact hnd), if_neg (by rw [zero_add]; exact hnd)]
    simp
  rw [sum_eq_zero this]
  simp
  ring

/-- The line of a cosine-sum window at bin `±j0`. -/
theorem norm_generalCosine (a : List ℝ) (m N : ℕ) (hN : 1 < N) (hlen : a.length = m + 1) (hm : 2 * m < N) (j0 : ℕ) (hj1 : 1 ≤ j0) (hj0 : j0 ≤ m)
    (k : ℤ) (hj : (N : ℤ) ∣ k - j0 ∨ (N : ℤ) ∣ k + j0) :
    ‖dft N (fun n => ((generalCosine a N n : ℝ) : ℂ)) k‖ ≤ |a.getD j0 0| / 2 * N := by
  rw [dft_generalCosine a N hN]
  have huniq : ∀ j ∈ range a.length, j ≠ j0 → ((a.getD j 0 * (-1) ^ j / 2 : ℝ) : ℂ) *
      ((if (N : ℤ) ∣ k - j then (N : ℂ) else 0) + (if (N : ℤ) ∣ k + j then (N : ℂ) else 0)) = 0 := by
    intro j hjr hne
    rw [mem_range, hlen] at hjr
    have nd : ∀ z : ℤ, z ≠ 0 → -(N : ℤ) < z → z < N → ¬ (N : ℤ) ∣ z := by
      intro z hz h1 h2 ⟨c, hc⟩
      have hN' : (0 : ℤ) < N := by omega
      rw [hc] at h1 h2 hz
      have : -1 < c := by nlinarith
      have : c < 1 := by nlinarith
      apply hz
      rw [show c = 0 by omega, mul_zero]
    have n1 : ¬ (N : ℤ) ∣ k - j := by
      intro hd
      rcases hj with h | h
      · exact nd ((j : ℤ) - j0) (by omega) (by omega) (by omega) (by have := dvd_sub h hd; rwa [show k - (j0 : ℤ) - (k - j) = j - j0 by ring] at this)
      · exact nd ((j : ℤ) + j0) (by omega) (by omega) (by omega) (by have := dvd_sub h hd; rwa [show k + (j0 : ℤ) - (k - j) = j + j0 by ring] at this)
    have n2 : ¬ (N : ℤ) ∣ k + j := by
      intro hd
      rcases hj with h | h
      · exact nd ((j : ℤ) + j0) (by omega) (by omega) (by omega) (by have := dvd_sub hd h; rwa [show k + (j : ℤ) - (k - j0) = j + j0 by ring] at this)
      · exact nd ((j : ℤ) - j0) (by omega) (by omega) (by omega) (by have := dvd_sub hd h; rwa [show k + (j : ℤ) - (k + j0) = j - j0 by ring] at this)
    rw [if_neg n1, if_neg n2]
    simp
  rw [sum_eq_single_of_mem j0 (by rw [mem_range, hlen]; omega) huniq]
  have hone : ‖((if (N : ℤ) ∣ k - j0 then (N : ℂ) else 0) + (if (N : ℤ) ∣ k + j0 then (N : ℂ) else 0))‖ ≤ N := by
    by_cases h1 : (N : ℤ) ∣ k - j0 <;> by_cases h2 : (N : ℤ) ∣ k + j0
    · exfalso
      have h3 := dvd_sub h2 h1
      rw [show k + (j0 : ℤ) - (k - j0) = 2 * j0 by ring] at h3
      have := Int.le_of_dvd (by omega) h3
      omega
    · rw [if_pos h1, if_neg h2]; simp
    · rw [if_neg h1, if_pos h2]; simp
    · rw [if_neg h1, if_neg h2]; simp
  rw [norm_mul, Complex.norm_real, Real.norm_eq_abs]
  have habs : |a.getD j0 0 * (-1) ^ j0 / 2| = |a.getD j0 0| / 2 := by
    rw [abs_div, abs_mul, abs_pow, abs_neg, abs_one, one_pow, mul_one, abs_two]
  rw [habs]
  exact mul_le_mul_of_nonneg_left hone (by positivity)

/-- Cosine-sum windows with a dominant constant term are lobe windows. -/
theorem lobe_generalCosine (a : List ℝ) (m N : ℕ) (hN : 1 < N) (hlen : a.length = m + 1) (hm : 2 * m < N) (h0 : 0 < a.getD 0 0)
    (hdom : ∀ j, 1 ≤ j → j ≤ m → |a.getD j 0| < 2 * a.getD 0 0) : LobeWindow (fun n => generalCosine a N n) N m := by
  have hNR : (0 : ℝ) < N := by exact_mod_cast (by omega : 0 < N)
  have hW0 := dft_generalCosine_zero a m N hN hlen hm
  refine ⟨?_, ?_, ?_⟩
  · intro k hk
    show dft N (fun n => ((generalCosine a N n : ℝ) : ℂ)) k = 0
    rw [dft_generalCosine a N hN]
    apply sum_eq_zero
    intro j hj
    rw [mem_range, hlen] at hj
    rw [if_neg (hk j (by rw [abs_of_nonneg (by omega)]; omega)), if_neg]
    · simp
    · have := hk (-(j : ℤ)) (by rw [abs_neg, abs_of_nonneg (by omega)]; omega)
      rwa [sub_neg_eq_add] at this
  · intro k hk
    show ‖dft N (fun n => ((generalCosine a N n : ℝ) : ℂ)) k‖ < ‖dft N (fun n => ((generalCosine a N n : ℝ) : ℂ)) 0‖
    rw [hW0, Complex.norm_real, Real.norm_eq_abs, abs_of_pos (mul_pos h0 hNR)]
    by_cases hex : ∃ j : ℕ, j ≤ m ∧ ((N : ℤ) ∣ k - j ∨ (N : ℤ) ∣ k + j)
    · obtain ⟨j0, hj0, hj⟩ := hex
      have hj1 : 1 ≤ j0 := by
        by_contra hc
        have : j0 = 0 := by omega
        subst this
        simp at hj
        exact hk hj
      have hd := hdom j0 hj1 hj0
      refine lt_of_le_of_lt (norm_generalCosine a m N hN hlen hm j0 hj1 hj0 k hj) ?_
      apply mul_lt_mul_of_pos_right _ hNR
      linarith
    · push Not at hex
      rw [dft_generalCosine a N hN]
      rw [sum_eq_zero, norm_zero]
      · exact mul_pos h0 hNR
      · intro j hj
        rw [mem_range, hlen] at hj
        obtain ⟨h1, h2⟩ := hex j (by omega)
        rw [if_neg h1, if_neg h2]
        simp
  · intro hsum
    have h : dft N (fun n => ((generalCosine a N n : ℝ) : ℂ)) 0 = ((∑ n ∈ range N, generalCosine a N n : ℝ) : ℂ) := by
      unfold dft
      rw [Complex.ofReal_sum]
      apply sum_congr rfl
      intro n _
      simp [cis_zero]
    rw [hW0] at h
    have h2 : a.getD 0 0 * N = ∑ n ∈ range N, generalCosine a N n := by exact_mod_cast h
    rw [hsum] at h2
    have := mul_pos h0 hNR
    linarith

/-- **C26 (windows).** Every cosine-sum window of the library (rectangular, Hann, Hamming, Blackman, Blackman-Harris, flat
top, and Hann for unknown names) has its spectrum inside the default `side_bin`, strictly peaked at the centre. -/
theorem C26_default_side_bin_covers_lobe (lib : WinLib) (name : String) (h1 : name ≠ "kaiser") (h2 : name ≠ "chebwin")
    (N : ℕ) (hN : 1 < N) (hm : 2 * defaultSideBin name < N) :
    LobeWindow (windowVector lib name N) N (defaultSideBin name) := by
  by_cases hr : name = "boxcar" ∨ name = "rectangular"
  · have hw : windowVector lib name N = fun n => generalCosine [1] N n := by
      funext n
      unfold windowVector generalCosine
      rw [if_pos hr, if_neg (by omega)]
      simp
    have hd : defaultSideBin name = 0 := by rcases hr with rfl | rfl <;> rfl
    rw [hw, hd]
    exact lobe_generalCosine [1] 0 N hN rfl (by omega) (by simp) (fun j h1 h2 => by omega)
  · have hw : windowVector lib name N = fun n => generalCosine (cosineCoeffs name) N n := by
      funext n
      unfold windowVector
      rw [if_neg hr, if_neg h1, if_neg h2]
    rw [hw]
    push Not at hr
    by_cases a1 : name = "hamming"
    · subst a1
      exact lobe_generalCosine _ 1 N hN rfl hm (by norm_num [cosineCoeffs]) (fun j h1 h2 => by
        interval_cases j; norm_num [cosineCoeffs])
    by_cases a2 : name = "blackman"
    · subst a2
      exact lobe_generalCosine _ 2 N hN rfl hm (by norm_num [cosineCoeffs]) (fun j h1 h2 => by
        interval_cases j <;> norm_num [cosineCoeffs])
    by_cases a3 : name = "blackmanharris"
    · subst a3
      exact lobe_generalCosine _ 3 N hN rfl hm (by norm_num [cosineCoeffs]) (fun j h1 h2 => by
        interval_cases j <;> norm_num [cosineCoeffs])
    by_cases a4 : name = "flattop"
    · subst a4
      exact lobe_generalCosine _ 4 N hN rfl hm (by norm_num [cosineCoeffs]) (fun j h1 h2 => by
        interval_cases j <;> norm_num [cosineCoeffs])
    have hc : cosineCoeffs name = [1 / 2, 1 / 2] := by
      unfold cosineCoeffs
      split <;> first | rfl | contradiction
    have hs : defaultSideBin name = 1 := by
      unfold defaultSideBin
      split <;> first | rfl | (exfalso; first | exact hr.1 rfl | exact hr.2 rfl | contradiction)
    rw [hc, hs]
    rw [hs] at hm
    exact lobe_generalCosine _ 1 N hN rfl hm (by norm_num) (fun j h1 h2 => by
      interval_cases j; norm_num)

/-- A coherent capture: `b` periods of a cosine of amplitude `A` and phase `φ` in `N` samples, on a DC level `D`. -/
noncomputable def toneRow (N b : ℕ) (A φ D : ℝ) : List ℝ :=
  (List.range N).map fun (n : ℕ) => A * Real.cos (2 * Real.pi * (b * n / N) + φ) + D

theorem toneRow_getD (N b : ℕ) (A φ D : ℝ) (n : ℕ) (hn : n < N) :
    (toneRow N b A φ D).getD n 0 = A * Real.cos (2 * Real.pi * (b * n / N) + φ) + D := by
  unfold toneRow
  rw [List.getD_eq_getElem?_getD, List.getElem?_map, List.getElem?_range hn]
  rfl

theorem tone_sum (N b : ℕ) (A φ : ℝ) (hb : 0 < b) (hbN : 2 * b < N) :
    ∑ n ∈ range N, A * Real.cos (2 * Real.pi * (b * n / N) + φ) = 0 := by
  have hl : LobeWindow (fun n => generalCosine [1] N n) N 0 :=
    lobe_generalCosine [1] 0 N (by omega) rfl (by omega) (by simp) (fun j h1 h2 => by omega)
  have h := dft_tone N b A φ (fun n => generalCosine [1] N n) 0
  have nd : ∀ z : ℤ, z ≠ 0 → -(N : ℤ) < z → z < N → ¬ (N : ℤ) ∣ z := by
    intro z hz h1 h2 ⟨c, hc⟩
    have hN' : (0 : ℤ) < N := by omega
    rw [hc] at h1 h2 hz
    have : -1 < c := by nlinarith
    have : c < 1 := by nlinarith
    apply hz
    rw [show c = 0 by omega, mul_zero]
  rw [hl.band, hl.band] at h
  · simp only [mul_zero, add_zero] at h
    have h2 : ((∑ n ∈ range N, A * Real.cos (2 * Real.pi * (b * n / N) + φ) : ℝ) : ℂ) = 0 := by
      rw [← h]
      unfold dft
      rw [Complex.ofReal_sum]
      apply sum_congr rfl
      intro n _
      have : generalCosine [1] N n = 1 := by
        unfold generalCosine; split_ifs <;> simp
      beta_reduce
      rw [this]
      simp [cis_zero]
    exact_mod_cast h2
  · intro j hj
    have : j = 0 := by rw [abs_le] at hj; push_cast at hj; omega
    subst this
    exact nd _ (by omega) (by omega) (by omega)
  · intro j hj
    have : j = 0 := by rw [abs_le] at hj; push_cast at hj; omega
    subst this
    exact nd _ (by omega) (by omega) (by omega)

/-- Preparation of a coherent tone removes the DC level and scales by the full scale. -/
theorem prepare_toneRow (N b : ℕ) (A φ D V : ℝ) (hb : 0 < b) (hbN : 2 * b < N) (hV : V ≠ 0) :
    (removeDc (toneRow N b A φ D)).map (· / V) = toneRow N b (A / V) φ 0 := by
  have hNR : (N : ℝ) ≠ 0 := by
    have : N ≠ 0 := by omega
    exact_mod_cast this
  have hsum : (toneRow N b A φ D).sum = N * D := by
    unfold toneRow
    rw [list_sum_map_range, sum_add_distrib, tone_sum N b A φ hb hbN]
    simp
  have hlen : (toneRow N b A φ D).length = N := by simp [toneRow]
  unfold removeDc
  rw [hsum, hlen, List.map_map]
  unfold toneRow
  rw [List.map_map]
  apply List.map_congr_left
  intro k _
  simp only [Function.comp]
  field_simp
  ring

/-- **C26 (coherent tone reading).** A coherent tone of amplitude `A` on any DC level, analysed with full scale `V`, any
cosine-sum window and its default side bin: the fundamental is found at its true bin, the signal power reads
`20·log10(A/V)` dBFS (so 0 dBFS at full scale), nothing else is left in band (the noise-and-distortion power is 0) and the
SNDR reads its numerical ceiling. -/
theorem C26_coherent_tone (lib : WinLib) (a : SpectrumArgs) (h1 : a.win ≠ "kaiser") (h2 : a.win ≠ "chebwin")
    (N b : ℕ) (A φ D V : ℝ) (hA : 0 < A) (hV : 0 < V) (hAV : 1 / 10 ^ 30 ≤ (A / V) ^ 2) (hb : defaultSideBin a.win < b)
    (hbN : 2 * (b + defaultSideBin a.win) < N) (hs : a.scale = .scalar V) (hsb : a.sideBin = some (defaultSideBin a.win))
    (hcoh : a.coherent = false) (hcut : a.cutoff = 0) (hass : a.assumed = none) (n : ℕ)
    (hn : rfftInbandBinCount (N : ℤ) a.osr = .ok n) (hbn : b + defaultSideBin a.win < n) (r : SpectrumResult)
    (h : computeSpectrum lib [toneRow N b A φ D] a = .ok r) :
    r.fundamentalBin = b ∧ r.sigPwr = 20 * Real.logb 10 (A / V) ∧
      noiseAndDistortion r.power n (defaultSideBin a.win) b = 0 ∧
      r.sndr = ((20 * Real.logb 10 (A / V) + 200 : ℝ) : EReal) := by
  set m := defaultSideBin a.win with hmdef
  have hNR : (N : ℝ) ≠ 0 := by
    have : N ≠ 0 := by omega
    exact_mod_cast this
  -- the prepared record
  have hprep : prepareFftInput [toneRow N b A φ D] a.scale = .ok [toneRow N b (A / V) φ 0] := by
    unfold prepareFftInput
    rw [hs]
    have ho : orient [toneRow N b A φ D] = [toneRow N b A φ D] := by simp [orient]
    simp only [ho, peakAmplitude, List.map_cons, List.map_nil]
    rw [if_pos hV.ne']
    congr 2
    exact prepare_toneRow N b A φ D V (by omega) (by omega) hV.ne'
  obtain ⟨d, n', hd, hn', _, hnl, hpl, hN0, _, hnn, hpow, hm⟩ := computeSpectrum_ok lib _ a r h
  have hdd : d = [toneRow N b (A / V) φ 0] := by rw [hprep] at hd; injection hd with h; exact h.symm
  subst hdd
  have hlen : (([toneRow N b (A / V) φ 0] : List (List ℝ)).headD []).length = N := by simp [toneRow]
  rw [hlen] at hn' hpow hm hpl
  have hnn' : n' = n := by rw [hn] at hn'; injection hn' with h; exact h.symm
  subst hnn'
  -- the spectrum
  have hw := C26_default_side_bin_covers_lobe lib a.win h1 h2 N (by omega) (by omega)
  set w := windowVector lib a.win N with hwdef
  have hp : r.power = (powerAverage [fun n => A / V * Real.cos (2 * Real.pi * (b * n / N) + φ) * w n] N).map
      (· * powerCorrection (windowGain w N) (windowEnbw w N)) := by
    rw [hpow]
    unfold applyCutoff rawSpectrum
    rw [if_neg (by rw [hcut]; exact lt_irrefl 0)]
    simp only [hcoh, Bool.false_eq_true, if_false]
    congr 1
    unfold powerAverage runsOf
    apply List.map_congr_left
    intro k _
    simp only [List.map_cons, List.map_nil, List.sum_cons, List.sum_nil, List.length_cons, List.length_nil]
    rw [dft_congr N _ (fun n => ((A / V * Real.cos (2 * Real.pi * (b * n / N) + φ) * w n : ℝ) : ℂ))]
    intro i hi
    rw [toneRow_getD N b (A / V) φ 0 i hi, add_zero]
  obtain ⟨hplen, hget, hlobe⟩ := tone_spectrum N b m (A / V) φ w hw hb hbN r.power hp
  have hw2 : 0 < ∑ n ∈ range N, w n ^ 2 := by
    apply lt_of_le_of_ne (sum_nonneg fun i _ => sq_nonneg _)
    intro h0
    apply hw.mean
    apply sum_eq_zero
    intro i hi
    have := (sum_eq_zero_iff_of_nonneg (fun i _ => sq_nonneg (w i))).mp h0.symm i hi
    exact pow_eq_zero_iff (two_ne_zero) |>.mp this
  have hNpos : (0 : ℝ) < N := by
    have : 0 < N := by omega
    exact_mod_cast this
  have hAVpos : 0 < A / V := div_pos hA hV
  -- the fundamental
  have hW0 : 0 < ‖dft N (fun n => (w n : ℂ)) 0‖ := lt_of_le_of_lt (norm_nonneg _) (hw.peak 1 (by
    intro hd
    have := Int.le_of_dvd one_pos hd
    omega))
  have hpb : 0 < r.power.getD b 0 := by
    rw [hget b (by omega), if_neg (by omega), sub_self]
    positivity
  have hpeak : ∀ k, k ≤ N / 2 → k ≠ b → r.power.getD k 0 < r.power.getD b 0 := by
    intro k hk hkb
    rw [hget k hk]
    split_ifs with hout
    · exact hpb
    · rw [hget b (by omega), if_neg (by omega), sub_self]
      apply div_lt_div_of_pos_right _ (mul_pos hNpos hw2)
      apply mul_lt_mul_of_pos_left _ (by positivity)
      apply pow_lt_pow_left₀ _ (norm_nonneg _) two_ne_zero
      apply hw.peak
      rintro ⟨c, hc⟩
      have b1 : -(N : ℤ) < (k : ℤ) - b := by omega
      have b2 : (k : ℤ) - b < N := by omega
      have hN' : (0 : ℤ) < N := by omega
      rw [hc] at b1 b2
      have : -1 < c := by nlinarith
      have : c < 1 := by nlinarith
      have hc0 : c = 0 := by omega
      rw [hc0] at hc
      omega
  have hfund : fundamentalBin r.power n' = b := by
    obtain ⟨f1, f2, f3, _⟩ := C27_fundamental_strongest r.power n' hnl (by omega)
    by_contra hne
    have h4 := hpeak (fundamentalBin r.power n') (by omega) hne
    have h5 := f3 b (by omega) (by omega)
    linarith
  have hloc : (locateFundamental r.power n').1 = b := hfund
  -- signal and residual power
  have hsig : signalPower r.power n' m b = (A / V) ^ 2 := by
    unfold signalPower
    rw [slice_sum, show min (min (b + m + 1) n') r.power.length = b + m + 1 by omega, hlobe]
  have hnad : noiseAndDistortion r.power n' m b = 0 := by
    rw [C28_noise_and_distortion_spec _ _ _ _ hnl]
    apply sum_eq_zero
    intro i hi
    unfold nadBins dcLobe lobe at hi
    simp only [mem_sdiff, mem_range, mem_Icc] at hi
    rw [hget i (by omega), if_pos (by omega)]
  obtain ⟨bins, spur, noise, _, _, _, hr⟩ := spectrumMetrics_ok _ _ _ _ _ _ _ hm
  have hsb' : sideBinOf lib a N n' r.power = m := by unfold sideBinOf; rw [hsb]
  rw [hsb'] at hr
  have hsq : 10 * Real.logb 10 ((A / V) ^ 2) = 20 * Real.logb 10 (A / V) := by
    rw [Real.logb_pow]; push_cast; ring
  refine ⟨?_, ?_, hnad, ?_⟩
  · rw [hr]; exact hloc
  · have e : r.sigPwr = sigPwrDbfs a (signalPower r.power n' m (locateFundamental r.power n').1) := by
      conv_lhs => rw [hr]
      rfl
    rw [e, hloc, hsig]
    unfold sigPwrDbfs
    rw [hass]
    simp only
    rw [max_eq_left hAV, hsq]
  · have e : r.sndr = dB (sigLinear a (signalPower r.power n' m (locateFundamental r.power n').1) /
        (noiseAndDistortion r.power n' m (locateFundamental r.power n').1 + 1 / 10 ^ 20)) := by
      conv_lhs => rw [hr]
      rfl
    rw [e, hloc, hsig, hnad]
    unfold sigLinear
    rw [hass]
    simp only
    rw [dB_pos (by positivity), zero_add, div_div_eq_mul_div, div_one,
      Real.logb_mul (by positivity) (by positivity), mul_add, hsq, Real.logb_pow, Real.logb_self_eq_one (by norm_num)]
    norm_num

/-! ### Concrete cases -/

example (lib : WinLib) : LobeWindow (windowVector lib "hann" 16) 16 1 :=
  C26_default_side_bin_covers_lobe lib "hann" (by decide) (by decide) 16 (by norm_num) (by decide)

/-- A full-scale 3-cycle cosine in 16 samples reads 0 dBFS with the Hann window. -/
example (lib : WinLib) (r : SpectrumResult)
    (h : computeSpectrum lib [toneRow 16 3 1 0 5] { scale := .scalar 1, win := "hann", sideBin := some 1 } = .ok r) :
    r.fundamentalBin = 3 ∧ r.sigPwr = 0 := by
  have hn : rfftInbandBinCount (16 : ℤ) (1 : ℝ) = .ok 9 := C25_osr_one 16 (by norm_num)
  obtain ⟨h1, h2, _⟩ := C26_coherent_tone lib { scale := .scalar 1, win := "hann", sideBin := some 1 } (by decide) (by decide)
    16 3 1 0 5 1 one_pos one_pos (by norm_num) (by decide) (by decide) rfl rfl rfl rfl rfl 9 hn (by decide) r h
  exact ⟨h1, by rw [h2]; simp⟩

end Verif
