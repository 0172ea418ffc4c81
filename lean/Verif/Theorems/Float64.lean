import Verif.Proofs.Float64
import Verif.Theorems.Sar
import Mathlib.Data.Rat.Floor
import Mathlib.Tactic.LinearCombination
import Mathlib.Tactic.NormNum.Prime

/-!
# C106: which decisions survive float64 rounding

The other theorems treat numbers as exact. Here every operation is rounded to a 53-bit significand, and the question is whether the integers the code derives from
floats – bins, codes, indices – are still the exact ones.
-/

namespace Verif

open Model Spec

variable {K : Type} [Field K] [LinearOrder K] [IsStrictOrderedRing K] [FloorRing K]

omit [FloorRing K] in
private theorem near2 {p q : K} (hp : |p - 1| ≤ 1 / 2 ^ 53) (hq : |q - 1| ≤ 1 / 2 ^ 53) : |p * q - 1| ≤ 3 / 2 ^ 53 :=
  (near_mul hp hq).trans (by norm_num)

omit [FloorRing K] in
private theorem near4 {p q : K} (hp : |p - 1| ≤ 3 / 2 ^ 53) (hq : |q - 1| ≤ 3 / 2 ^ 53) : |p * q - 1| ≤ 1 / 2 ^ 50 :=
  (near_mul hp hq).trans (by norm_num)

private theorem rint_of_near {k : ℤ} (hk : |k| < 2 ^ 49) {p : K} (hp : |p - 1| ≤ 1 / 2 ^ 50) : rint ((k : K) * p) = k := by
  apply rint_unique
  refine lt_of_le_of_lt (near_scaled hp) ?_
  have : |(k : K)| < 2 ^ 49 := by exact_mod_cast hk
  calc |(k : K)| * (1 / 2 ^ 50) < 2 ^ 49 * (1 / 2 ^ 50) := mul_lt_mul_of_pos_right this (by norm_num)
    _ = 1 / 2 := by norm_num

/-- **C106.** `freq_to_bin(bin_to_freq(k, fs, N), fs, N) = k` in float64 arithmetic too, for every sampling rate, record length and bin below `2^49`. -/
theorem C106_bin_round_trip (k : ℤ) (fs : K) (n : ℕ) (hk : |k| < 2 ^ 49) (hfs : fs ≠ 0) (hn : 0 < n) : freqToBin64 (binToFreq64 k fs n) fs n = k := by
  have hn' : (n : K) ≠ 0 := by positivity
  unfold freqToBin64 binToFreq64
  obtain ⟨p1, h1, e1⟩ := fl64_factor ((k : K) * fs)
  rw [e1]
  obtain ⟨p2, h2, e2⟩ := fl64_factor ((k : K) * fs * p1 / n)
  rw [e2]
  obtain ⟨p3, h3, e3⟩ := fl64_factor ((k : K) * fs * p1 / n * p2 * n)
  rw [e3]
  obtain ⟨p4, h4, e4⟩ := fl64_factor ((k : K) * fs * p1 / n * p2 * n * p3 / fs)
  rw [e4]
  have e : (k : K) * fs * p1 / n * p2 * n * p3 / fs * p4 = k * ((p1 * p2) * (p3 * p4)) := by field_simp
  rw [e]
  exact rint_of_near hk (near4 (near2 h1 h2) (near2 h3 h4))

/-- **C106.** `volts_to_lsb(lsb_to_volts(k))` is `k` up to two roundings: rounding it to the nearest integer gives `k`. -/
theorem C106_lsb_nearest (k : ℤ) (vref : K) (n : ℕ) (hk : |k| < 2 ^ 49) (hv : vref ≠ 0) : rint (voltsToLsb64 (lsbToVolts64 k vref n) vref n) = k := by
  unfold voltsToLsb64 lsbToVolts64
  obtain ⟨p0, h0, e0⟩ := fl64_factor (vref / 2 ^ n)
  have hp0 : p0 ≠ 0 := by
    rintro rfl
    norm_num at h0
  set lsb := fl64 (vref / 2 ^ n) with hl
  have hlsb : lsb ≠ 0 := by
    rw [e0]
    positivity
  obtain ⟨p1, h1, e1⟩ := fl64_factor ((k : K) * lsb)
  rw [e1]
  obtain ⟨p2, h2, e2⟩ := fl64_factor ((k : K) * lsb * p1 / lsb)
  rw [e2]
  have e : (k : K) * lsb * p1 / lsb * p2 = k * (p1 * p2) := by field_simp
  rw [e]
  exact rint_of_near hk ((near2 h1 h2).trans (by norm_num))

/-- **C106.** It is not `k` itself, so truncating it – `int(volts_to_lsb(…))` – can lose a code. With a 1.2 V reference and 8 bits, 7 LSB come back as the float after 7; with a
3.3 V reference and 4 bits the level that the quantizer of C106 assigns to code 3 comes back below 3. -/
theorem C106_lsb_round_trip_false :
    voltsToLsb64 (lsbToVolts64 7 (fl64 (12 / 10 : ℚ)) 8) (fl64 (12 / 10)) 8 = 7 + 1 / 2 ^ 50 ∧
      ⌊voltsToLsb64 (lsbToVolts64 3 (fl64 (33 / 10 : ℚ)) 4) (fl64 (33 / 10)) 4⌋ = 2 := by decide +kernel

/-- **C106.** Bin selection by `find_coherent_frequency`: the returned bin is eligible and in the window, its frequency leads back to it, and no eligible bin of the window is closer
by more than the rounding of the target. -/
theorem C106_coherent (fs fin : K) (n : ℕ) (odd : Bool) (r : ℤ) (f : K) (b : ℤ) (hr : 0 ≤ r) (hfs : fs ≠ 0) (hn : 0 < n) (h : findCoherent64 fs fin n odd r = .ok (f, b)) :
    Eligible n odd b ∧ (|b| < 2 ^ 49 → freqToBin64 f fs n = b) ∧
      ∃ c : ℤ, |(c : K) - fin / fs * n| ≤ 1 / 2 + |fin / fs * n| / 2 ^ 51 ∧ c - r ≤ b ∧ b ≤ c + r ∧
        ∀ b' : ℤ, Eligible n odd b' → c - r ≤ b' → b' ≤ c + r → |(b : K) - fin / fs * n| ≤ |(b' : K) - fin / fs * n| + (|fin / fs * n| + r + 1) / 2 ^ 50 := by
  unfold findCoherent64 at h
  simp only at h
  have ht : |fl64 (fl64 (fin / fs) * ((n : ℤ) : K)) - fin / fs * n| ≤ |fin / fs * n| * (3 / 2 ^ 53) := by
    obtain ⟨p1, h1, e1⟩ := fl64_factor (fin / fs)
    rw [e1]
    obtain ⟨p2, h2, e2⟩ := fl64_factor (fin / fs * p1 * ((n : ℤ) : K))
    rw [e2]
    have e : fin / fs * p1 * ((n : ℤ) : K) * p2 = fin / fs * n * (p1 * p2) := by push_cast; ring
    rw [e]
    exact near_scaled (near2 h1 h2)
  set t0 := fin / fs * (n : K) with ht0
  set t := fl64 (fl64 (fin / fs) * ((n : ℤ) : K)) with htd
  split at h
  · simp at h
  rename_i d best tl hsort
  simp only [Except.ok.injEq, Prod.mk.injEq] at h
  obtain ⟨rfl, rfl⟩ := h
  set cands := ((pyRange (-r) (r + 1)).map (fun i => rint t + i)).filter (coherentOk n odd) with hc
  have hmemc : ∀ z : ℤ, z ∈ cands ↔ rint t - r ≤ z ∧ z ≤ rint t + r ∧ Eligible n odd z := by
    intro z
    have h1 : z ∈ cands ↔ (|(z : K) - t|, z) ∈ coherentCandidates t (n : ℤ) odd r := by
      unfold coherentCandidates
      simp only [List.mem_map, Prod.mk.injEq]
      rw [← hc]
      constructor
      · intro hz
        exact ⟨z, hz, rfl, rfl⟩
      · rintro ⟨y, hy, -, rfl⟩
        exact hy
    rw [h1, mem_candidates]
    exact ⟨fun h => h.2, fun h => ⟨rfl, h⟩⟩
  have hperm := List.perm_insertionSort (fun a b : K × ℤ => a.1 ≤ b.1) (cands.map fun (b : ℤ) => (|fl64 ((b : K) - t)|, b))
  have hsorted := List.pairwise_insertionSort (fun a b : K × ℤ => a.1 ≤ b.1) (cands.map fun (b : ℤ) => (|fl64 ((b : K) - t)|, b))
  rw [hsort] at hperm hsorted
  have hhead : (d, best) ∈ cands.map fun (b : ℤ) => (|fl64 ((b : K) - t)|, b) := hperm.subset List.mem_cons_self
  obtain ⟨z, hz, hzz⟩ := List.mem_map.mp hhead
  simp only [Prod.mk.injEq] at hzz
  obtain ⟨rfl, rfl⟩ := hzz
  obtain ⟨w1, w2, hel⟩ := (hmemc z).mp hz
  have hcen := abs_sub_rint_le t
  refine ⟨hel, fun hb => ?_, rint t, ?_, w1, w2, ?_⟩
  · rw [Int.cast_natCast]
    exact C106_bin_round_trip z fs n hb hfs hn
  · have : |t0| * (3 / 2 ^ 53) ≤ |t0| / 2 ^ 51 := by
      have := abs_nonneg t0
      rw [mul_comm, div_mul_eq_mul_div, div_le_div_iff₀ (by norm_num) (by norm_num)]
      nlinarith
    calc |(rint t : K) - t0| = |(t - t0) - (t - rint t)| := by ring_nf
      _ ≤ |t - t0| + |t - rint t| := abs_sub _ _
      _ ≤ 1 / 2 + |t0| / 2 ^ 51 := by linarith
  · intro b' he' l1 l2
    have hb' : (|fl64 ((b' : K) - t)|, b') ∈ (|fl64 ((z : K) - t)|, z) :: tl := hperm.symm.subset (List.mem_map.mpr ⟨b', (hmemc b').mpr ⟨l1, l2, he'⟩, rfl⟩)
    have hle : |fl64 ((z : K) - t)| ≤ |fl64 ((b' : K) - t)| := by
      rcases List.mem_cons.mp hb' with h' | h'
      · simp only [Prod.mk.injEq] at h'
        exact h'.1.ge
      · exact (List.pairwise_cons.mp hsorted).1 _ h'
    obtain ⟨p, hp, ep⟩ := fl64_factor ((z : K) - t)
    obtain ⟨q, hq, eq⟩ := fl64_factor ((b' : K) - t)
    rw [ep, eq, abs_mul, abs_mul] at hle
    have hp' := abs_le.mp hp
    have hq' := abs_le.mp hq
    have hp1 : 1 - 1 / 2 ^ 53 ≤ |p| := by rw [abs_of_pos (by linarith [hp'.1, (by norm_num : (1 : K) / 2 ^ 53 < 1)])]; linarith [hp'.1]
    have hq1 : |q| ≤ 1 + 1 / 2 ^ 53 := by rw [abs_of_pos (by linarith [hq'.1, (by norm_num : (1 : K) / 2 ^ 53 < 1)])]; linarith [hq'.2]
    have hwin : ∀ y : ℤ, rint t - r ≤ y → y ≤ rint t + r → |(y : K) - t| ≤ r + 1 / 2 := by
      intro y y1 y2
      have y1' : (rint t : K) - r ≤ y := by exact_mod_cast y1
      have y2' : (y : K) ≤ rint t + r := by exact_mod_cast y2
      have := abs_le.mp hcen
      rw [abs_le]
      constructor <;> linarith
    have hz1 := hwin z w1 w2
    have hb1 := hwin b' l1 l2
    have m1 : |(z : K) - t| * (1 - 1 / 2 ^ 53) ≤ |(z : K) - t| * |p| := mul_le_mul_of_nonneg_left hp1 (abs_nonneg _)
    have m2 : |(b' : K) - t| * |q| ≤ |(b' : K) - t| * (1 + 1 / 2 ^ 53) := mul_le_mul_of_nonneg_left hq1 (abs_nonneg _)
    have m3 : |(z : K) - t| ≤ |(b' : K) - t| + (2 * r + 1) / 2 ^ 53 := by
      have a1 : |(z : K) - t| * (1 - 1 / 2 ^ 53) = |(z : K) - t| - |(z : K) - t| / 2 ^ 53 := by ring
      have a2 : |(b' : K) - t| * (1 + 1 / 2 ^ 53) = |(b' : K) - t| + |(b' : K) - t| / 2 ^ 53 := by ring
      have a3 : |(z : K) - t| / 2 ^ 53 ≤ (r + 1 / 2) / 2 ^ 53 := div_le_div_of_nonneg_right hz1 (by norm_num)
      have a4 : |(b' : K) - t| / 2 ^ 53 ≤ (r + 1 / 2) / 2 ^ 53 := div_le_div_of_nonneg_right hb1 (by norm_num)
      have a5 : (2 * (r : K) + 1) / 2 ^ 53 = (r + 1 / 2) / 2 ^ 53 + (r + 1 / 2) / 2 ^ 53 := by ring
      linarith
    have tri1 : |(z : K) - t0| ≤ |(z : K) - t| + |t - t0| := abs_sub_le _ _ _
    have tri2 : |(b' : K) - t| ≤ |(b' : K) - t0| + |t0 - t| := abs_sub_le _ _ _
    rw [abs_sub_comm t0 t] at tri2
    have hr' : (0 : K) ≤ r := by exact_mod_cast hr
    have fin1 : 2 * (|t0| * (3 / 2 ^ 53)) + (2 * r + 1) / 2 ^ 53 ≤ (|t0| + r + 1) / 2 ^ 50 := by
      rw [show 2 * (|t0| * (3 / 2 ^ 53)) + (2 * (r : K) + 1) / 2 ^ 53 = (6 * |t0| + 2 * r + 1) / 2 ^ 53 by ring, div_le_div_iff₀ (by norm_num) (by norm_num)]
      have := abs_nonneg t0
      nlinarith
    linarith

/-- **C106.** The choice may differ from the exact one when two bins are equally close up to rounding: at 1/200 of the sampling rate with 1000 points, the float nearest to `0.005` lies
above it, so that bin 7 is closer to the tone than bin 3; the code returns 3. -/
theorem C106_coherent_choice_false :
    findCoherent64 (1 : ℚ) (fl64 (5 / 1000)) 1000 true 3 = .ok (fl64 (3 / 1000), 3) ∧ findCoherentFrequency (1 : ℚ) (fl64 (5 / 1000)) 1000 true 3 = .ok (7 / 1000, 7) := by
  decide +kernel

/-- **C106.** Folding a frequency: the float64 result is an alias of the input up to rounding and exceeds the Nyquist frequency at most by rounding. -/
theorem C106_fold_bound (fin fs : K) (hfs : 0 < fs) :
    (∃ m : ℤ, abs (foldFrequency64 fin fs - |fin - fs * m|) ≤ (|fin| + fs) / 2 ^ 50) ∧ 0 ≤ foldFrequency64 fin fs ∧ foldFrequency64 fin fs ≤ fs / 2 + (|fin| + fs) / 2 ^ 49 := by
  unfold foldFrequency64
  obtain ⟨p1, h1, e1⟩ := fl64_factor (fin / fs)
  set m := rint (fl64 (fin / fs)) with hm
  have hq : |fin / fs - fl64 (fin / fs)| ≤ |fin / fs| * (1 / 2 ^ 53) := by
    rw [abs_sub_comm, e1]
    exact near_scaled h1
  have hmm := abs_sub_rint_le (fl64 (fin / fs))
  rw [← hm] at hmm
  have hdist : |fin - fs * m| ≤ fs / 2 + |fin| / 2 ^ 53 := by
    have e : fin - fs * m = fs * (fin / fs - m) := by field_simp
    rw [e, abs_mul, abs_of_pos hfs]
    have : |fin / fs - m| ≤ |fin / fs| * (1 / 2 ^ 53) + 1 / 2 := by
      calc |fin / fs - m| ≤ |fin / fs - fl64 (fin / fs)| + |fl64 (fin / fs) - m| := abs_sub_le _ _ _
        _ ≤ _ := by linarith
    have e2 : |fin / fs| = |fin| / fs := by rw [abs_div, abs_of_pos hfs]
    rw [e2] at this
    calc fs * |fin / fs - m| ≤ fs * (|fin| / fs * (1 / 2 ^ 53) + 1 / 2) := mul_le_mul_of_nonneg_left this hfs.le
      _ = fs / 2 + |fin| / 2 ^ 53 := by field_simp; ring
  have hf0 := abs_nonneg fin
  have hprod : |fs * m| ≤ |fin| + fs / 2 + |fin| / 2 ^ 53 := by
    have : |fs * m| ≤ |fin| + |fin - fs * m| := by
      calc |fs * m| = |fin - (fin - fs * m)| := by ring_nf
        _ ≤ _ := abs_sub _ _
    linarith
  have hfl := fl64_rel (fs * (m : K))
  have h2 : |(fin - fl64 (fs * m)) - (fin - fs * m)| ≤ (2 * |fin| + fs) / 2 ^ 53 := by
    have e : (fin - fl64 (fs * m)) - (fin - fs * m) = -(fl64 (fs * m) - fs * m) := by ring
    rw [e, abs_neg]
    refine hfl.trans (div_le_div_of_nonneg_right ?_ (by norm_num))
    have : |fin| / 2 ^ 53 ≤ |fin| := div_le_self hf0 (by norm_num)
    linarith
  have h3 := fl64_rel (fin - fl64 (fs * (m : K)))
  have h4 : |fin - fl64 (fs * m)| ≤ fs / 2 + |fin| / 2 ^ 53 + (2 * |fin| + fs) / 2 ^ 53 := by
    have : |fin - fl64 (fs * m)| ≤ |fin - fs * m| + |(fin - fl64 (fs * m)) - (fin - fs * m)| := by
      calc |fin - fl64 (fs * m)| = |(fin - fs * m) + ((fin - fl64 (fs * m)) - (fin - fs * m))| := by ring_nf
        _ ≤ _ := abs_add_le _ _
    linarith
  have h5 : |fl64 (fin - fl64 (fs * m)) - (fin - fs * m)| ≤ (|fin| + fs) / 2 ^ 50 := by
    have : |fl64 (fin - fl64 (fs * m)) - (fin - fs * m)| ≤ |fl64 (fin - fl64 (fs * m)) - (fin - fl64 (fs * m))| + |(fin - fl64 (fs * m)) - (fin - fs * m)| := abs_sub_le _ _ _
    have b1 : |fin - fl64 (fs * m)| ≤ 4 * (|fin| + fs) := by
      have a1 : |fin| / 2 ^ 53 ≤ |fin| := div_le_self hf0 (by norm_num)
      have a2 : (2 * |fin| + fs) / 2 ^ 53 ≤ 2 * |fin| + fs := div_le_self (by linarith) (by norm_num)
      linarith
    have b2 : |fin - fl64 (fs * m)| / 2 ^ 53 ≤ 4 * (|fin| + fs) / 2 ^ 53 := div_le_div_of_nonneg_right b1 (by norm_num)
    have b3 : 4 * (|fin| + fs) / 2 ^ 53 + (2 * |fin| + fs) / 2 ^ 53 ≤ (|fin| + fs) / 2 ^ 50 := by
      rw [← add_div, div_le_div_iff₀ (by norm_num) (by norm_num)]
      nlinarith
    linarith
  have h6 : abs (|fl64 (fin - fl64 (fs * m))| - |fin - fs * m|) ≤ (|fin| + fs) / 2 ^ 50 := (abs_abs_sub_abs_le _ _).trans h5
  refine ⟨⟨m, h6⟩, abs_nonneg _, ?_⟩
  have h7 := (abs_le.mp h6).2
  have h8 : (|fin| + fs) / 2 ^ 50 + |fin| / 2 ^ 53 ≤ (|fin| + fs) / 2 ^ 49 := by
    rw [div_add_div _ _ (by norm_num) (by norm_num), div_le_div_iff₀ (by norm_num) (by norm_num)]
    nlinarith
  linarith

/-- **C106.** The folded frequency can lie above the Nyquist frequency: 1.5 at a sampling rate of 0.6 folds to the float after 0.3. -/
theorem C106_fold_false : foldFrequency64 (3 / 2 : ℚ) (fl64 (6 / 10)) > fl64 (6 / 10) / 2 := by decide +kernel

/-- **C106.** The number of bins cleared by `cutoff_freq` is within one of the exact number, and never too small when the cut-off falls on a bin. -/
theorem C106_cutoff_within_one (cutoff fs : K) (n : ℕ) (hc : 0 ≤ cutoff) (hfs : 0 < fs) (hr : cutoff / fs * n < 2 ^ 49) :
    |cutoffBin64 cutoff fs n - ⌈cutoff / fs * n⌉| ≤ 1 ∧ ∀ k : ℤ, cutoff / fs * n = k → cutoffBin64 cutoff fs n = k ∨ cutoffBin64 cutoff fs n = k + 1 := by
  have hr0 : 0 ≤ cutoff / fs * (n : K) := by positivity
  have hd : |fl64 (fl64 (cutoff / fs) * (n : K)) - cutoff / fs * n| < 1 := by
    obtain ⟨p1, h1, e1⟩ := fl64_factor (cutoff / fs)
    rw [e1]
    obtain ⟨p2, h2, e2⟩ := fl64_factor (cutoff / fs * p1 * (n : K))
    rw [e2]
    have e : cutoff / fs * p1 * (n : K) * p2 = cutoff / fs * n * (p1 * p2) := by ring
    rw [e]
    refine lt_of_le_of_lt (near_scaled (near2 h1 h2)) ?_
    rw [abs_of_nonneg hr0]
    nlinarith
  unfold cutoffBin64
  set q := fl64 (fl64 (cutoff / fs) * (n : K))
  set x := cutoff / fs * (n : K)
  obtain ⟨d1, d2⟩ := abs_lt.mp hd
  have c1 := Int.le_ceil x
  have c2 := Int.ceil_lt_add_one x
  have c3 := Int.le_ceil q
  have c4 := Int.ceil_lt_add_one q
  constructor
  · have u1 : ⌈q⌉ ≤ ⌈x⌉ + 1 := by
      rw [Int.ceil_le]
      push_cast
      linarith
    have u2 : ⌈x⌉ ≤ ⌈q⌉ + 1 := by
      rw [Int.ceil_le]
      push_cast
      linarith
    rw [abs_le]
    omega
  · intro k hk
    have u1 : ⌈q⌉ ≤ k + 1 := by
      rw [Int.ceil_le]
      push_cast
      linarith
    have u2 : k ≤ ⌈q⌉ := by
      rw [Int.le_ceil_iff]
      linarith
    omega

/-- **C106.** One bin too many: a cut-off of 70 kHz at 1 MHz with 100 points lies on bin 7, so bins 0 … 6 are to be cleared; the code clears eight. -/
theorem C106_cutoff_false : cutoffBin64 (70000 : ℚ) 1000000 100 = 8 ∧ ⌈(70000 : ℚ) / 1000000 * 100⌉ = 7 := by decide +kernel

private theorem lit95 : fl64 (95 / 100 : K) = 8556839292003942 / 2 ^ 53 := by
  rw [fl64_eval (x := (95 / 100 : K)) (-1) 8556839292003942]
  · norm_num
  · rw [abs_of_pos (by norm_num)]; norm_num
  · rw [abs_of_pos (by norm_num)]; norm_num
  · rw [abs_lt]
    norm_num

private theorem lit05 : fl64 (5 / 100 : K) = 7205759403792794 / 2 ^ 57 := by
  rw [fl64_eval (x := (5 / 100 : K)) (-5) 7205759403792794]
  · norm_num
  · rw [abs_of_pos (by norm_num)]; norm_num
  · rw [abs_of_pos (by norm_num)]; norm_num
  · rw [abs_lt]
    norm_num

/-- The floor of a number within `1/40` of `a/20` that is not below an integer `a/20`. -/
private theorem floor_near (a : ℕ) (y : K) (h : |y - (a : K) / 20| ≤ 1 / 40) (hm : a % 20 = 0 → (a : K) / 20 ≤ y) : ⌊y⌋.toNat = a / 20 := by
  have hq : 20 * (a / 20) + a % 20 = a := Nat.div_add_mod a 20
  have hlt : a % 20 < 20 := Nat.mod_lt _ (by norm_num)
  set q := a / 20
  set r := a % 20
  have hc : (a : K) / 20 = q + (r : K) / 20 := by
    rw [← hq]
    push_cast
    ring
  rw [hc] at h hm
  have h' := abs_le.mp h
  have hr : (r : K) ≤ 19 := by exact_mod_cast Nat.lt_succ_iff.mp hlt
  have : ⌊y⌋ = (q : ℤ) := by
    rw [Int.floor_eq_iff]
    constructor
    · rcases Nat.eq_zero_or_pos r with h0 | h0
      · have := hm h0
        rw [h0] at this
        push_cast at this ⊢
        linarith
      · have : (1 : K) ≤ r := by exact_mod_cast h0
        push_cast
        linarith
    · push_cast
      linarith
  rw [this]
  simp

/-- **C106.** The trimmed-mean noise floor of method 3 uses the exact indices `⌊0.05 n⌋`, `⌊0.95 n⌋`, although `0.05` and `0.95` are not representable and `0.95 n` is evaluated
below its exact value: the rounding of the product restores it. -/
theorem C106_trimmed_indices (n : ℕ) (hn : n < 2 ^ 46) : trimmedIndices64 K n = trimmedIndices n := by
  have hnK : (n : K) < 2 ^ 46 := by exact_mod_cast hn
  have hn0 : (0 : K) ≤ n := Nat.cast_nonneg n
  unfold trimmedIndices64 trimmedIndices
  have lo : ⌊fl64 ((n : K) * fl64 (5 / 100))⌋.toNat = n * 5 / 100 := by
    rw [show n * 5 / 100 = n / 20 by omega]
    rw [lit05]
    apply floor_near
    · have h1 := fl64_rel ((n : K) * (7205759403792794 / 2 ^ 57))
      rw [abs_of_nonneg (mul_nonneg hn0 (by norm_num) : (0 : K) ≤ _)] at h1
      have h2 := abs_le.mp h1
      rw [abs_le]
      constructor <;> norm_num at h2 ⊢ <;> linarith [h2.1, h2.2]
    · intro h0
      obtain ⟨q, hq⟩ := Nat.dvd_of_mod_eq_zero h0
      have e : (n : K) / 20 = ((q : ℤ) : K) := by
        rw [hq]
        push_cast
        field_simp
      rw [e, ← fl64_exact (isF64_int (K := K) (q : ℤ) (by rw [abs_of_nonneg (by positivity)]; norm_num at hn ⊢; omega))]
      apply fl64_mono
      rw [← e]
      have : (n : K) * (1 / 20) ≤ n * (7205759403792794 / 2 ^ 57) := mul_le_mul_of_nonneg_left (by norm_num) hn0
      linarith
  have hi : ⌊fl64 ((n : K) * fl64 (95 / 100))⌋.toNat = n * 95 / 100 := by
    rw [show n * 95 / 100 = (19 * n) / 20 by omega]
    rw [lit95]
    apply floor_near
    · have h1 := fl64_rel ((n : K) * (8556839292003942 / 2 ^ 53))
      rw [abs_of_nonneg (mul_nonneg hn0 (by norm_num) : (0 : K) ≤ _)] at h1
      have h2 := abs_le.mp h1
      rw [abs_le]
      push_cast
      constructor <;> norm_num at h2 ⊢ <;> linarith [h2.1, h2.2]
    · intro h0
      have h20 : n % 20 = 0 := by omega
      obtain ⟨q, hq⟩ := Nat.dvd_of_mod_eq_zero h20
      rcases Nat.eq_zero_or_pos q with hq0 | hq0
      · rw [hq, hq0]
        norm_num [fl64_zero]
      have e : ((19 * n : ℕ) : K) / 20 = ((19 * q : ℤ) : K) := by
        rw [hq]
        push_cast
        field_simp
      rw [e]
      apply le_of_eq
      -- the binade of `M = 19 q`, which is not a power of two
      have hM0 : (0 : K) < ((19 * q : ℤ) : K) := by
        push_cast
        positivity
      obtain ⟨b1, b2⟩ := binade hM0.ne'
      rw [abs_of_pos hM0] at b1 b2
      set k := Int.log 2 ((19 * q : ℤ) : K) with hk
      have hk0 : 0 ≤ k := by
        by_contra hc
        have : (2 : K) ^ (k + 1) ≤ 2 ^ (0 : ℤ) := zpow_le_zpow_right₀ (by norm_num) (by omega)
        have h3 : (1 : K) ≤ ((19 * q : ℤ) : K) := by
          push_cast
          have : (1 : K) ≤ q := by exact_mod_cast hq0
          linarith
        rw [zpow_zero] at this
        linarith
      have hk51 : k ≤ 51 := by
        by_contra hc
        have h3 : (2 : K) ^ (52 : ℤ) ≤ 2 ^ k := zpow_le_zpow_right₀ (by norm_num) (by omega)
        have h4 : ((19 * q : ℤ) : K) < 2 ^ 46 := by
          rw [← e]
          push_cast
          linarith
        have h5 : (2 : K) ^ 46 ≤ 2 ^ (52 : ℤ) := by norm_num
        linarith
      obtain ⟨j, hj⟩ := Int.eq_ofNat_of_zero_le hk0
      have hpow : (2 : K) ^ k = ((2 ^ j : ℤ) : K) := by
        rw [hj]
        push_cast
        simp
      have hne : ((2 ^ j : ℤ)) ≠ 19 * q := by
        intro hc
        have : (19 : ℤ) ∣ 2 ^ j := ⟨q, hc⟩
        have h19 : (19 : ℕ) ∣ 2 ^ j := by exact_mod_cast this
        have := (Nat.Prime.dvd_of_dvd_pow (by norm_num : Nat.Prime 19) h19)
        norm_num at this
      have hgt : (2 : K) ^ k + 1 ≤ ((19 * q : ℤ) : K) := by
        rw [hpow] at b1 ⊢
        have : (2 ^ j : ℤ) ≤ 19 * q := by exact_mod_cast b1
        have h3 : (2 ^ j : ℤ) + 1 ≤ 19 * q := by omega
        exact_mod_cast h3
      have hqn : (n : K) = 20 * q := by
        rw [hq]
        push_cast
        ring
      have hx : (n : K) * (8556839292003942 / 2 ^ 53) = ((19 * q : ℤ) : K) - q * (8 / 2 ^ 53) := by
        rw [hqn]
        push_cast
        ring
      have hq1 : (0 : K) < q := by exact_mod_cast hq0
      have h19 : ((19 * q : ℤ) : K) = 19 * q := by push_cast; ring
      have hsmall : (q : K) * (8 / 2 ^ 53) < 1 := by
        have : (q : K) < 2 ^ 46 := by linarith
        nlinarith
      have hdbl : (2 : K) ^ (k + 1) = 2 * 2 ^ k := by
        rw [zpow_add₀ (by norm_num)]
        ring
      obtain ⟨i, hi⟩ := Int.eq_ofNat_of_zero_le (show 0 ≤ 52 - k by omega)
      have hu : (2 : K) ^ (k - 52) * 2 ^ i = 1 := by
        rw [← zpow_natCast (2 : K) i, ← zpow_add₀ (by norm_num), show k - 52 + (i : ℤ) = 0 by omega, zpow_zero]
      have hu2 : (2 : K) ^ k = 2 ^ (k - 52) * 2 ^ 52 := by
        have : (2 : K) ^ k = 2 ^ (k - 52 + 52) := by rw [sub_add_cancel]
        rw [this, zpow_add₀ (by norm_num)]
        norm_num
      have hup : (0 : K) < 2 ^ (k - 52) := by positivity
      rw [fl64_eval (x := (n : K) * (8556839292003942 / 2 ^ 53)) k (19 * q * 2 ^ i)]
      · push_cast
        linear_combination (-(19 * (q : K))) * hu
      · rw [abs_of_nonneg (mul_nonneg hn0 (by norm_num)), hx]
        linarith
      · rw [abs_of_nonneg (mul_nonneg hn0 (by norm_num)), hx]
        have : 0 ≤ (q : K) * (8 / 2 ^ 53) := by positivity
        linarith
      · have e2 : (n : K) * (8556839292003942 / 2 ^ 53) / 2 ^ (k - 52) - ((19 * q * 2 ^ i : ℤ) : K) = -(4 * q / 2 ^ k) := by
          rw [hx, h19, hu2]
          push_cast
          have : (2 : K) ^ i = 1 / 2 ^ (k - 52) := by
            field_simp
            linarith
          rw [this]
          field_simp
          ring
        rw [e2, abs_neg, abs_of_pos (by positivity), div_lt_iff₀ (by positivity)]
        linarith
  simp only [lo, hi]

/-- **C106.** The band edge given by an oversampling ratio is found in spite of its rounding: if `osr` is `n/(2k)` up to a few units in the last place, the in-band part of the
one-sided spectrum has the `k + 1` bins `0 … k`. Without `np.isclose` the rounded edge could fall below `k`. -/
theorem C106_inband_count (n k : ℕ) (osr : K) (hn : 0 < n) (hk : 0 < k) (hk49 : k < 2 ^ 40) (hosr : |osr - n / (2 * k)| ≤ n / (2 * k) * (1 / 2 ^ 50)) :
    inbandCount64 n osr = min ((k : ℤ) + 1) ((n : ℤ) / 2 + 1) := by
  have hnK : (0 : K) < n := by exact_mod_cast hn
  have hkK : (0 : K) < k := by exact_mod_cast hk
  have hk40 : (k : K) < 2 ^ 40 := by exact_mod_cast hk49
  have hb : (0 : K) < n / (2 * k) := by positivity
  -- `osr = n/(2k) p`
  obtain ⟨p, hp, ep⟩ : ∃ p : K, |p - 1| ≤ 1 / 2 ^ 50 ∧ osr = n / (2 * k) * p := by
    refine ⟨osr / (n / (2 * k)), ?_, by field_simp⟩
    rw [div_sub_one hb.ne', abs_div, abs_of_pos hb, div_le_iff₀ hb]
    linarith
  have hp0 : 0 < p := by
    have h1 := (abs_le.mp hp).1
    have : (1 : K) / 2 ^ 50 < 1 := by norm_num
    linarith
  obtain ⟨p1, h1, e1⟩ := fl64_factor (2 * osr)
  have hp1 : 0 < p1 := by
    have h2 := (abs_le.mp h1).1
    have : (1 : K) / 2 ^ 53 < 1 := by norm_num
    linarith
  obtain ⟨p2, h2, e2⟩ := fl64_factor ((n : K) / fl64 (2 * osr))
  have hpp : |p * p1 - 1| ≤ 2 / 2 ^ 50 := (near_mul hp h1).trans (by norm_num)
  have hinv := near_inv hpp (by norm_num)
  have hall : |(p * p1)⁻¹ * p2 - 1| ≤ 5 / 2 ^ 50 := (near_mul hinv h2).trans (by norm_num)
  have hedge : fl64 ((n : K) / fl64 (2 * osr)) = k * ((p * p1)⁻¹ * p2) := by
    rw [e2, e1, ep]
    field_simp
  have hd : |fl64 ((n : K) / fl64 (2 * osr)) - k| ≤ k * (5 / 2 ^ 50) := by
    rw [hedge]
    have := near_scaled (x := (k : K)) hall
    rwa [abs_of_pos hkK] at this
  unfold inbandCount64
  simp only
  set edge := fl64 ((n : K) / fl64 (2 * osr)) with hed
  have hr : rint edge = (k : ℤ) := by
    apply rint_unique
    push_cast
    refine lt_of_le_of_lt hd ?_
    nlinarith
  have hclose : isclose64 edge (rint edge : K) = true := by
    unfold isclose64
    rw [decide_eq_true_iff, hr]
    push_cast
    rw [abs_of_pos hkK]
    obtain ⟨a, ha, ea⟩ := fl64_factor (edge - k)
    obtain ⟨b, hb', eb⟩ := fl64_factor (1 / 10 ^ 12 : K)
    obtain ⟨c, hc, ec⟩ := fl64_factor (fl64 (1 / 10 ^ 12 : K) * k)
    have hl : fl64 (1 / 10 ^ 12 : K) ≥ 1 / 10 ^ 12 * (1 - 1 / 2 ^ 53) := by
      rw [eb]
      exact mul_le_mul_of_nonneg_left (by linarith [(abs_le.mp hb').1]) (by norm_num)
    have hl2 : fl64 (fl64 (1 / 10 ^ 12 : K) * k) ≥ 1 / 10 ^ 13 * k := by
      rw [ec]
      have h3 : 1 / 10 ^ 12 * (1 - 1 / 2 ^ 53) * (k : K) ≤ fl64 (1 / 10 ^ 12 : K) * k := mul_le_mul_of_nonneg_right hl hkK.le
      have h4 : (1 / 2 : K) ≤ c := by
        have := (abs_le.mp hc).1
        have : (1 : K) / 2 ^ 53 < 1 / 2 := by norm_num
        linarith
      have h5 : fl64 (1 / 10 ^ 12 : K) * k * (1 / 2) ≤ fl64 (1 / 10 ^ 12 : K) * k * c := mul_le_mul_of_nonneg_left h4 (le_trans (by positivity) h3)
      refine le_trans ?_ h5
      nlinarith
    have hl3 : fl64 (fl64 (1 / 10 ^ 12 : K) + fl64 (fl64 (1 / 10 ^ 12 : K) * k)) ≥ fl64 (1 / 10 ^ 13 * (k : K)) :=
      fl64_mono (by
        have : (0 : K) ≤ fl64 (1 / 10 ^ 12 : K) := fl64_nonneg (by norm_num)
        linarith)
    refine le_trans ?_ hl3
    have hl4 : fl64 (1 / 10 ^ 13 * (k : K)) ≥ 1 / 10 ^ 13 * (k : K) * (1 / 2) := by
      obtain ⟨g, hg, eg⟩ := fl64_factor (1 / 10 ^ 13 * (k : K))
      rw [eg]
      apply mul_le_mul_of_nonneg_left _ (by positivity)
      have := (abs_le.mp hg).1
      have : (1 : K) / 2 ^ 53 < 1 / 2 := by norm_num
      linarith
    refine le_trans ?_ hl4
    rw [ea, abs_mul]
    have h6 : |a| ≤ 2 := by
      have := abs_le.mp ha
      rw [abs_le]
      constructor <;> linarith [this.1, this.2, (by norm_num : (1 : K) / 2 ^ 53 < 1)]
    calc |edge - k| * |a| ≤ (k * (5 / 2 ^ 50)) * 2 := mul_le_mul hd h6 (abs_nonneg _) (by positivity)
      _ ≤ 1 / 10 ^ 13 * k * (1 / 2) := by nlinarith
  rw [if_pos hclose, hr]
  push_cast
  rw [Int.floor_natCast]
  apply max_eq_right
  apply le_min <;> omega

/-- **C106.** In particular for `osr` computed as the float `n/(2k)`. -/
theorem C106_inband_count_float (n k : ℕ) (hn : 0 < n) (hk : 0 < k) (hk49 : k < 2 ^ 40) : inbandCount64 n (fl64 ((n : K) / (2 * k))) = min ((k : ℤ) + 1) ((n : ℤ) / 2 + 1) := by
  apply C106_inband_count n k _ hn hk hk49
  have hb : (0 : K) < n / (2 * k) := by
    have : (0 : K) < n := by exact_mod_cast hn
    have : (0 : K) < k := by exact_mod_cast hk
    positivity
  have := fl64_rel ((n : K) / (2 * k))
  rw [abs_of_pos hb] at this
  refine this.trans ?_
  rw [div_eq_mul_one_div]
  exact mul_le_mul_of_nonneg_left (by norm_num) hb.le

/-- Why the tolerance is there: for 100 points and 11 bins the quotient by the rounded ratio falls below 11, but bin 11 is counted. -/
example : ⌊fl64 ((100 : ℚ) / fl64 (2 * fl64 (100 / (2 * 11))))⌋ = 10 ∧ inbandCount64 100 (fl64 (100 / (2 * 11) : ℚ)) = 12 := by decide +kernel

/-- The float64 code before clipping is the exact one up to a relative `2^-50`. -/
private theorem quant_ratio (x vmin vmax : K) (n : ℕ) (hv : vmin < vmax) :
    |fl64 (fl64 (x - vmin) / fl64 (fl64 (vmax - vmin) / 2 ^ n)) - (x - vmin) / ((vmax - vmin) / 2 ^ n)| ≤ |(x - vmin) / ((vmax - vmin) / 2 ^ n)| * (1 / 2 ^ 50) := by
  have hR : 0 < vmax - vmin := sub_pos.mpr hv
  have hsc : fl64 (fl64 (vmax - vmin) / 2 ^ n) = fl64 (vmax - vmin) / 2 ^ n := by
    have := fl64_scale (fl64 (vmax - vmin)) (-(n : ℤ))
    rw [zpow_neg, zpow_natCast, fl64_fl64] at this
    rw [div_eq_mul_inv]
    exact this
  rw [hsc]
  obtain ⟨p1, h1, e1⟩ := fl64_factor (x - vmin)
  obtain ⟨p2, h2, e2⟩ := fl64_factor (vmax - vmin)
  have hp2 : 0 < p2 := by
    have := (abs_le.mp h2).1
    have : (1 : K) / 2 ^ 53 < 1 := by norm_num
    linarith
  obtain ⟨p3, h3, e3⟩ := fl64_factor (fl64 (x - vmin) / (fl64 (vmax - vmin) / 2 ^ n))
  have e : fl64 (fl64 (x - vmin) / (fl64 (vmax - vmin) / 2 ^ n)) = (x - vmin) / ((vmax - vmin) / 2 ^ n) * ((p1 * p3) * p2⁻¹) := by
    rw [e3, e1, e2]
    field_simp
  rw [e]
  apply near_scaled
  exact (near_mul (near2 h1 h3) (near_inv h2 (by norm_num))).trans (by norm_num)

/-- **C106.** The code of `apply_quantization_noise` in float64 arithmetic: at most one code away from the exact code, and equal to it unless the input is within a relative
`2^-50` of a transition level. -/
theorem C106_quantizer_within_one (x vmin vmax : K) (n : ℕ) (hn : n ≤ 48) (hv : vmin < vmax) :
    |quantCode64 x n vmin vmax - clip ⌊(x - vmin) / ((vmax - vmin) / 2 ^ n)⌋ 0 (2 ^ n - 1)| ≤ 1 ∧
      ((∀ m : ℤ, |(x - vmin) / ((vmax - vmin) / 2 ^ n)| * (1 / 2 ^ 50) < |(x - vmin) / ((vmax - vmin) / 2 ^ n) - m|) →
        quantCode64 x n vmin vmax = clip ⌊(x - vmin) / ((vmax - vmin) / 2 ^ n)⌋ 0 (2 ^ n - 1)) := by
  have hq := quant_ratio x vmin vmax n hv
  unfold quantCode64
  set q := fl64 (fl64 (x - vmin) / fl64 (fl64 (vmax - vmin) / 2 ^ n))
  set r := (x - vmin) / ((vmax - vmin) / 2 ^ n)
  have hq' := abs_le.mp hq
  have f1 := Int.floor_le q
  have f2 := Int.lt_floor_add_one q
  have g1 := Int.floor_le r
  have g2 := Int.lt_floor_add_one r
  constructor
  · have hpow : (2 : ℤ) ^ n ≤ 2 ^ 48 := pow_le_pow_right₀ (by norm_num) hn
    have hpos : (0 : ℤ) < 2 ^ n := by positivity
    rcases lt_or_ge |r| (2 ^ 49) with hr | hr
    · have hs : |r| * (1 / 2 ^ 50) ≤ 1 / 2 := by
        calc |r| * (1 / 2 ^ 50) ≤ 2 ^ 49 * (1 / 2 ^ 50) := mul_le_mul_of_nonneg_right hr.le (by norm_num)
          _ = 1 / 2 := by norm_num
      have u1 : ⌊q⌋ ≤ ⌊r⌋ + 1 := by
        have : (⌊q⌋ : K) < ⌊r⌋ + 2 := by linarith
        have : ⌊q⌋ < ⌊r⌋ + 2 := by exact_mod_cast this
        omega
      have u2 : ⌊r⌋ ≤ ⌊q⌋ + 1 := by
        have : (⌊r⌋ : K) < ⌊q⌋ + 2 := by linarith
        have : ⌊r⌋ < ⌊q⌋ + 2 := by exact_mod_cast this
        omega
      unfold clip
      generalize (2 : ℤ) ^ n = N at *
      rw [abs_le]
      omega
    · rcases le_total 0 r with h0 | h0
      · rw [abs_of_nonneg h0] at hr hq'
        have h48 : (2 : K) ^ 48 ≤ q := by
          have : r * (1 / 2 ^ 50) ≤ r * (1 / 2) := mul_le_mul_of_nonneg_left (by norm_num) h0
          have e : (2 : K) ^ 49 = 2 * 2 ^ 48 := by norm_num
          linarith
        have a1 : (2 : ℤ) ^ 48 ≤ ⌊q⌋ := by
          rw [Int.le_floor]
          exact_mod_cast h48
        have a2 : (2 : ℤ) ^ 48 ≤ ⌊r⌋ := by
          rw [Int.le_floor]
          have : (2 : K) ^ 48 ≤ 2 ^ 49 := by norm_num
          push_cast
          linarith
        unfold clip
        generalize (2 : ℤ) ^ n = N at *
        rw [abs_le]
        omega
      · rw [abs_of_nonpos h0] at hr hq'
        have hneg : q < 0 := by
          have : -r * (1 / 2 ^ 50) ≤ -r * (1 / 2) := mul_le_mul_of_nonneg_left (by norm_num) (by linarith)
          have e : (0 : K) < 2 ^ 49 := by norm_num
          linarith
        have a1 : ⌊q⌋ < 0 := Int.floor_lt.mpr (by exact_mod_cast hneg)
        have a2 : ⌊r⌋ < 0 := Int.floor_lt.mpr (by
          have : (0 : K) < 2 ^ 49 := by norm_num
          push_cast
          linarith)
        unfold clip
        generalize (2 : ℤ) ^ n = N at *
        rw [abs_le]
        omega
  · intro hfar
    have : ⌊q⌋ = ⌊r⌋ := by
      rcases lt_trichotomy ⌊q⌋ ⌊r⌋ with h | h | h
      · exfalso
        have h1 : (⌊q⌋ : K) + 1 ≤ ⌊r⌋ := by exact_mod_cast h
        have h2 := hfar ⌊r⌋
        rw [abs_of_nonneg (by linarith : (0 : K) ≤ r - ⌊r⌋)] at h2
        linarith
      · exact h
      · exfalso
        have h1 : (⌊r⌋ : K) + 1 ≤ ⌊q⌋ := by exact_mod_cast h
        have h2 := hfar (⌊r⌋ + 1)
        push_cast at h2
        rw [abs_of_nonpos (by linarith : r - ((⌊r⌋ : K) + 1) ≤ 0)] at h2
        linarith
    rw [this]

/-- **C106.** A larger input never gets a smaller code or output. -/
theorem C106_quantizer_monotone (x y vmin vmax : K) (n : ℕ) (hv : vmin < vmax) (h : x ≤ y) :
    quantCode64 x n vmin vmax ≤ quantCode64 y n vmin vmax ∧ quantize64 x n vmin vmax ≤ quantize64 y n vmin vmax := by
  have hlsb : 0 < fl64 (fl64 (vmax - vmin) / 2 ^ n) := fl64_pos (div_pos (fl64_pos (sub_pos.mpr hv)) (by positivity))
  have hc : quantCode64 x n vmin vmax ≤ quantCode64 y n vmin vmax := by
    unfold quantCode64 clip
    apply min_le_min_right
    apply max_le_max_right
    apply Int.floor_mono
    apply fl64_mono
    apply div_le_div_of_nonneg_right _ hlsb.le
    apply fl64_mono
    linarith
  refine ⟨hc, ?_⟩
  unfold quantize64 quantLevel64
  apply fl64_mono
  apply add_le_add_left
  apply fl64_mono
  apply mul_le_mul_of_nonneg_right _ hlsb.le
  exact_mod_cast hc

omit [LinearOrder K] [IsStrictOrderedRing K] [FloorRing K] in
private theorem isF64_scale [CharZero K] {x : K} (h : IsF64 x) (e : ℤ) : IsF64 (x * 2 ^ e) := by
  obtain ⟨m, d, hm, rfl⟩ := h
  exact ⟨m, d + e, hm, by rw [zpow_add₀ (by norm_num)]; ring⟩

omit [IsStrictOrderedRing K] [FloorRing K] [LinearOrder K] in
private theorem isF64_pow (e : ℤ) : IsF64 ((2 : K) ^ e) := ⟨1, e, by norm_num, by simp⟩

/-- **C106.** For the range `(0, 2^e)` – in particular the default `(0, 1)` – the quantizer is exact: float64 arithmetic gives the output of the exact model for every float input. -/
theorem C106_quantizer_exact (x : K) (n : ℕ) (e : ℤ) (hn : n ≤ 53) (hx : IsF64 x) : quantize64 x n 0 (2 ^ e) = quantize x n 0 (2 ^ e) := by
  have hlsb : fl64 (fl64 ((2 : K) ^ e - 0) / 2 ^ n) = (2 ^ e - 0) / 2 ^ n := by
    have h1 : fl64 ((2 : K) ^ e - 0) = 2 ^ e - 0 := by
      rw [sub_zero]
      exact fl64_exact (isF64_pow e)
    rw [h1]
    apply fl64_exact
    rw [sub_zero]
    have := isF64_scale (isF64_pow (K := K) e) (-(n : ℤ))
    rw [zpow_neg, zpow_natCast, ← div_eq_mul_inv] at this
    exact this
  have hlsb2 : ((2 : K) ^ e - 0) / 2 ^ n = 2 ^ (e - n) := by
    rw [sub_zero, zpow_sub₀ (by norm_num), zpow_natCast]
  have hcode : quantCode64 x n 0 ((2 : K) ^ e) = clip ⌊(x - 0) / (((2 : K) ^ e - 0) / 2 ^ n)⌋ 0 (2 ^ n - 1) := by
    unfold quantCode64
    rw [hlsb, sub_zero x, fl64_exact hx, hlsb2]
    congr 2
    apply fl64_exact
    rw [div_eq_mul_inv, ← zpow_neg]
    exact isF64_scale hx _
  unfold quantize64 quantLevel64
  rw [hcode, hlsb]
  unfold quantize
  simp only
  set c := clip ⌊(x - 0) / (((2 : K) ^ e - 0) / 2 ^ n)⌋ 0 (2 ^ n - 1)
  have hc : |c| ≤ 2 ^ 53 := by
    have hpow : (2 : ℤ) ^ n ≤ 2 ^ 53 := pow_le_pow_right₀ (by norm_num) hn
    have hpos : (0 : ℤ) < 2 ^ n := by positivity
    have h1 : 0 ≤ c ∧ c ≤ 2 ^ n - 1 := by
      unfold c clip
      constructor
      · exact le_min (le_max_right _ _) (by omega)
      · exact min_le_right _ _
    rw [abs_of_nonneg h1.1]
    omega
  have hl : IsF64 ((c : K) * ((2 ^ e - 0) / 2 ^ n)) := by
    rw [hlsb2]
    exact ⟨c, e - n, hc, rfl⟩
  rw [fl64_exact hl, add_zero, fl64_exact hl]

/-- **C106.** For other ranges the quantizer is not idempotent (C53) in float64 arithmetic: with the range (0, 3.3) and 4 bits, 0.7 gets the level of code 3, and quantizing this
level gives the level of code 2. -/
theorem C106_quantizer_idempotent_false :
    quantCode64 (fl64 (7 / 10 : ℚ)) 4 0 (fl64 (33 / 10)) = 3 ∧ quantCode64 (quantize64 (fl64 (7 / 10 : ℚ)) 4 0 (fl64 (33 / 10))) 4 0 (fl64 (33 / 10)) = 2 ∧
      quantize64 (quantize64 (fl64 (7 / 10 : ℚ)) 4 0 (fl64 (33 / 10))) 4 0 (fl64 (33 / 10)) < quantize64 (fl64 (7 / 10 : ℚ)) 4 0 (fl64 (33 / 10)) := by
  decide +kernel

/-- **C106.** SAR conversion: with weights that are multiples of a power of two and total at most `2^53` units, the bit trials are exact; all rounding is in the normalised input, whose
relative error is at most `2^-50`. -/
theorem C106_sar_trials (vin vmin vmax : K) (ws : List K) (e : ℤ) (hv : vmin < vmax) (hm : ∀ w ∈ ws, ∃ m : ℤ, w = (m : K) * 2 ^ e) (h0 : ∀ w ∈ ws, 0 ≤ w) (hs : ws.sum ≤ 2 ^ 53 * 2 ^ e) :
    ∃ x : K, sarConvertIdeal x ws [0, 1] = .ok (sarConvert64 vin ws vmin vmax) ∧
      |x - (vin - vmin) / (vmax - vmin)| ≤ |(vin - vmin) / (vmax - vmin)| * (1 / 2 ^ 50) := by
  refine ⟨vinNorm64 vin vmin vmax, ?_, ?_⟩
  · rw [convertIdeal_eq _ _ _ _ (by norm_num)]
    unfold sarConvert64
    rw [sarLoop64_exact _ 0 ws e ⟨0, by simp⟩ le_rfl hm h0 (by linarith), sub_zero, sub_zero, div_one]
  · have := quant_ratio vin vmin vmax 0 hv
    simp only [pow_zero, div_one, fl64_fl64] at this
    exact this

/-- The terms of `codes @ weights`. -/
private theorem bit_terms (e : ℤ) : ∀ (cs : List Bool) (ws : List K), (∀ w ∈ ws, ∃ m : ℤ, w = (m : K) * 2 ^ e) → (∀ w ∈ ws, 0 ≤ w) →
    (∀ x ∈ List.zipWith (fun b w => bitVal b * w) cs ws, ∃ m : ℤ, x = (m : K) * 2 ^ e) ∧ ((List.zipWith (fun b w => bitVal b * w) cs ws).map fun x => |x|).sum ≤ ws.sum ∧
      (List.zipWith (fun b w => bitVal b * w) cs ws).sum = weighted cs ws := by
  intro cs
  induction cs with
  | nil =>
    intro ws _ h0
    refine ⟨by simp, ?_, by cases ws <;> simp [weighted]⟩
    simpa using List.sum_nonneg h0
  | cons b cs ih =>
    intro ws hm h0
    cases ws with
    | nil => exact ⟨by simp, by simp, by simp [weighted]⟩
    | cons w ws =>
      obtain ⟨i1, i2, i3⟩ := ih ws (fun x hx => hm x (List.mem_cons_of_mem _ hx)) (fun x hx => h0 x (List.mem_cons_of_mem _ hx))
      have hw := h0 w List.mem_cons_self
      obtain ⟨m, hmw⟩ := hm w List.mem_cons_self
      simp only [List.zipWith_cons_cons, List.mem_cons, List.map_cons, List.sum_cons]
      refine ⟨?_, ?_, ?_⟩
      · rintro x (rfl | hx)
        · cases b
          · exact ⟨0, by simp [bitVal]⟩
          · exact ⟨m, by simp [bitVal, hmw]⟩
        · exact i1 x hx
      · have : |bitVal b * w| ≤ w := by
          cases b
          · simp [bitVal, hw]
          · simp [bitVal, abs_of_nonneg hw]
        linarith
      · rw [i3]
        cases b <;> simp [weighted, bitVal]

/-- The ideal weights are multiples of `2^-n`. -/
private theorem ideal_dyadic (n : ℕ) : (∀ w ∈ (pow2List n : List K).map (· / 2 ^ n), ∃ m : ℤ, w = (m : K) * 2 ^ (-(n : ℤ))) ∧ (∀ w ∈ (pow2List n : List K).map (· / 2 ^ n), 0 ≤ w) ∧
    (n ≤ 53 → ((pow2List n : List K).map (· / 2 ^ n)).sum ≤ 2 ^ 53 * 2 ^ (-(n : ℤ))) := by
  refine ⟨?_, ?_, ?_⟩
  · intro w hw
    obtain ⟨v, hv, rfl⟩ := List.mem_map.mp hw
    rw [← pow2List_eq] at hv
    obtain ⟨i, hi, rfl⟩ := List.mem_map.mp hv
    refine ⟨2 ^ (n - 1 - i), ?_⟩
    push_cast
    rw [zpow_neg, zpow_natCast, ← div_eq_mul_inv]
  · intro w hw
    obtain ⟨v, hv, rfl⟩ := List.mem_map.mp hw
    have := pow2List_pos n v hv
    positivity
  · intro hn53
    have : ((pow2List n : List K).map (· / 2 ^ n)).sum = (pow2List n : List K).sum / 2 ^ n := by
      suffices h : ∀ l : List K, (l.map (· / (2 : K) ^ n)).sum = l.sum / 2 ^ n from h _
      intro l
      induction l with
      | nil => simp
      | cons a t ih => rw [List.map_cons, List.sum_cons, ih, List.sum_cons, add_div]
    rw [this, pow2List_sum, zpow_neg, zpow_natCast, ← div_eq_mul_inv]
    apply div_le_div_of_nonneg_right _ (by positivity)
    have : (2 : K) ^ n ≤ 2 ^ 53 := pow_le_pow_right₀ (by norm_num) hn53
    linarith

private theorem sar_ideal_bits (n : ℕ) (hn : n ≠ 0) (hn53 : n ≤ 53) (vin vmin vmax : K) :
    sarConvert64 vin ((pow2List n).map (· / 2 ^ n)) vmin vmax = bitsMSB n (idealCode n (vinNorm64 vin vmin vmax)) := by
  obtain ⟨hm, h0, hs⟩ := ideal_dyadic (K := K) n
  have h10 := C10_sar_is_floor_quantizer n hn (vinNorm64 vin vmin vmax) (0 : K) 1 (by norm_num)
  rw [ideal_none n hn] at h10
  simp only [bind, Except.bind] at h10
  rw [convertIdeal_eq _ _ _ _ (by norm_num)] at h10
  simp only [sub_zero, div_one] at h10
  unfold sarConvert64
  rw [sarLoop64_exact _ 0 _ (-(n : ℤ)) ⟨0, by simp⟩ le_rfl hm h0 (by linarith [hs hn53])]
  exact Except.ok.inj h10

/-- **C106.** With ideal binary weights of up to 53 bits: the bits of the float64 conversion are the binary expansion of the floor code of an input that differs from the exact normalised
input by a relative `2^-50`. -/
theorem C106_sar_ideal (n : ℕ) (hn : n ≠ 0) (hn53 : n ≤ 53) (vin vmin vmax : K) (hv : vmin < vmax) :
    ∃ ws, sarIdealWeights n none = .ok ws ∧ ∃ x : K, sarConvert64 vin ws vmin vmax = bitsMSB n (idealCode n x) ∧
      |x - (vin - vmin) / (vmax - vmin)| ≤ |(vin - vmin) / (vmax - vmin)| * (1 / 2 ^ 50) := by
  refine ⟨_, ideal_none n hn, vinNorm64 vin vmin vmax, sar_ideal_bits n hn hn53 vin vmin vmax, ?_⟩
  have := quant_ratio vin vmin vmax 0 hv
  simp only [pow_zero, div_one, fl64_fl64] at this
  exact this

/-- **C106.** The SAR model and the plain quantizer agree in float64 arithmetic bit for bit (C16), for every input and every range, in spite of their different order of operations: the
bits are the binary expansion of the quantizer's code, and every way of adding up `codes @ weights` gives the quantizer's output. -/
theorem C106_sar_quantizer_agree (n : ℕ) (hn : n ≠ 0) (hn53 : n ≤ 53) (vin vmin vmax : K) :
    ∃ ws, sarIdealWeights n none = .ok ws ∧ sarConvert64 vin ws vmin vmax = bitsMSB n (quantCode64 vin n vmin vmax).toNat ∧
      ∀ y, SarReconstruct64 (sarConvert64 vin ws vmin vmax) ws vmin vmax y → y = quantize64 vin n vmin vmax := by
  have hscale : ∀ z : K, fl64 (z / 2 ^ n) = fl64 z / 2 ^ n := by
    intro z
    have := fl64_scale z (-(n : ℤ))
    rw [zpow_neg, zpow_natCast] at this
    rw [div_eq_mul_inv, div_eq_mul_inv]
    exact this
  have hscale' : ∀ z : K, fl64 (z * 2 ^ n) = fl64 z * 2 ^ n := by
    intro z
    have := fl64_scale z (n : ℤ)
    rwa [zpow_natCast] at this
  have hlsb : fl64 (fl64 (vmax - vmin) / 2 ^ n) = fl64 (vmax - vmin) / 2 ^ n := by rw [hscale, fl64_fl64]
  have h2 : (2 : K) ^ n ≠ 0 := by positivity
  have hpos : (0 : ℤ) < 2 ^ n := by positivity
  have hcode : idealCode n (vinNorm64 vin vmin vmax) = (quantCode64 vin n vmin vmax).toNat := by
    unfold idealCode quantCode64 vinNorm64 clip
    rw [hlsb, ← hscale', show fl64 (vin - vmin) / fl64 (vmax - vmin) * 2 ^ n = fl64 (vin - vmin) / (fl64 (vmax - vmin) / 2 ^ n) by rw [div_div_eq_mul_div, div_mul_eq_mul_div]]
    omega
  have hbits := sar_ideal_bits n hn hn53 vin vmin vmax
  refine ⟨_, ideal_none n hn, ?_, ?_⟩
  · rw [hbits, hcode]
  · rintro y ⟨s, hsum, rfl⟩
    obtain ⟨hm, h0, hs⟩ := ideal_dyadic (K := K) n
    obtain ⟨t1, t2, t3⟩ := bit_terms (-(n : ℤ)) (sarConvert64 vin ((pow2List n).map (· / 2 ^ n)) vmin vmax) _ hm h0
    have hex := flSum_exact _ hsum t1 (t2.trans (hs hn53))
    rw [t3, hbits, weighted_map_div, weighted_bits_pow2 n _ (idealCode_lt n _)] at hex
    rw [hex, hcode]
    have hq0 : 0 ≤ quantCode64 vin n vmin vmax := by
      unfold quantCode64 clip
      exact le_min (le_max_right _ _) (by omega)
    have hc : (((quantCode64 vin n vmin vmax).toNat : ℕ) : K) = ((quantCode64 vin n vmin vmax : ℤ) : K) := by
      conv_rhs => rw [← Int.toNat_of_nonneg hq0]
      push_cast
      rfl
    rw [hc]
    unfold quantize64 quantLevel64
    rw [hlsb, div_mul_eq_mul_div, mul_div_assoc]

/-- **C106.** For the range `(0, 2^d)` – in particular the default `(0, 1)` – the float64 conversion of a float input is the exact conversion, for every such weight vector. -/
theorem C106_sar_exact (vin : K) (d : ℤ) (ws : List K) (e : ℤ) (hx : IsF64 vin) (hm : ∀ w ∈ ws, ∃ m : ℤ, w = (m : K) * 2 ^ e) (h0 : ∀ w ∈ ws, 0 ≤ w) (hs : ws.sum ≤ 2 ^ 53 * 2 ^ e) :
    sarConvertIdeal vin ws [0, 2 ^ d] = .ok (sarConvert64 vin ws 0 (2 ^ d)) := by
  rw [convertIdeal_eq _ _ _ _ (by positivity)]
  unfold sarConvert64 vinNorm64
  rw [sarLoop64_exact _ 0 ws e ⟨0, by simp⟩ le_rfl hm h0 (by linarith), sub_zero, sub_zero, fl64_exact hx, fl64_exact (isF64_pow d)]
  have : IsF64 (vin / 2 ^ d) := by
    rw [div_eq_mul_inv, ← zpow_neg]
    exact isF64_scale hx _
  rw [fl64_exact this]

/-- **C106.** Reconstruction `codes @ weights`: whatever the order and grouping in which the terms are added, the result for such weights and the range `(0, 2^d)` is the exact one. -/
theorem C106_sar_reconstruct (codes : List Bool) (ws : List K) (d e : ℤ) (y : K) (hl : codes.length = ws.length) (hm : ∀ w ∈ ws, ∃ m : ℤ, w = (m : K) * 2 ^ e) (h0 : ∀ w ∈ ws, 0 ≤ w) (hs : ws.sum ≤ 2 ^ 53 * 2 ^ e)
    (hy : SarReconstruct64 codes ws 0 (2 ^ d) y) : sarReconstruct codes ws [0, 2 ^ d] = .ok y := by
  obtain ⟨s, hsum, rfl⟩ := hy
  have he : (0 : K) < 2 ^ e := by positivity
  obtain ⟨t1, t2, t3⟩ := bit_terms e codes ws hm h0
  have hex := flSum_exact e hsum t1 (t2.trans hs)
  rw [t3] at hex
  rw [reconstruct_eq codes ws 0 (2 ^ d) (by positivity) hl, hex]
  -- the sum is a float
  have hF : IsF64 (weighted codes ws) := by
    have hmul : ∀ l : List K, (∀ x ∈ l, ∃ m : ℤ, x = (m : K) * 2 ^ e) → ∃ m : ℤ, l.sum = (m : K) * 2 ^ e := by
      intro l hl
      induction l with
      | nil => exact ⟨0, by simp⟩
      | cons a t ih =>
        obtain ⟨m, hm⟩ := hl a List.mem_cons_self
        obtain ⟨k, hk⟩ := ih fun x hx => hl x (List.mem_cons_of_mem _ hx)
        exact ⟨m + k, by rw [List.sum_cons, hm, hk]; push_cast; ring⟩
    obtain ⟨m, hmm⟩ := hmul _ t1
    rw [t3] at hmm
    refine ⟨m, e, ?_, hmm⟩
    have b1 := weighted_nonneg codes ws h0
    have b2 := (weighted_le_sum codes ws h0).trans hs
    rw [hmm] at b1 b2
    have b3 : (m : K) ≤ 2 ^ 53 := le_of_mul_le_mul_right b2 he
    have b4 : (0 : K) ≤ m := by
      by_contra hc
      push Not at hc
      exact absurd b1 (not_le.mpr (mul_neg_of_neg_of_pos hc he))
    rw [abs_of_nonneg (by exact_mod_cast b4)]
    exact_mod_cast b3
  have hp : IsF64 (weighted codes ws * 2 ^ d) := isF64_scale hF d
  rw [sub_zero, fl64_exact (isF64_pow d), fl64_exact hp, add_zero, fl64_exact hp]

/-- **C106.** The rails of `analyze_overflow` (C44) in float64 arithmetic: for positive weights that are multiples of a power of two (integers, binary fractions) a sample counts as
overflowing low exactly if all remaining bits are 0 and as overflowing high exactly if they are all 1. -/
theorem C106_overflow_exact (bits : List Bool) (ws : List K) (e : ℤ) (d : K) (hl : bits.length = ws.length) (hne : ws ≠ []) (hm : ∀ w ∈ ws, ∃ m : ℤ, w = (m : K) * 2 ^ e) (h0 : ∀ w ∈ ws, 0 < w)
    (hs : ws.sum ≤ 2 ^ 53 * 2 ^ e) (hd : OverflowResidue64 bits ws d) : (d ≤ 0 ↔ ∀ b ∈ bits, b = false) ∧ (d ≥ 1 ↔ ∀ b ∈ bits, b = true) := by
  obtain ⟨s, t, h1, h2, rfl⟩ := hd
  have he : (0 : K) < 2 ^ e := by positivity
  obtain ⟨t1, t2, t3⟩ := bit_terms e bits ws hm fun w hw => (h0 w hw).le
  have es := flSum_exact e h1 t1 (t2.trans hs)
  rw [t3] at es
  have habs : (ws.map fun x => |x|) = ws := by
    conv_rhs => rw [← List.map_id ws]
    exact List.map_congr_left fun w hw => abs_of_pos (h0 w hw)
  have et := flSum_exact e h2 hm (by rw [habs]; exact hs)
  rw [es, et]
  have hstep : ∀ w ∈ ws, (2 : K) ^ e ≤ w := by
    intro w hw
    obtain ⟨m, rfl⟩ := hm w hw
    have : (0 : K) < m := by
      by_contra hc
      push Not at hc
      exact absurd (h0 _ hw) (not_lt.mpr (mul_nonpos_of_nonpos_of_nonneg hc he.le))
    have h3 : (1 : K) ≤ m := by
      have : 0 < m := by exact_mod_cast this
      exact_mod_cast this
    nlinarith
  have hpos : 0 < ws.sum := by
    cases ws with
    | nil => exact absurd rfl hne
    | cons w ws =>
      rw [List.sum_cons]
      have := List.sum_nonneg fun y hy => (h0 y (List.mem_cons_of_mem _ hy)).le
      linarith [h0 w List.mem_cons_self]
  -- exact dichotomies
  have key : ∀ (bs : List Bool) (us : List K), bs.length = us.length → (∀ w ∈ us, (2 : K) ^ e ≤ w) →
      ((∀ b ∈ bs, b = false) → weighted bs us = 0) ∧ ((∀ b ∈ bs, b = true) → weighted bs us = us.sum) ∧
        (¬ (∀ b ∈ bs, b = false) → (2 : K) ^ e ≤ weighted bs us) ∧ (¬ (∀ b ∈ bs, b = true) → weighted bs us ≤ us.sum - 2 ^ e) := by
    intro bs
    induction bs with
    | nil =>
      intro us hl _
      cases us with
      | nil => simp [weighted]
      | cons _ _ => simp at hl
    | cons b bs ih =>
      intro us hl hu
      cases us with
      | nil => simp at hl
      | cons u us =>
        have hu' : ∀ w ∈ us, (2 : K) ^ e ≤ w := fun w hw => hu w (List.mem_cons_of_mem _ hw)
        have hu1 := hu u List.mem_cons_self
        have n0 : ∀ w ∈ us, 0 ≤ w := fun w hw => he.le.trans (hu' w hw)
        obtain ⟨i1, i2, i3, i4⟩ := ih us (by simpa using hl) hu'
        have w0 := weighted_nonneg bs us n0
        have w1 := weighted_le_sum bs us n0
        simp only [List.forall_mem_cons, weighted, List.sum_cons]
        cases b
        · simp only [Bool.false_eq_true, if_false, true_and, false_and, not_false_eq_true, zero_add, true_implies, false_implies]
          refine ⟨i1, i3, ?_⟩
          linarith
        · simp only [Bool.true_eq_false, if_true, true_and, false_and, not_false_eq_true, true_implies, false_implies]
          refine ⟨fun h => by rw [i2 h], by linarith, fun h => ?_⟩
          linarith [i4 h]
  obtain ⟨k1, k2, k3, k4⟩ := key bits ws hl hstep
  constructor
  · constructor
    · intro h
      by_contra hc
      have := k3 hc
      exact absurd h (not_le.mpr (fl64_pos (div_pos (by linarith) hpos)))
    · intro h
      rw [k1 h, zero_div, fl64_zero]
  · constructor
    · intro h
      by_contra hc
      have hlt := k4 hc
      have hq : weighted bits ws / ws.sum ≤ 1 - 1 / 2 ^ 53 := by
        rw [div_le_iff₀ hpos]
        have : ws.sum / 2 ^ 53 ≤ 2 ^ e := by
          rw [div_le_iff₀ (by norm_num)]
          linarith
        calc weighted bits ws ≤ ws.sum - 2 ^ e := hlt
          _ ≤ ws.sum - ws.sum / 2 ^ 53 := by linarith
          _ = (1 - 1 / 2 ^ 53) * ws.sum := by ring
      have h5 := fl64_mono hq
      have h6 : fl64 (1 - 1 / 2 ^ 53 : K) = 1 - 1 / 2 ^ 53 := by
        apply fl64_exact
        refine ⟨2 ^ 53 - 1, -53, by norm_num, ?_⟩
        norm_num
      rw [h6] at h5
      have : (0 : K) < 1 / 2 ^ 53 := by norm_num
      linarith
    · intro h
      rw [k2 h, div_self hpos.ne']
      have : fl64 (1 : K) = 1 := by
        have := fl64_exact (isF64_int (K := K) 1 (by norm_num))
        simpa using this
      rw [this]

/-- **C106.** With other weights the high rail can be missed, because `codes @ weights` and `np.sum(weights)` may add the same numbers in different orders: for the weights 0.1, 0.2,
0.3 the sample 111 has residue 0.9999999999999998 if the product is summed from the right and the weights from the left. -/
theorem C106_overflow_false : ∃ d : ℚ, OverflowResidue64 [true, true, true] [fl64 (1 / 10), fl64 (2 / 10), fl64 (3 / 10)] d ∧ d = 1 - 1 / 2 ^ 52 := by
  refine ⟨_, ⟨_, _, (FlSum.single _).add ((FlSum.single _).add (FlSum.single _)), ((FlSum.single _).add (FlSum.single _)).add (FlSum.single _), rfl⟩, ?_⟩
  decide +kernel

/-- Examples: 3 of 8 bins round trip, a 10-bit quantizer code, a conversion with redundant dyadic weights. -/
example : freqToBin64 (binToFreq64 3 (fl64 (1 / 10 : ℚ)) 7) (fl64 (1 / 10)) 7 = 3 := C106_bin_round_trip 3 _ 7 (by norm_num) (by decide +kernel) (by norm_num)
example : trimmedIndices64 ℚ 100 = (4, 95) := by rw [C106_trimmed_indices 100 (by norm_num)]; decide +kernel
example : findCoherent64 (fl64 (1 / 10) : ℚ) (fl64 (3 / 100)) 64 true 5 = .ok (fl64 (fl64 (19 * fl64 (1 / 10)) / 64), 19) := by decide +kernel
example : quantCode64 (fl64 (3 / 10) : ℚ) 10 0 (2 ^ (0 : ℤ)) = 307 := by decide +kernel
example : sarConvert64 (fl64 (7 / 10) : ℚ) [1 / 2, 1 / 4, 1 / 8, 1 / 8, 1 / 16] 0 (2 ^ (0 : ℤ)) = [true, false, true, false, true] := by decide +kernel
example : OverflowResidue64 [true, false] [2, 1] (fl64 (2 / 3) : ℚ) :=
  ⟨2, 3, by
    have h := (FlSum.single (1 * 2 : ℚ)).add (FlSum.single (0 * 1 : ℚ))
    have e : fl64 (1 * 2 + 0 * 1 : ℚ) = 2 := by decide +kernel
    rw [e] at h
    exact h, by
    have h := (FlSum.single (2 : ℚ)).add (FlSum.single (1 : ℚ))
    have e : fl64 (2 + 1 : ℚ) = 3 := by decide +kernel
    rw [e] at h
    exact h, rfl⟩
/-- The two quantizers for the range (0, 3.3), 4 bits, 0.7 V: code 3 both ways. -/
example : sarConvert64 (fl64 (7 / 10) : ℚ) [1 / 2, 1 / 4, 1 / 8, 1 / 16] 0 (fl64 (33 / 10)) = [false, false, true, true] ∧ quantCode64 (fl64 (7 / 10) : ℚ) 4 0 (fl64 (33 / 10)) = 3 := by decide +kernel
example : SarReconstruct64 [true, false, true] [1 / 2, 1 / 4, 1 / 8] 0 (2 ^ (0 : ℤ)) (5 / 8 : ℚ) :=
  ⟨5 / 8, by
    have h := (FlSum.single (1 * (1 / 2) : ℚ)).add ((FlSum.single (0 * (1 / 4) : ℚ)).add (FlSum.single (1 * (1 / 8) : ℚ)))
    have e : fl64 (1 * (1 / 2) + fl64 (0 * (1 / 4) + 1 * (1 / 8)) : ℚ) = 5 / 8 := by decide +kernel
    rw [e] at h
    exact h, by decide +kernel⟩

end Verif
