import Verif.Model.SpectrumBins

/-!
# C25: in-band bin count
-/

namespace Verif

open Model

variable {K : Type} [Field K] [LinearOrder K] [IsStrictOrderedRing K] [FloorRing K]

/-- The band edge after snapping to an integer. -/
private def snapped (e : K) : K := if isclose12 e (rint e : K) then (rint e : K) else e

private theorem count_eq (n : ℤ) (osr : K) (hn : 0 < n) (ho : 0 < osr) :
    rfftInbandBinCount n osr = .ok (max 1 (min (⌊snapped ((n : K) / (2 * osr))⌋ + 1) (n / 2 + 1))).toNat := by
  unfold rfftInbandBinCount
  rw [if_neg (by omega), if_neg (not_le.mpr ho)]
  rfl

private theorem snap_lower (e : K) : ⌊e⌋ ≤ ⌊snapped e⌋ := by
  unfold snapped
  split_ifs
  · rw [Int.floor_intCast]
    rcases rint_eq_floor_or e with h | h <;> omega
  · exact le_refl _

/-- Anything the snapped edge reaches is within the tolerance of the true edge. -/
private theorem snap_upper (e : K) (z : ℤ) (hz : z ≤ ⌊snapped e⌋) (hz0 : 0 ≤ z) (he : 0 ≤ e) :
    (z : K) ≤ e + (1 / 10 ^ 12 + 1 / 10 ^ 12 * ⌊snapped e⌋) := by
  have hz' : (z : K) ≤ (⌊snapped e⌋ : K) := by exact_mod_cast hz
  have h0 : (0 : K) ≤ (⌊snapped e⌋ : K) := le_trans (by exact_mod_cast hz0) hz'
  by_cases hc : isclose12 e (rint e : K) = true
  · have hs : snapped e = (rint e : K) := by unfold snapped; rw [if_pos hc]
    have hf : ⌊snapped e⌋ = rint e := by rw [hs, Int.floor_intCast]
    unfold isclose12 at hc
    rw [decide_eq_true_eq] at hc
    rw [hf] at hz' h0 ⊢
    rw [abs_of_nonneg h0] at hc
    have := neg_abs_le (e - (rint e : K))
    linarith
  · have hs : snapped e = e := by unfold snapped; rw [if_neg hc]
    rw [hs] at hz' h0 ⊢
    have := Int.floor_le e
    have : (0 : K) ≤ 1 / 10 ^ 12 + 1 / 10 ^ 12 * (⌊e⌋ : K) := by positivity
    linarith

private theorem snap_mono {e e' : K} (h : e ≤ e') : ⌊snapped e⌋ ≤ ⌊snapped e'⌋ := by
  by_cases hc : isclose12 e (rint e : K) = true
  · have hs : snapped e = (rint e : K) := by unfold snapped; rw [if_pos hc]
    rw [hs, Int.floor_intCast]
    by_cases hz : (rint e : K) ≤ e'
    · exact le_trans (Int.le_floor.mpr hz) (snap_lower e')
    · rw [not_le] at hz
      have h1 : rint e ≤ rint e' := rint_mono h
      have h2 : rint e' ≤ rint e := by
        have := rint_mono hz.le
        rwa [rint_intCast] at this
      have heq : rint e' = rint e := le_antisymm h2 h1
      have hc' : isclose12 e' (rint e' : K) = true := by
        unfold isclose12 at hc ⊢
        rw [decide_eq_true_eq] at hc ⊢
        rw [heq]
        refine le_trans ?_ hc
        rw [abs_sub_comm, abs_sub_comm e, abs_of_nonneg (by linarith), abs_of_nonneg (by linarith)]
        linarith
      have hs' : snapped e' = (rint e' : K) := by unfold snapped; rw [if_pos hc']
      rw [hs', Int.floor_intCast]
      exact h1
  · have hs : snapped e = e := by unfold snapped; rw [if_neg hc]
    rw [hs]
    exact le_trans (Int.floor_le_floor h) (snap_lower e')

/-- **C25 (range).** The count succeeds exactly for positive `n_fft` and `osr` and lies in `1 .. n_fft // 2 + 1`. -/
theorem C25_count_range (n : ℤ) (osr : K) (hn : 0 < n) (ho : 0 < osr) :
    ∃ c : ℕ, rfftInbandBinCount n osr = .ok c ∧ 1 ≤ c ∧ (c : ℤ) ≤ n / 2 + 1 := by
  refine ⟨_, count_eq n osr hn ho, ?_, ?_⟩ <;> omega

/-- **C25 (errors).** Non-positive arguments raise `ValueError`, nothing else fails. -/
theorem C25_error_iff (n : ℤ) (osr : K) (e : PyErr) :
    rfftInbandBinCount n osr = .error e ↔ (n ≤ 0 ∨ osr ≤ 0) ∧ e = .valueError := by
  by_cases hn : n ≤ 0
  · unfold rfftInbandBinCount; rw [if_pos hn]; simp [hn, @eq_comm PyErr]
  · by_cases ho : osr ≤ 0
    · unfold rfftInbandBinCount; rw [if_neg hn, if_pos ho]; simp [ho, @eq_comm PyErr]
    · rw [count_eq n osr (by omega) (not_le.mp ho)]; simp [hn, ho]

/-- **C25 (OSR = 1).** Without oversampling every rFFT bin is in band. -/
theorem C25_osr_one (n : ℤ) (hn : 0 < n) : rfftInbandBinCount n (1 : K) = .ok (n / 2 + 1).toNat := by
  rw [count_eq n 1 hn one_pos]
  have h1 : n / 2 ≤ ⌊(n : K) / (2 * 1)⌋ := by
    rw [Int.le_floor, mul_one, le_div_iff₀ (by norm_num)]
    have : n / 2 * 2 ≤ n := by omega
    exact_mod_cast this
  have h2 := snap_lower ((n : K) / (2 * 1))
  congr 2
  omega

/-- **C25 (monotone).** A larger OSR never gives more bins. -/
theorem C25_antitone (n : ℤ) (osr osr' : K) (ho : 0 < osr) (h : osr ≤ osr') (c c' : ℕ)
    (hc : rfftInbandBinCount n osr = .ok c) (hc' : rfftInbandBinCount n osr' = .ok c') : c' ≤ c := by
  by_cases hn : n ≤ 0
  · unfold rfftInbandBinCount at hc; rw [if_pos hn] at hc; simp at hc
  have hn' : 0 < n := by omega
  rw [count_eq n osr hn' ho] at hc
  rw [count_eq n osr' hn' (lt_of_lt_of_le ho h)] at hc'
  injection hc with hc
  injection hc' with hc'
  have hnK : (0 : K) ≤ n := by exact_mod_cast hn'.le
  have hle : (n : K) / (2 * osr') ≤ (n : K) / (2 * osr) := by
    apply div_le_div_of_nonneg_left hnK (by linarith) (by linarith)
  have := snap_mono hle
  omega

/-- **C25 (content).** The counted bins are the one-sided bins up to the band edge: every bin `k ≤ n/2` with
`k ≤ n/(2·osr)` (i.e. `k·fs/n ≤ fs/(2·osr)`) is counted, and every counted bin is within the `1e-12` tolerance of it. -/
theorem C25_counts_band (n : ℤ) (osr : K) (hn : 0 < n) (ho : 0 < osr) (c : ℕ)
    (hc : rfftInbandBinCount n osr = .ok c) (k : ℕ) :
    ((k : ℤ) ≤ n / 2 → (k : K) ≤ n / (2 * osr) → k < c) ∧
    (k < c → (k : ℤ) ≤ n / 2 ∧
      (k : K) ≤ n / (2 * osr) + (1 / 10 ^ 12 + 1 / 10 ^ 12 * (n / (2 * osr) + 1))) := by
  rw [count_eq n osr hn ho] at hc
  injection hc with hc
  set e : K := (n : K) / (2 * osr) with he
  have hnK : (0 : K) < n := by exact_mod_cast hn
  have he0 : 0 ≤ e := by rw [he]; positivity
  constructor
  · intro h1 h2
    have h3 : (k : ℤ) ≤ ⌊e⌋ := by rw [Int.le_floor]; exact_mod_cast h2
    have := snap_lower e
    omega
  · intro hk
    have hk2 : (k : ℤ) ≤ n / 2 := by omega
    refine ⟨hk2, ?_⟩
    rcases Nat.eq_zero_or_pos k with rfl | hpos
    · simp only [Nat.cast_zero]; positivity
    · have h3 : (k : ℤ) ≤ ⌊snapped e⌋ := by omega
      have h4 := snap_upper e k h3 (by omega) he0
      have h5 : (⌊snapped e⌋ : K) ≤ e + 1 := by
        by_cases hcl : isclose12 e (rint e : K) = true
        · have hs : snapped e = (rint e : K) := by unfold snapped; rw [if_pos hcl]
          rw [hs, Int.floor_intCast]
          have := abs_sub_rint_le e
          have := neg_abs_le (e - (rint e : K))
          linarith
        · have hs : snapped e = e := by unfold snapped; rw [if_neg hcl]
          rw [hs]
          linarith [Int.floor_le e]
      have h6 : (1 : K) / 10 ^ 12 * (⌊snapped e⌋ : K) ≤ 1 / 10 ^ 12 * (e + 1) :=
        mul_le_mul_of_nonneg_left h5 (by positivity)
      have h7 : (((k : ℤ) : K)) = (k : K) := Int.cast_natCast k
      rw [h7] at h4
      linarith

/-! ### Concrete cases -/

example : rfftInbandBinCount 1024 (4 : ℚ) = .ok 129 := by decide +kernel
example : rfftInbandBinCount 9 (1 : ℚ) = .ok 5 := by decide +kernel
example : rfftInbandBinCount 1000 (3 : ℚ) = .ok 167 := by decide +kernel
example : rfftInbandBinCount 1000 (0 : ℚ) = .error .valueError := by decide +kernel

end Verif
