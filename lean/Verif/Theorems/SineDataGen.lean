import Verif.Model.SineDataGen
import Verif.Theorems.MatlabFind
import Mathlib.Tactic.Linarith
import Mathlib.Tactic.Ring
import Mathlib.Tactic.FieldSimp

/-! # What the sine data files of the MATLAB library hold and what they are called

Property C166. -/

namespace Verif

open Model

namespace Spec

/-- The ideal `n`-bit truncation of `v`. -/
noncomputable def truncated (n : ℕ) (v : ℝ) : ℝ := (⌊v * 2 ^ n⌋ : ℝ) / 2 ^ n

end Spec

open Spec

private theorem two_step_sum (n1 n2 : ℕ) (h : n1 ≤ n2) (v : ℝ) : (twoStepCodes n1 n2 v).1 = truncated n1 v ∧ (twoStepCodes n1 n2 v).2 = truncated n2 v - truncated n1 v := by
  refine ⟨rfl, ?_⟩
  have h1 : (2 : ℝ) ^ n1 ≠ 0 := by positivity
  have h2 : (2 : ℝ) ^ n2 ≠ 0 := by positivity
  have e : (2 : ℝ) ^ n2 = 2 ^ n1 * 2 ^ (n2 - n1) := by rw [← pow_add]; congr 1; omega
  unfold twoStepCodes stageOut truncated
  simp only
  have e2 : (v - (⌊v * 2 ^ n1⌋ : ℝ) / 2 ^ n1) * 2 ^ n2 = v * 2 ^ n2 - ((⌊v * 2 ^ n1⌋ * 2 ^ (n2 - n1) : ℤ) : ℝ) := by
    push_cast
    rw [e]
    field_simp
  rw [e2, Int.floor_sub_intCast]
  push_cast
  rw [e]
  field_simp

/-- **C166 (two steps).** The two-step quantizer of the generators is one ideal `N2`-bit quantizer with, on top, exactly the stated error times the coarse code: of this sample
(gain), of the sample before (kickback, the first sample repeated), or of this sample with alternating sign (reference). -/
theorem C166_two_step (n1 n2 : ℕ) (h : n1 ≤ n2) (e : ℝ) (sig : ℕ → ℝ) (i : ℕ) :
    gainErrorSample n1 n2 e (sig i) = truncated n2 (sig i) - (1 - e) * truncated n1 (sig i) ∧
    kickbackSample n1 n2 e sig 0 = truncated n2 (sig 0) + e * truncated n1 (sig 0) ∧
    kickbackSample n1 n2 e sig (i + 1) = truncated n2 (sig (i + 1)) + e * truncated n1 (sig i) ∧
    refErrorSample n1 n2 e sig i = truncated n2 (sig i) + (if i % 2 = 0 then e else -e) * (truncated n1 (sig i) - 1 / 2) := by
  have hs : ∀ v, (twoStepCodes n1 n2 v).1 = truncated n1 v ∧ (twoStepCodes n1 n2 v).2 = truncated n2 v - truncated n1 v := two_step_sum n1 n2 h
  refine ⟨?_, ?_, ?_, ?_⟩
  · rw [gainErrorSample, (hs _).1, (hs _).2]; ring
  · rw [kickbackSample, (hs _).1, (hs _).2]; ring
  · rw [kickbackSample, (hs _).1, (hs _).2, Nat.add_sub_cancel, (hs _).1]; ring
  · rw [refErrorSample, (hs _).1, (hs _).2]
    rcases Nat.mod_two_eq_zero_or_one i with h2 | h2
    · rw [if_pos h2, (Nat.even_iff.mpr h2).neg_one_pow]; ring
    · rw [if_neg (by omega), (Nat.odd_iff.mpr h2).neg_one_pow]; ring

/-- **C166 (distortion).** The distorted sine has its second and third harmonic at exactly the asked ratio to `A`, but its fundamental is `1 + 3 · 10^(HD3/20)` times `A`:
relative to the fundamental, both harmonics stay below the asked level by the same number of decibels. -/
theorem C166_distortion (hd2 hd3 A : ℝ) (hA : 0 < A) : ∃ a1 a2 a3 d : ℝ, (∀ θ, hdSample hd2 hd3 A (A * Real.sin θ) = a2 + a1 * Real.sin θ - a2 * Real.cos (2 * θ) - a3 * Real.sin (3 * θ)) ∧
    20 * Real.logb 10 (a2 / A) = hd2 ∧ 20 * Real.logb 10 (a3 / A) = hd3 ∧ 0 < d ∧ d = 20 * Real.logb 10 (1 + 3 * (10 : ℝ) ^ (hd3 / 20)) ∧
    20 * Real.logb 10 (a2 / a1) = hd2 - d ∧ 20 * Real.logb 10 (a3 / a1) = hd3 - d := by
  have h2 : (0 : ℝ) < 10 ^ (hd2 / 20) := Real.rpow_pos_of_pos (by norm_num) _
  have h3 : (0 : ℝ) < 10 ^ (hd3 / 20) := Real.rpow_pos_of_pos (by norm_num) _
  have hg : (1 : ℝ) < 1 + 3 * 10 ^ (hd3 / 20) := by linarith
  have hlog : ∀ x : ℝ, 20 * Real.logb 10 ((10 : ℝ) ^ (x / 20)) = x := by
    intro x
    rw [Real.logb_rpow (by norm_num) (by norm_num)]
    ring
  refine ⟨A * (1 + 3 * 10 ^ (hd3 / 20)), A * 10 ^ (hd2 / 20), A * 10 ^ (hd3 / 20), 20 * Real.logb 10 (1 + 3 * (10 : ℝ) ^ (hd3 / 20)), ?_, ?_, ?_, ?_, rfl, ?_, ?_⟩
  · intro θ
    unfold hdSample
    generalize (10 : ℝ) ^ (hd2 / 20) = p
    generalize (10 : ℝ) ^ (hd3 / 20) = q
    simp only
    rw [Real.cos_two_mul, Real.sin_three_mul]
    have hc : Real.cos θ ^ 2 = 1 - Real.sin θ ^ 2 := by linarith [Real.sin_sq_add_cos_sq θ]
    rw [hc]
    field_simp
    ring
  · rw [mul_div_cancel_left₀ _ hA.ne', hlog]
  · rw [mul_div_cancel_left₀ _ hA.ne', hlog]
  · have := Real.logb_pos (b := 10) (by norm_num) hg
    linarith
  · rw [mul_div_mul_left _ _ hA.ne', Real.logb_div h2.ne' (by linarith), mul_sub, hlog]
  · rw [mul_div_mul_left _ _ hA.ne', Real.logb_div h3.ne' (by linarith), mul_sub, hlog]

section Names

variable {K : Type} [Field K] [LinearOrder K] [IsStrictOrderedRing K] [FloorRing K]

/-- **C166 (zone).** The zone in the file name is the Nyquist zone of the frequency in the file. -/
theorem C166_zone (fs : K) (hfs : 0 < fs) (n : ℕ) (tj target : K) (z t : ℤ) (h : zoneName fs n tj target = some (z, t)) :
    ∃ j : ℤ, mlFindBin fs target n = some j ∧ ((z : K) - 1) * (fs / 2) < (j : K) / n * fs ∧ (j : K) / n * fs ≤ z * (fs / 2) := by
  unfold zoneName at h
  obtain ⟨j, hj, he⟩ := Option.map_eq_some_iff.mp h
  simp only [Prod.mk.injEq] at he
  have h2 : 0 < fs / 2 := by linarith
  obtain ⟨a, b⟩ := Int.ceil_eq_iff.mp he.1
  refine ⟨j, hj, ?_, ?_⟩
  · exact (lt_div_iff₀ h2).mp a
  · exact (div_le_iff₀ h2).mp b

/-- **C166 (one file).** All targets whose coherent bin lies in the first half of the spectrum go to one file; only the last of them is left. -/
theorem C166_one_file (fs : K) (hfs : 0 < fs) (n : ℕ) (tj : K) (ts : List K) (last : K) (hlast : ts.getLast? = some last)
    (hbin : ∀ t ∈ ts, ∃ j : ℤ, mlFindBin fs t n = some j ∧ 0 < j ∧ 2 * j ≤ n) : zoneFiles fs n tj ts = some [((1, round (tj * 10 ^ 15)), last)] := by
  have hname : ∀ t ∈ ts, zoneName fs n tj t = some (1, round (tj * 10 ^ 15)) := by
    intro t ht
    obtain ⟨j, hj, h0, h1⟩ := hbin t ht
    unfold zoneName
    rw [hj, Option.map_some]
    simp only [Option.some.injEq, Prod.mk.injEq, and_true]
    have hn : (0 : K) < n := by
      have : (0 : ℤ) < n := by omega
      exact_mod_cast this
    have hjK : (0 : K) < j := by exact_mod_cast h0
    have h1K : 2 * (j : K) ≤ n := by exact_mod_cast h1
    have e : (j : K) / n * fs / (fs / 2) = 2 * j / n := by field_simp
    rw [e, Int.ceil_eq_iff]
    push_cast
    constructor
    · rw [sub_self]
      positivity
    · rw [div_le_one hn]
      exact h1K
  clear hbin
  induction ts with
  | nil => simp at hlast
  | cons a ts ih =>
    rw [zoneFiles, hname a List.mem_cons_self]
    cases ts with
    | nil =>
      simp only [List.getLast?_singleton, Option.some.injEq] at hlast
      subst hlast
      simp [zoneFiles]
    | cons b ts =>
      rw [ih (by simpa [List.getLast?_cons_cons] using hlast) fun t ht => hname t (List.mem_cons_of_mem _ ht)]
      simp

/-- **C166 (label).** The frequency in the name of the dynamic-nonlinearity file is the target, to within a bin and a half and half a megahertz. -/
theorem C166_label (fs : K) (hfs : 0 < fs) (n : ℕ) (hn : 0 < n) (target : K) : |(dynamicLabel fs n target : K) * 10 ^ 6 - target| ≤ 3 / 2 * fs / n + 10 ^ 6 / 2 := by
  have hnK : (0 : K) < n := by exact_mod_cast hn
  unfold dynamicLabel
  simp only
  obtain ⟨j, hj⟩ : ∃ j : ℤ, j = if round (target / fs * n) % 2 = 0 then round (target / fs * n) + 1 else round (target / fs * n) := ⟨_, rfl⟩
  rw [← hj]
  have h1 := abs_sub_round (target / fs * n)
  have h2 := abs_sub_round ((j : K) * fs / n / 10 ^ 6)
  rw [abs_le] at h1 h2
  have h3 : |(j : K) - target / fs * n| ≤ 3 / 2 := by
    rw [hj, abs_le]
    split_ifs
    · push_cast
      constructor <;> linarith
    · constructor <;> linarith
  rw [abs_le] at h3
  have hk : (0 : K) < fs / n := by positivity
  have e : ((j : K) - target / fs * n) * (fs / n) = j * fs / n - target := by
    field_simp
  have h4 := mul_le_mul_of_nonneg_right h3.1 hk.le
  have h5 := mul_le_mul_of_nonneg_right h3.2 hk.le
  rw [e] at h4 h5
  have e6 : (j : K) * fs / n / 10 ^ 6 * 10 ^ 6 = j * fs / n := div_mul_cancel₀ _ (by norm_num)
  have e7 : (3 : K) / 2 * fs / n = 3 / 2 * (fs / n) := by ring
  rw [e7, abs_le]
  constructor <;> linarith

end Names

/-- **C166 (the scripts).** With the values in the scripts, the two records "in Nyquist Zones 2 to 3" are both in zone 1 and the second is written over the first; the record
named `fin_450M` is a sine at 1000 MHz. -/
theorem C166_scripts :
    zoneFiles (25 * 10 ^ 8 : ℚ) (2 ^ 13) (250 / 10 ^ 15) [5 * 10 ^ 8 + 10 ^ 6, 10 ^ 9 + 10 ^ 6] = some [((1, 250), 10 ^ 9 + 10 ^ 6)] ∧
    dynamicLabel (25 * 10 ^ 8 : ℚ) (2 ^ 13) (45 * 10 ^ 7) = 450 ∧ dynamicData (25 * 10 ^ 8 : ℚ) (2 ^ 13) (10 ^ 9) = some 1000 := by
  decide +kernel

/-! ## Examples -/

/-- A gain error of 0.99 at the input 0.3: coarse code 4/16, fine result 1228/4096. -/
example : gainErrorSample 4 12 (99 / 100) (3 / 10) = 1228 / 4096 - 1 / 100 * (4 / 16) := by
  have := (C166_two_step 4 12 (by norm_num) (99 / 100) (fun _ => 3 / 10) 0).1
  rw [this]
  have e1 : ⌊(3 / 10 : ℝ) * 2 ^ 12⌋ = 1228 := by rw [Int.floor_eq_iff]; norm_num
  have e2 : ⌊(3 / 10 : ℝ) * 2 ^ 4⌋ = 4 := by rw [Int.floor_eq_iff]; norm_num
  unfold truncated
  rw [e1, e2]
  norm_num

/-- A target in the second zone gets the number 2. -/
example : zoneName (25 * 10 ^ 8 : ℚ) (2 ^ 13) (250 / 10 ^ 15) (13 * 10 ^ 8) = some (2, 250) := by decide +kernel

/-- Two targets in the first zone. -/
example : (∃ j : ℤ, mlFindBin (25 * 10 ^ 8 : ℚ) (5 * 10 ^ 8 + 10 ^ 6) (2 ^ 13) = some j ∧ 0 < j ∧ 2 * j ≤ 2 ^ 13) ∧
    ∃ j : ℤ, mlFindBin (25 * 10 ^ 8 : ℚ) (10 ^ 9 + 10 ^ 6) (2 ^ 13) = some j ∧ 0 < j ∧ 2 * j ≤ 2 ^ 13 :=
  ⟨⟨1641, by decide +kernel⟩, ⟨3281, by decide +kernel⟩⟩

end Verif
