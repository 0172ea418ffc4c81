import Verif.Np.Basic
import Mathlib.Data.Int.Log
import Mathlib.Algebra.Order.Field.Power
import Mathlib.Tactic.NormNum
import Mathlib.Tactic.Positivity

/-!
# Rounding to float64

The set of binary64 numbers and rounding to nearest, ties to even, without the bounds of the exponent: overflow, subnormal numbers, infinities and NaN are not
represented. Python and numpy evaluate `+ - * /` on floats as the exact operation followed by this rounding.
-/

namespace Verif

variable {K : Type} [Field K] [LinearOrder K] [IsStrictOrderedRing K] [FloorRing K]

/-- A number with a 53-bit significand. -/
def IsF64 (x : K) : Prop := ∃ m e : ℤ, |m| ≤ 2 ^ 53 ∧ x = m * 2 ^ e

/-- Exponent of the last of the 53 bits. -/
def ulpExp (x : K) : ℤ := Int.log 2 |x| - 52

/-- Rounding to nearest, ties to even. -/
def fl64 (x : K) : K := if x = 0 then 0 else (rint (x / 2 ^ ulpExp x) : K) * 2 ^ ulpExp x

theorem binade {x : K} (hx : x ≠ 0) : (2 : K) ^ Int.log 2 |x| ≤ |x| ∧ |x| < (2 : K) ^ (Int.log 2 |x| + 1) := by
  have h1 := Int.zpow_log_le_self (R := K) (b := 2) (by norm_num) (abs_pos.mpr hx)
  have h2 := Int.lt_zpow_succ_log_self (R := K) (b := 2) (by norm_num) |x|
  exact ⟨by exact_mod_cast h1, by exact_mod_cast h2⟩

theorem log_unique {x : K} {k : ℤ} (h1 : (2 : K) ^ k ≤ |x|) (h2 : |x| < (2 : K) ^ (k + 1)) : Int.log 2 |x| = k := by
  have hx : 0 < |x| := lt_of_lt_of_le (by positivity) h1
  have a := (Int.zpow_le_iff_le_log (R := K) (b := 2) (by norm_num) hx (x := k)).mp (by exact_mod_cast h1)
  have b := (Int.lt_zpow_iff_log_lt (R := K) (b := 2) (by norm_num) hx (x := k + 1)).mp (by exact_mod_cast h2)
  omega

theorem fl64_err {x : K} (hx : x ≠ 0) : |fl64 x - x| ≤ 2 ^ ulpExp x / 2 := by
  unfold fl64
  rw [if_neg hx]
  have hp : (0 : K) < 2 ^ ulpExp x := by positivity
  have h := abs_sub_rint_le (x / 2 ^ ulpExp x)
  have e : (rint (x / 2 ^ ulpExp x) : K) * 2 ^ ulpExp x - x = -((x / 2 ^ ulpExp x - rint (x / 2 ^ ulpExp x)) * 2 ^ ulpExp x) := by
    field_simp
    ring
  rw [e, abs_neg, abs_mul, abs_of_pos hp]
  nlinarith

/-- Relative error at most `2^-53`. -/
theorem fl64_rel (x : K) : |fl64 x - x| ≤ |x| / 2 ^ 53 := by
  by_cases hx : x = 0
  · subst hx
    simp [fl64]
  have h := fl64_err hx
  have hb := (binade hx).1
  have e : (2 : K) ^ ulpExp x / 2 = 2 ^ Int.log 2 |x| / 2 ^ 53 := by
    unfold ulpExp
    rw [zpow_sub₀ (by norm_num)]
    norm_num
    ring
  rw [e] at h
  exact h.trans (div_le_div_of_nonneg_right hb (by positivity))

theorem fl64_zero : fl64 (0 : K) = 0 := if_pos rfl

/-- A number of the format is its own rounding. -/
theorem fl64_exact {x : K} (h : IsF64 x) : fl64 x = x := by
  obtain ⟨m, e, hm, rfl⟩ := h
  by_cases hx : (m : K) * 2 ^ e = 0
  · rw [hx, fl64_zero]
  unfold fl64
  rw [if_neg hx]
  set u := ulpExp ((m : K) * 2 ^ e) with hu
  have hmK : |(m : K)| ≤ 2 ^ 53 := by exact_mod_cast hm
  obtain ⟨b1, b2⟩ := binade hx
  have habs : |(m : K) * 2 ^ e| = |(m : K)| * 2 ^ e := by rw [abs_mul, abs_of_pos (by positivity : (0 : K) < 2 ^ e)]
  have hint : ∃ z : ℤ, (m : K) * 2 ^ e / 2 ^ u = z := by
    by_cases hle : u ≤ e
    · obtain ⟨k, hk⟩ := Int.eq_ofNat_of_zero_le (sub_nonneg.mpr hle)
      refine ⟨m * 2 ^ k, ?_⟩
      rw [mul_div_assoc, ← zpow_sub₀ (by norm_num), hk]
      push_cast
      norm_num
    · have hlog : e + 53 ≤ Int.log 2 |(m : K) * 2 ^ e| := by
        have : u = Int.log 2 |(m : K) * 2 ^ e| - 52 := hu
        omega
      have h1 : (2 : K) ^ (e + 53) ≤ |(m : K)| * 2 ^ e := by
        rw [← habs]
        exact (zpow_le_zpow_right₀ (by norm_num) hlog).trans b1
      have h2 : (2 : K) ^ 53 ≤ |(m : K)| := by
        rw [zpow_add₀ (by norm_num), mul_comm] at h1
        have := le_of_mul_le_mul_right h1 (by positivity)
        exact_mod_cast this
      have h3 : |(m : K)| = 2 ^ 53 := le_antisymm hmK h2
      have h4 : Int.log 2 |(m : K) * 2 ^ e| = e + 53 := by
        apply log_unique
        · rw [habs, h3, zpow_add₀ (by norm_num), mul_comm]
          norm_num
        · rw [habs, h3, show e + 53 + 1 = 54 + e by ring, zpow_add₀ (by norm_num)]
          have : (0 : K) < 2 ^ e := by positivity
          norm_num
          nlinarith
      have hu' : u = e + 1 := by
        have : u = Int.log 2 |(m : K) * 2 ^ e| - 52 := hu
        omega
      have h5 : |m| = 2 ^ 53 := by exact_mod_cast h3
      rcases abs_eq (by norm_num) |>.mp h5 with h6 | h6
      · refine ⟨2 ^ 52, ?_⟩
        rw [hu', h6, zpow_add₀ (by norm_num)]
        push_cast
        field_simp
        norm_num
      · refine ⟨-2 ^ 52, ?_⟩
        rw [hu', h6, zpow_add₀ (by norm_num)]
        push_cast
        field_simp
        norm_num
  obtain ⟨z, hz⟩ := hint
  rw [hz, rint_intCast, ← hz]
  field_simp

/-- The rounding is a number of the format. -/
theorem isF64_fl64 (x : K) : IsF64 (fl64 x) := by
  by_cases hx : x = 0
  · exact ⟨0, 0, by norm_num, by rw [hx, fl64_zero]; simp⟩
  refine ⟨rint (x / 2 ^ ulpExp x), ulpExp x, ?_, by unfold fl64; rw [if_neg hx]⟩
  obtain ⟨-, b2⟩ := binade hx
  have hp : (0 : K) < 2 ^ ulpExp x := by positivity
  have hq : |x / 2 ^ ulpExp x| < 2 ^ 53 := by
    rw [abs_div, abs_of_pos hp, div_lt_iff₀ hp]
    have : (2 : K) ^ (Int.log 2 |x| + 1) = 2 ^ 53 * 2 ^ ulpExp x := by
      unfold ulpExp
      rw [show Int.log 2 |x| + 1 = 53 + (Int.log 2 |x| - 52) by ring, zpow_add₀ (by norm_num)]
      norm_num
    rw [← this]
    exact b2
  rw [abs_lt] at hq
  have h1 := rint_mono (K := K) (x := ((-2 ^ 53 : ℤ) : K)) (y := x / 2 ^ ulpExp x) (by have := hq.1.le; push_cast; norm_num at this ⊢; exact this)
  have h2 := rint_mono (K := K) (x := x / 2 ^ ulpExp x) (y := ((2 ^ 53 : ℤ) : K)) (by have := hq.2.le; push_cast; norm_num at this ⊢; exact this)
  rw [rint_intCast] at h1 h2
  exact abs_le.mpr ⟨h1, h2⟩

theorem fl64_fl64 (x : K) : fl64 (fl64 x) = fl64 x := fl64_exact (isF64_fl64 x)

omit [LinearOrder K] [IsStrictOrderedRing K] [FloorRing K] in
theorem isF64_int (z : ℤ) (h : |z| ≤ 2 ^ 53) : IsF64 (z : K) := ⟨z, 0, h, by simp⟩

/-- Scaling by a power of two commutes with rounding. -/
theorem fl64_scale (x : K) (e : ℤ) : fl64 (x * 2 ^ e) = fl64 x * 2 ^ e := by
  by_cases hx : x = 0
  · rw [hx, zero_mul, fl64_zero, zero_mul]
  have hp : (0 : K) < 2 ^ e := by positivity
  have hx' : x * 2 ^ e ≠ 0 := mul_ne_zero hx hp.ne'
  obtain ⟨b1, b2⟩ := binade hx
  have hlog : Int.log 2 |x * 2 ^ e| = Int.log 2 |x| + e := by
    apply log_unique
    · rw [abs_mul, abs_of_pos hp, zpow_add₀ (by norm_num)]
      exact mul_le_mul_of_nonneg_right b1 hp.le
    · rw [abs_mul, abs_of_pos hp, show Int.log 2 |x| + e + 1 = Int.log 2 |x| + 1 + e by ring, zpow_add₀ (by norm_num)]
      exact mul_lt_mul_of_pos_right b2 hp
  have hu : ulpExp (x * 2 ^ e) = ulpExp x + e := by
    unfold ulpExp
    rw [hlog]
    ring
  unfold fl64
  rw [if_neg hx, if_neg hx', hu, zpow_add₀ (by norm_num), mul_div_mul_right _ _ hp.ne', mul_assoc]

/-- How to evaluate a rounding: the binade and the nearest multiple of the last bit. -/
theorem fl64_eval {x : K} (k m : ℤ) (h1 : (2 : K) ^ k ≤ |x|) (h2 : |x| < (2 : K) ^ (k + 1)) (h3 : |x / 2 ^ (k - 52) - m| < 1 / 2) : fl64 x = m * 2 ^ (k - 52) := by
  have hx : x ≠ 0 := by
    rintro rfl
    rw [abs_zero] at h1
    exact absurd h1 (not_le.mpr (by positivity))
  unfold fl64
  rw [if_neg hx]
  have : ulpExp x = k - 52 := by
    unfold ulpExp
    rw [log_unique h1 h2]
  rw [this, rint_unique h3]

theorem fl64_nonneg {x : K} (h : 0 ≤ x) : 0 ≤ fl64 x := by
  have := fl64_rel x
  rw [abs_of_nonneg h] at this
  have h1 := (abs_le.mp this).1
  have h2 : x / 2 ^ 53 ≤ x := div_le_self h (by norm_num)
  linarith

theorem fl64_pos {x : K} (h : 0 < x) : 0 < fl64 x := by
  have := fl64_rel x
  rw [abs_of_pos h] at this
  have h1 := (abs_le.mp this).1
  have h2 : x / 2 ^ 53 < x := div_lt_self h (by norm_num)
  linarith

end Verif
