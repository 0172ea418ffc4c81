import Verif.Model.Plots
import Mathlib.Tactic.NormNum
import Mathlib.Tactic.Positivity

/-!
# C89: number texts in the plots
-/

namespace Verif

open Model

variable {K : Type} [Field K] [LinearOrder K] [IsStrictOrderedRing K] [FloorRing K]

/-- Meaning of a unit suffix (specification). -/
def unitOf (s : String) : K :=
  if s = "G" then 10 ^ 9 else if s = "M" then 10 ^ 6 else if s = "K" then 10 ^ 3
  else if s = "mV" then 1 / 10 ^ 3 else if s = "uV" then 1 / 10 ^ 6 else if s = "nV" then 1 / 10 ^ 9 else if s = "pV" then 1 / 10 ^ 12 else 1

/-- What a reader takes from a printed number (specification). -/
def readText (t : NumText) : K := (t.digits : K) / 10 ^ t.decimals * unitOf t.suffix

/-- Rounding error of a printed number. -/
theorem fmt_error (v : K) (d : ℕ) (s : String) (u : K) (hu : unitOf s = u) (h0 : 0 < u) :
    |readText (fmtFixed v d s) - v * u| ≤ u / (2 * 10 ^ d) := by
  have h := abs_sub_rint_le (v * 10 ^ d)
  have hd : (0 : K) < 10 ^ d := by positivity
  unfold readText fmtFixed
  simp only
  rw [hu, ← sub_mul, abs_mul, abs_of_pos h0, show (rint (v * 10 ^ d) : K) / 10 ^ d - v = -((v * 10 ^ d - rint (v * 10 ^ d)) / 10 ^ d) by field_simp; ring,
    abs_neg, abs_div, abs_of_pos hd, div_mul_eq_mul_div, div_le_div_iff₀ hd (by positivity)]
  have := mul_le_mul_of_nonneg_right h (by positivity : (0 : K) ≤ u * (2 * 10 ^ d))
  calc |v * 10 ^ d - rint (v * 10 ^ d)| * u * (2 * 10 ^ d) = |v * 10 ^ d - rint (v * 10 ^ d)| * (u * (2 * 10 ^ d)) := by ring
    _ ≤ 1 / 2 * (u * (2 * 10 ^ d)) := this
    _ = u * 10 ^ d := by ring

/-- **C89 (frequencies).** The printed sampling rate (and, in the dark style, the printed input frequency) is within half a unit of the last
digit: from 1 kHz on the relative error is at most 5 %, below the absolute error is at most 0.05 Hz. -/
theorem C89_frequency (f : K) :
    (1000 ≤ f → |readText (formatFreq f) - f| ≤ f / 20) ∧ (f < 1000 → |readText (formatFreq f) - f| ≤ 1 / 20) := by
  unfold formatFreq
  by_cases h9 : (10 : K) ^ 9 ≤ f
  · rw [if_pos h9]
    have := fmt_error (f / 10 ^ 9) 1 "G" (10 ^ 9) (by simp [unitOf]) (by positivity)
    rw [div_mul_cancel₀ _ (by positivity)] at this
    exact ⟨fun _ => this.trans (by linarith), fun h => by norm_num at h9; linarith⟩
  rw [if_neg h9]
  by_cases h6 : (10 : K) ^ 6 ≤ f
  · rw [if_pos h6]
    have := fmt_error (f / 10 ^ 6) 1 "M" (10 ^ 6) (by simp [unitOf]) (by positivity)
    rw [div_mul_cancel₀ _ (by positivity)] at this
    exact ⟨fun _ => this.trans (by linarith), fun h => by norm_num at h6; linarith⟩
  rw [if_neg h6]
  by_cases h3 : (10 : K) ^ 3 ≤ f
  · rw [if_pos h3]
    have := fmt_error (f / 10 ^ 3) 1 "K" (10 ^ 3) (by simp [unitOf]) (by positivity)
    rw [div_mul_cancel₀ _ (by positivity)] at this
    exact ⟨fun _ => this.trans (by linarith), fun h => by norm_num at h3; linarith⟩
  rw [if_neg h3]
  have := fmt_error f 1 "" 1 (by simp [unitOf]) one_pos
  rw [mul_one] at this
  exact ⟨fun h => by norm_num at h3; linarith, fun _ => this.trans (by norm_num)⟩

/-- **C89 (input frequency, partial).** In the light style the printed input frequency has the same accuracy from 1 kHz on, and three decimals
below 1 Hz. The range between 1 Hz and 1 kHz is missing, see `C89_fin_thousandfold`. -/
theorem C89_fin_partial (f : K) :
    (1000 ≤ f → |readText (formatFin f) - f| ≤ f / 20) ∧ (f < 1 → |readText (formatFin f) - f| ≤ 1 / 2000) := by
  constructor
  · intro h
    have e : formatFin f = formatFreq f := by
      unfold formatFin formatFreq
      rw [show (10 : K) ^ 3 = 1000 by norm_num, if_pos h, if_pos h]
    rw [e]
    exact (C89_frequency f).1 h
  · intro h
    unfold formatFin
    rw [if_neg (by norm_num; linarith), if_neg (by norm_num; linarith), if_neg (by norm_num; linarith), if_neg (by linarith)]
    have := fmt_error f 3 "" 1 (by simp [unitOf]) one_pos
    rw [mul_one] at this
    exact this.trans (by norm_num)

/-- **C89 (input frequency between 1 Hz and 1 kHz).** The light style divides by 1000 but prints no `K`: the printed number is at most a tenth
of the input frequency, and within 0.05 of a thousandth of it. -/
theorem C89_fin_thousandfold (f : K) (h1 : 1 ≤ f) (h2 : f < 1000) :
    10 * readText (formatFin f) ≤ f ∧ |readText (formatFin f) - f / 1000| ≤ 1 / 20 := by
  unfold formatFin
  rw [if_neg (by norm_num; linarith), if_neg (by norm_num; linarith), if_neg (by norm_num; linarith), if_pos h1]
  have := fmt_error (f / 10 ^ 3) 1 "" 1 (by simp [unitOf]) one_pos
  rw [mul_one] at this
  have h3 : |readText (fmtFixed (f / 10 ^ 3) 1 "") - f / 1000| ≤ 1 / 20 := by
    norm_num at this ⊢
    linarith
  refine ⟨?_, h3⟩
  have := (abs_le.mp h3).2
  linarith

/-- A tone at 440 Hz is printed as `0.4`; the dark style prints `440.0`. -/
example : formatFin (440 : ℚ) = ⟨4, 1, ""⟩ ∧ formatFreq (440 : ℚ) = ⟨4400, 1, ""⟩ ∧ formatFreq (1250000 : ℚ) = ⟨12, 1, "M"⟩ := by decide +kernel

/-- **C89 (voltages).** A printed voltage of at least 1 pV is within 0.5 % of the value and has its sign; a smaller one is printed as zero. -/
theorem C89_volt (v : K) :
    (1 / 10 ^ 12 ≤ |v| → |readText (formatVolt v) - v| ≤ |v| / 200 ∧ 0 < readText (formatVolt v) * v) ∧ (|v| < 1 / 10 ^ 12 → readText (formatVolt v) = (0 : K)) := by
  have hsign : ∀ r : K, 0 < |v| → |r - v| ≤ |v| / 200 → 0 < r * v := by
    intro r h0 h
    rcases lt_trichotomy v 0 with hv | hv | hv
    · rw [abs_of_neg hv] at h
      have := (abs_le.mp h).2
      exact mul_pos_of_neg_of_neg (by linarith) hv
    · rw [hv, abs_zero] at h0
      exact absurd h0 (lt_irrefl _)
    · rw [abs_of_pos hv] at h
      have := (abs_le.mp h).1
      exact mul_pos (by linarith) hv
  constructor
  · intro h0
    have hv : 0 < |v| := lt_of_lt_of_le (by positivity) h0
    have key : |readText (formatVolt v) - v| ≤ |v| / 200 := by
      unfold formatVolt
      rw [if_neg (not_lt.mpr h0)]
      by_cases h1 : 1 ≤ |v|
      · rw [if_pos h1]
        have := fmt_error v 2 "V" 1 (by simp [unitOf]) one_pos
        rw [mul_one] at this
        exact this.trans (by linarith)
      rw [if_neg h1]
      by_cases h3 : 1 / 10 ^ 3 ≤ |v|
      · rw [if_pos h3]
        have := fmt_error (v * 10 ^ 3) 2 "mV" (1 / 10 ^ 3) (by simp [unitOf]) (by positivity)
        rw [mul_one_div, mul_div_cancel_right₀ _ (by positivity)] at this
        exact this.trans (by linarith)
      rw [if_neg h3]
      by_cases h6 : 1 / 10 ^ 6 ≤ |v|
      · rw [if_pos h6]
        have := fmt_error (v * 10 ^ 6) 2 "uV" (1 / 10 ^ 6) (by simp [unitOf]) (by positivity)
        rw [mul_one_div, mul_div_cancel_right₀ _ (by positivity)] at this
        exact this.trans (by linarith)
      rw [if_neg h6]
      by_cases h9 : 1 / 10 ^ 9 ≤ |v|
      · rw [if_pos h9]
        have := fmt_error (v * 10 ^ 9) 2 "nV" (1 / 10 ^ 9) (by simp [unitOf]) (by positivity)
        rw [mul_one_div, mul_div_cancel_right₀ _ (by positivity)] at this
        exact this.trans (by linarith)
      rw [if_neg h9]
      have := fmt_error (v * 10 ^ 12) 2 "pV" (1 / 10 ^ 12) (by simp [unitOf]) (by positivity)
      rw [mul_one_div, mul_div_cancel_right₀ _ (by positivity)] at this
      exact this.trans (by linarith)
    exact ⟨key, hsign _ hv key⟩
  · intro h
    unfold formatVolt
    rw [if_pos h]
    simp [readText]

/-- Some printed voltages. -/
example : formatVolt (-123 / 100000 : ℚ) = ⟨-123, 2, "mV"⟩ ∧ formatVolt (1 / 10 ^ 13 : ℚ) = ⟨0, 2, "uV"⟩ ∧ readText (formatVolt (-123 / 100000 : ℚ)) = (-123 / 100000 : ℚ) := by
  decide +kernel

end Verif
