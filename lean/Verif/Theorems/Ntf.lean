import Verif.Model.Ntf
import Mathlib.Analysis.SpecialFunctions.Trigonometric.Bounds
import Mathlib.Algebra.Order.BigOperators.Ring.Finset
import Mathlib.Tactic.FieldSimp
import Mathlib.Tactic.Positivity
import Mathlib.Tactic.NormNum

/-!
# C75: in-band noise suppression of a noise transfer function
-/

namespace Verif

open Model Finset

/-! ## Specification -/

/-- Coefficients of `(z - 1) * p(z)`, highest power first: one more differentiation stage. -/
def Spec.diffStage (num : List ℝ) : List ℝ := List.zipWith (· - ·) (num ++ [0]) (0 :: num)

/-! ## Helpers -/

theorem cpolyval_append (l : List ℝ) (a : ℝ) (z : ℂ) : cpolyval (l ++ [a]) z = cpolyval l z * z + a := by
  simp [cpolyval]

theorem diffStage_append (l : List ℝ) (a : ℝ) : Spec.diffStage (l ++ [a]) = (List.zipWith (· - ·) (l ++ [a]) (0 :: l)) ++ [0 - a] := by
  unfold Spec.diffStage
  rw [← List.cons_append, List.zipWith_append (by simp)]
  simp

theorem zipWith_diff (l : List ℝ) (a : ℝ) (z : ℂ) :
    cpolyval (List.zipWith (· - ·) (l ++ [a]) (0 :: l)) z = cpolyval (l ++ [a]) z - cpolyval l z := by
  induction l using List.reverseRecOn generalizing a with
  | nil => simp [cpolyval]
  | append_singleton l b ih =>
    rw [← List.cons_append, List.zipWith_append (by simp), List.zipWith_cons_cons, List.zipWith_nil_left, cpolyval_append, ih,
      cpolyval_append (l ++ [b]) a]
    have h := cpolyval_append l b z
    push_cast
    rw [h]
    ring

theorem cpolyval_diffStage (num : List ℝ) (z : ℂ) : cpolyval (Spec.diffStage num) z = (z - 1) * cpolyval num z := by
  unfold Spec.diffStage
  rw [zipWith_diff, cpolyval_append]
  push_cast
  ring

theorem cpolyval_map_mul (g : ℝ) (num : List ℝ) (z : ℂ) : cpolyval (num.map (g * ·)) z = g * cpolyval num z := by
  induction num using List.reverseRecOn with
  | nil => simp [cpolyval]
  | append_singleton l a ih =>
    rw [List.map_append, List.map_singleton, cpolyval_append, ih, cpolyval_append]
    push_cast
    ring

theorem ntfMag_scale (g : ℝ) (num den : List ℝ) (w : ℝ) : ntfMag (num.map (g * ·)) den w = |g| * ntfMag num den w := by
  unfold ntfMag
  rw [cpolyval_map_mul, mul_div_assoc, norm_mul, Complex.norm_real, Real.norm_eq_abs]

theorem ntfMag_diff (num den : List ℝ) (w : ℝ) :
    ntfMag (Spec.diffStage num) (den ++ [0]) w = 2 * |Real.sin (Real.pi * w)| * ntfMag num den w := by
  unfold ntfMag
  rw [cpolyval_diffStage, cpolyval_append]
  have hz : ‖Complex.exp (((w * 2 * Real.pi : ℝ) : ℂ) * Complex.I)‖ = 1 := Complex.norm_exp_ofReal_mul_I _
  have h1 : ‖Complex.exp (((w * 2 * Real.pi : ℝ) : ℂ) * Complex.I) - 1‖ = 2 * |Real.sin (Real.pi * w)| := by
    have h := Complex.norm_exp_I_mul_ofReal_sub_one (w * 2 * Real.pi)
    rw [mul_comm Complex.I] at h
    rw [h, Real.norm_eq_abs, abs_mul, abs_two, show w * 2 * Real.pi / 2 = Real.pi * w by ring]
  rw [norm_div, norm_mul, h1, norm_div]
  rw [Complex.ofReal_zero, add_zero, norm_mul, hz, mul_one, mul_div_assoc]

theorem ntfPower_nonneg (num den : List ℝ) (a b : ℝ) : 0 ≤ ntfPower num den a b := by
  unfold ntfPower
  positivity

/-! ## Theorems -/

/-- A flat transfer function scores the ratio of all grid points to the points of the band; in particular the reference is the noise of the **whole**
Nyquist range, and the score of `NTF = 1` in a proper band is not 0 dB. -/
theorem C75_flat (flow fhigh : ℝ) (h : (ntfBand flow fhigh).Nonempty) :
    ntfAnalyzer [1] [1] flow fhigh = ((10 * Real.logb 10 ((ntfPoints : ℝ) / (ntfBand flow fhigh).card) : ℝ) : EReal) := by
  have hm : ∀ w, ntfMag [1] [1] w = 1 := fun w => by simp [ntfMag, cpolyval]
  have hp : ntfPower [1] [1] flow fhigh = (ntfBand flow fhigh).card / ntfPoints := by
    simp [ntfPower, hm]
  have hc : (0 : ℝ) < (ntfBand flow fhigh).card := by exact_mod_cast h.card_pos
  have hN : (0 : ℝ) < (ntfPoints : ℝ) := by norm_num [ntfPoints]
  unfold ntfAnalyzer
  rw [hp, if_neg (div_pos hc hN).ne', ← inv_div, Real.logb_inv]
  exact congrArg _ (by ring)

/-- **C75 (grid).** A band inside the Nyquist range contains its share of the `65536` grid points, up to one: a flat function scores, up to that point, the
ratio of the Nyquist range to the band. -/
theorem C75_band_share (flow fhigh : ℝ) (h0 : 0 ≤ flow) (h1 : flow < fhigh) (h2 : fhigh ≤ 1 / 2) :
    |((ntfBand flow fhigh).card : ℝ) - (fhigh - flow) / (1 / 2) * 65535| ≤ 1 := by
  have hP : (ntfPoints : ℝ) - 1 = 65535 := by unfold ntfPoints; norm_num
  have hPn : ntfPoints = 65536 := by unfold ntfPoints; rfl
  have hset : ntfBand flow fhigh = Ioo ⌊flow * 131070⌋₊ ⌈fhigh * 131070⌉₊ := by
    ext i
    unfold ntfBand ntfGrid
    rw [mem_filter, mem_range, mem_Ioo, hP, hPn, Nat.floor_lt (by positivity), Nat.lt_ceil]
    constructor
    · rintro ⟨_, h3, h4⟩
      constructor <;> linarith
    · rintro ⟨h3, h4⟩
      refine ⟨?_, by linarith, by linarith⟩
      have : (i : ℝ) < 65536 := by linarith
      exact_mod_cast this
  have f1 := Nat.floor_le (by positivity : 0 ≤ flow * 131070)
  have f2 := Nat.lt_floor_add_one (flow * 131070)
  have c1 := Nat.le_ceil (fhigh * 131070)
  have c2 := Nat.ceil_lt_add_one (by nlinarith : 0 ≤ fhigh * 131070)
  rw [hset, Nat.card_Ioo]
  have hle : ⌊flow * 131070⌋₊ + 1 ≤ ⌈fhigh * 131070⌉₊ := by
    have : ((⌊flow * 131070⌋₊ : ℕ) : ℝ) < (⌈fhigh * 131070⌉₊ : ℕ) := by linarith
    exact_mod_cast this
  rw [show ⌈fhigh * 131070⌉₊ - ⌊flow * 131070⌋₊ - 1 = ⌈fhigh * 131070⌉₊ - (⌊flow * 131070⌋₊ + 1) by omega, Nat.cast_sub hle]
  push_cast
  rw [abs_le]
  constructor <;> linarith

/-- Scaling the numerator by `g` costs `20 log10 |g|` decibels, in any band where the response does not vanish. -/
theorem C75_gain (num den : List ℝ) (flow fhigh g : ℝ) (hg : g ≠ 0) (hp : ntfPower num den flow fhigh ≠ 0) :
    ∃ v : ℝ, ntfAnalyzer num den flow fhigh = (v : EReal) ∧
      ntfAnalyzer (num.map (g * ·)) den flow fhigh = ((v - 20 * Real.logb 10 |g| : ℝ) : EReal) := by
  have he : ntfPower (num.map (g * ·)) den flow fhigh = |g| ^ 2 * ntfPower num den flow fhigh := by
    unfold ntfPower
    simp only [ntfMag_scale, mul_pow]
    rw [← mul_sum, mul_div_assoc]
  have hg2 : |g| ^ 2 ≠ 0 := pow_ne_zero _ (abs_ne_zero.mpr hg)
  refine ⟨-10 * Real.logb 10 (ntfPower num den flow fhigh), by rw [ntfAnalyzer, if_neg hp], ?_⟩
  rw [ntfAnalyzer, he, if_neg (mul_ne_zero hg2 hp), Real.logb_mul hg2 hp, Real.logb_pow]
  exact congrArg _ (by push_cast; ring)

/-- A wider band never scores better. -/
theorem C75_band_monotone (num den : List ℝ) (a b a' b' : ℝ) (ha : a' ≤ a) (hb : b ≤ b') :
    ntfAnalyzer num den a' b' ≤ ntfAnalyzer num den a b := by
  have hs : ntfBand a b ⊆ ntfBand a' b' := by
    intro i hi
    simp only [ntfBand, mem_filter] at hi ⊢
    exact ⟨hi.1, lt_of_le_of_lt ha hi.2.1, lt_of_lt_of_le hi.2.2 hb⟩
  have hle : ntfPower num den a b ≤ ntfPower num den a' b' := by
    unfold ntfPower
    gcongr
  unfold ntfAnalyzer
  by_cases h : ntfPower num den a b = 0
  · rw [if_pos h]
    exact le_top
  · have hpos : 0 < ntfPower num den a b := lt_of_le_of_ne (ntfPower_nonneg _ _ _ _) (Ne.symm h)
    rw [if_neg h, if_neg (hpos.trans_le hle).ne', EReal.coe_le_coe_iff]
    have := Real.logb_le_logb_of_le (b := 10) (by norm_num) hpos hle
    linarith

/-- A band without grid point scores plus infinity, whatever the transfer function. -/
theorem C75_empty_band (num den : List ℝ) (flow fhigh : ℝ) (h : ntfBand flow fhigh = ∅) : ntfAnalyzer num den flow fhigh = ⊤ := by
  simp [ntfAnalyzer, ntfPower, h]

/-- One more differentiation stage improves the score strictly in every band below a sixth of the sample rate, whatever the transfer function. -/
theorem C75_order_helps (num den : List ℝ) (flow fhigh : ℝ) (h0 : 0 ≤ flow) (h6 : fhigh ≤ 1 / 6) (hp : ntfPower num den flow fhigh ≠ 0) :
    ntfAnalyzer num den flow fhigh < ntfAnalyzer (Spec.diffStage num) (den ++ [0]) flow fhigh := by
  have hlt : ∀ i ∈ ntfBand flow fhigh, 0 < 2 * |Real.sin (Real.pi * ntfGrid i)| ∧ 2 * |Real.sin (Real.pi * ntfGrid i)| < 1 := by
    intro i hi
    simp only [ntfBand, mem_filter] at hi
    have hw0 : 0 < ntfGrid i := lt_of_le_of_lt h0 hi.2.1
    have hw6 : ntfGrid i < 1 / 6 := lt_of_lt_of_le hi.2.2 h6
    have hpi := Real.pi_pos
    have hs0 : 0 < Real.sin (Real.pi * ntfGrid i) := Real.sin_pos_of_pos_of_lt_pi (by positivity) (by nlinarith)
    have hs1 : Real.sin (Real.pi * ntfGrid i) < Real.sin (Real.pi / 6) :=
      Real.sin_lt_sin_of_lt_of_le_pi_div_two (by nlinarith) (by linarith) (by nlinarith)
    rw [Real.sin_pi_div_six] at hs1
    rw [abs_of_pos hs0]
    constructor <;> linarith
  have hex : ∃ i ∈ ntfBand flow fhigh, ntfMag num den (ntfGrid i) ≠ 0 := by
    by_contra hcon
    push Not at hcon
    apply hp
    unfold ntfPower
    rw [sum_eq_zero fun i hi => by rw [hcon i hi]; norm_num, zero_div]
  have hN : (0 : ℝ) < (ntfPoints : ℝ) := by norm_num [ntfPoints]
  have hm0 : ∀ i, 0 ≤ ntfMag num den (ntfGrid i) := fun i => norm_nonneg _
  have hlt2 : ntfPower (Spec.diffStage num) (den ++ [0]) flow fhigh < ntfPower num den flow fhigh := by
    unfold ntfPower
    apply div_lt_div_of_pos_right _ hN
    obtain ⟨i, hi, hne⟩ := hex
    apply sum_lt_sum
    · intro j hj
      rw [ntfMag_diff, mul_pow]
      have h2 := hlt j hj
      have h3 : (2 * |Real.sin (Real.pi * ntfGrid j)|) ^ 2 ≤ 1 := pow_le_one₀ h2.1.le h2.2.le
      nlinarith [sq_nonneg (ntfMag num den (ntfGrid j))]
    · refine ⟨i, hi, ?_⟩
      rw [ntfMag_diff, mul_pow]
      have h2 := hlt i hi
      have h3 : (2 * |Real.sin (Real.pi * ntfGrid i)|) ^ 2 < 1 := pow_lt_one₀ h2.1.le h2.2 (by norm_num)
      have h4 : 0 < ntfMag num den (ntfGrid i) ^ 2 := by positivity
      nlinarith
  have hpos2 : 0 < ntfPower (Spec.diffStage num) (den ++ [0]) flow fhigh := by
    unfold ntfPower
    obtain ⟨i, hi, hne⟩ := hex
    refine div_pos (sum_pos' (fun j _ => sq_nonneg _) ⟨i, hi, ?_⟩) hN
    rw [ntfMag_diff]
    have := (hlt i hi).1
    positivity
  unfold ntfAnalyzer
  rw [if_neg hp, if_neg hpos2.ne', EReal.coe_lt_coe_iff]
  have := Real.logb_lt_logb (b := 10) (by norm_num) hpos2 hlt2
  linarith

/-! ## Cases -/

example : (1000 : ℕ) ∈ ntfBand 0 (1 / 6) := by
  simp only [ntfBand, mem_filter, mem_range, ntfGrid, ntfPoints]
  norm_num

example : ntfPower [1] [1] 0 (1 / 6) ≠ 0 := by
  have hm : (1000 : ℕ) ∈ ntfBand 0 (1 / 6) := by
    simp only [ntfBand, mem_filter, mem_range, ntfGrid, ntfPoints]
    norm_num
  have hc : (0 : ℝ) < (ntfBand 0 (1 / 6)).card := by exact_mod_cast card_pos.mpr ⟨_, hm⟩
  have hm1 : ∀ w, ntfMag [1] [1] w = 1 := fun w => by simp [ntfMag, cpolyval]
  have : ntfPower [1] [1] 0 (1 / 6) = (ntfBand 0 (1 / 6)).card / ntfPoints := by simp [ntfPower, hm1]
  rw [this]
  exact (div_pos hc (by norm_num [ntfPoints])).ne'

/-- First order from flat: `(z - 1) / z`. -/
example : Spec.diffStage [1] = [1, -1] ∧ Spec.diffStage [1, -1] = [1, -2, 1] := by
  constructor <;> norm_num [Spec.diffStage]

/-- A band between two grid points is empty. -/
example : ntfBand 0 0 = ∅ := by
  rw [ntfBand, filter_eq_empty_iff]
  rintro i - ⟨h1, h2⟩
  exact absurd h1 (not_lt.mpr h2.le)

/-- The band up to `fs/64`. -/
example : |((ntfBand 0 (1 / 64)).card : ℝ) - (1 / 64 - 0) / (1 / 2) * 65535| ≤ 1 :=
  C75_band_share 0 (1 / 64) le_rfl (by norm_num) (by norm_num)

end Verif
