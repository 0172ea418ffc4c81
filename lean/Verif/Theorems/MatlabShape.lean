import Verif.Model.MatlabShape
import Verif.Theorems.NoiseShaping
import Mathlib.Algebra.BigOperators.Field
import Mathlib.Tactic.IntervalCases

/-!
# C128: `apply_noise_shaping` and MATLAB `noiseshape.m`
-/

namespace Verif

open Model Finset

/-! ### `filter` -/

private theorem state_eq (b a : List ℝ) (x : ℕ → ℝ) (n i : ℕ) : mlFilterState b a x n i =
    ∑ j ∈ range n, (b.getD (i + j + 1) 0 / a.getD 0 0 * x (n - 1 - j) - a.getD (i + j + 1) 0 / a.getD 0 0 * mlFilter b a x (n - 1 - j)) := by
  induction n generalizing i with
  | zero => simp [mlFilterState]
  | succ n ih =>
    have e : mlFilterState b a x (n + 1) i = b.getD (i + 1) 0 / a.getD 0 0 * x n + mlFilterState b a x n (i + 1) - a.getD (i + 1) 0 / a.getD 0 0 * mlFilter b a x n := rfl
    rw [e, sum_range_succ', ih (i + 1)]
    have e2 : ∀ j ∈ range n, b.getD (i + (j + 1) + 1) 0 / a.getD 0 0 * x (n + 1 - 1 - (j + 1)) - a.getD (i + (j + 1) + 1) 0 / a.getD 0 0 * mlFilter b a x (n + 1 - 1 - (j + 1))
        = b.getD (i + 1 + j + 1) 0 / a.getD 0 0 * x (n - 1 - j) - a.getD (i + 1 + j + 1) 0 / a.getD 0 0 * mlFilter b a x (n - 1 - j) := by
      intro j _
      rw [show n + 1 - 1 - (j + 1) = n - 1 - j by omega, show i + (j + 1) + 1 = i + 1 + j + 1 by omega]
    rw [sum_congr rfl e2, show n + 1 - 1 - 0 = n by omega, add_zero]
    ring

/-- MATLAB's `filter`, a chain of registers, solves the difference equation from rest. -/
theorem C128_filter (b a : List ℝ) (x : ℕ → ℝ) (ha : a.getD 0 0 ≠ 0) : FilterEq b a x (mlFilter b a x) := by
  intro n
  rw [sum_range_succ', sum_range_succ']
  have hy : mlFilter b a x n = b.getD 0 0 / a.getD 0 0 * x n + mlFilterState b a x n 0 := rfl
  rw [state_eq, sum_sub_distrib] at hy
  have e1 : ∑ j ∈ range n, b.getD (0 + j + 1) 0 / a.getD 0 0 * x (n - 1 - j) = (∑ j ∈ range n, b.getD (j + 1) 0 * x (n - (j + 1))) / a.getD 0 0 := by
    rw [sum_div]
    refine sum_congr rfl fun j _ => ?_
    rw [show n - 1 - j = n - (j + 1) by omega, zero_add]
    ring
  have e2 : ∑ j ∈ range n, a.getD (0 + j + 1) 0 / a.getD 0 0 * mlFilter b a x (n - 1 - j) = (∑ j ∈ range n, a.getD (j + 1) 0 * mlFilter b a x (n - (j + 1))) / a.getD 0 0 := by
    rw [sum_div]
    refine sum_congr rfl fun j _ => ?_
    rw [show n - 1 - j = n - (j + 1) by omega, zero_add]
    ring
  rw [e1, e2] at hy
  simp only [Nat.sub_zero]
  rw [hy]
  field_simp
  ring

private theorem filter_same (b a : List ℝ) (x : ℕ → ℝ) (ha : a.getD 0 0 ≠ 0) (n : ℕ) : mlFilter b a x n = lfilter b a x n :=
  filterEq_unique b a x _ _ ha (C128_filter b a x ha) (lfilter_filterEq b a x ha) n

/-! ### The signal -/

private theorem default_table (order : ℤ) (h1 : 1 ≤ order) (h5 : order ≤ 5) :
    ((List.range (order.toNat + 1)).map fun (k : ℕ) => (-1 : ℝ) ^ k * (order.toNat.choose k : ℝ)) = ntfTable order := by
  interval_cases order <;>
    norm_num [ntfTable, show Int.toNat 1 = 1 from rfl, show Int.toNat 2 = 2 from rfl, show Int.toNat 3 = 3 from rfl, show Int.toNat 4 = 4 from rfl, show Int.toNat 5 = 5 from rfl,
      List.range_succ, Nat.choose]

private theorem qerr_same (s : ℕ → ℝ) (n : ℕ) (vmin vmax : ℝ) :
    (fun i => ((min (max ⌊(s i - vmin) / ((vmax - vmin) / 2 ^ n)⌋ 0) (2 ^ n - 1) : ℤ) : ℝ) * ((vmax - vmin) / 2 ^ n) + vmin - s i) = fun i => quantize (s i) n vmin vmax - s i := rfl

/-- **C128 (same output).** For every signal, a positive number of bits, an increasing range, an order from 1 to 5 and every transfer function whose numerator is not empty,
`apply_noise_shaping` returns what `noiseshape.m` returns, sample by sample, and refuses what it refuses. -/
theorem C128_same (g : Gen) (input : Option (ℕ → ℝ)) (bits : ℕ) (hb : 0 < bits) (vmin vmax : ℝ) (hv : vmin < vmax) (order : ℤ) (h1 : 1 ≤ order) (h5 : order ≤ 5)
    (ntf : NtfArg) (hntf : ntf ≠ .fir []) :
    mlNoiseShape (g.resolve input) bits vmin vmax order ntf = (g.noiseShaping input bits vmin vmax order ntf).toOption := by
  have hm : order ∈ [(1 : ℤ), 2, 3, 4, 5] := by
    simp only [List.mem_cons, List.not_mem_nil, or_false]
    omega
  have hc : mlNtf ntf order = ntfCoeffs order ntf := by
    unfold mlNtf ntfCoeffs
    cases ntf with
    | default => simp only [default_table order h1 h5]
    | fir num =>
      have : num ≠ [] := by rintro rfl; exact hntf rfl
      simp only [if_neg this]
    | iir num den => rfl
  have hpy : g.noiseShaping input bits vmin vmax order ntf =
      if (ntfCoeffs order ntf).1 = [] ∨ (ntfCoeffs order ntf).2.getD 0 0 = 0 then .error .valueError
      else .ok fun i => g.resolve input i + lfilter (ntfCoeffs order ntf).1 (ntfCoeffs order ntf).2 (fun i => quantize (g.resolve input i) bits vmin vmax - g.resolve input i) i := by
    unfold Gen.noiseShaping
    rw [decide_eq_true hm]
    cases ntf <;> rfl
  rw [hpy]
  unfold mlNoiseShape
  rw [if_neg (by simp only [not_not]; exact ⟨by exact_mod_cast hb, hv, h1, h5⟩)]
  simp only [hc, Int.toNat_natCast]
  by_cases hz : (ntfCoeffs order ntf).1 = [] ∨ (ntfCoeffs order ntf).2.getD 0 0 = 0
  · rw [if_pos hz, if_pos hz]
    rfl
  · rw [if_neg hz, if_neg hz]
    rw [not_or] at hz
    show some _ = some _
    congr 1
    funext i
    rw [qerr_same, filter_same _ _ _ hz.2]

/-- A case: 3 bits over [0, 1], first order, first sample of the constant 0.3: both return 0.25. -/
example : (mlNoiseShape (fun _ => 3 / 10) 3 0 1 1 .default).map (fun y => y 0) = some (1 / 4) := by
  have hf : ⌊((3 : ℝ) / 10 - 0) / ((1 - 0) / 2 ^ 3)⌋ = 2 := by
    rw [Int.floor_eq_iff]
    norm_num
  unfold mlNoiseShape
  rw [if_neg (by norm_num)]
  simp only [mlNtf, show Int.toNat 3 = 3 from rfl, show Int.toNat 1 = 1 from rfl, hf]
  rw [if_neg (by simp [List.range_succ])]
  simp only [Option.map_some, mlFilter, mlFilterState]
  norm_num [List.range_succ]

/-- Without a signal both generate the same sine. -/
theorem C128_sine (g : Gen) (i : ℕ) : g.resolve none i = mlShapeSine g.fs g.fin g.a g.dc i := rfl

/-- **C128 (refuted: refusals).** `noiseshape.m` refuses a range that does not increase, no bits, and an order outside 1 to 5 even when a transfer function is given;
`apply_noise_shaping` refuses none of these. An empty numerator is the default transfer function in `noiseshape.m` and an error in Python. -/
theorem C128_refusals (g : Gen) (input : Option (ℕ → ℝ)) :
    (∀ bits vmin vmax order ntf, vmax ≤ vmin → mlNoiseShape (g.resolve input) bits vmin vmax order ntf = none) ∧
    (∀ (bits : ℕ) vmin vmax, ∃ y, g.noiseShaping input bits vmin vmax 1 .default = .ok y) ∧
    (∀ vmin vmax order ntf, mlNoiseShape (g.resolve input) 0 vmin vmax order ntf = none) ∧
    (∀ bits vmin vmax order ntf, order < 1 ∨ 5 < order → mlNoiseShape (g.resolve input) bits vmin vmax order ntf = none) ∧
    (∀ (bits : ℕ) vmin vmax order num, num ≠ [] → ∃ y, g.noiseShaping input bits vmin vmax order (.fir num) = .ok y) ∧
    (∀ (bits : ℕ) vmin vmax order, g.noiseShaping input bits vmin vmax order (.fir []) = .error .valueError) ∧
    (∀ bits vmin vmax order, mlNoiseShape (g.resolve input) bits vmin vmax order (.fir []) = mlNoiseShape (g.resolve input) bits vmin vmax order .default) := by
  refine ⟨fun bits vmin vmax order ntf h => ?_, fun bits vmin vmax => ?_, fun vmin vmax order ntf => ?_, fun bits vmin vmax order ntf h => ?_, fun bits vmin vmax order num h => ?_,
    fun bits vmin vmax order => ?_, fun bits vmin vmax order => ?_⟩
  · unfold mlNoiseShape
    rw [if_pos fun h' => absurd h'.2.1 (not_lt.mpr h)]
  · obtain ⟨y, hy, -⟩ := C55_default g input bits vmin vmax 1 (le_refl _) (by norm_num)
    exact ⟨y, hy⟩
  · unfold mlNoiseShape
    rw [if_pos fun h' => absurd h'.1 (lt_irrefl _)]
  · unfold mlNoiseShape
    rw [if_pos fun h' => by rcases h with h | h <;> omega]
  · obtain ⟨⟨y, hy, -⟩, he⟩ := C55_custom g input bits vmin vmax order num [1] h (by simp)
    exact ⟨y, by rw [he, hy]⟩
  · unfold Gen.noiseShaping
    cases decide (order ∈ [(1 : ℤ), 2, 3, 4, 5]) <;> simp [ntfCoeffs]
  · rfl

end Verif
