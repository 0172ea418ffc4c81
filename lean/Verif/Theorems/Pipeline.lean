import Verif.Model.SigGen
import Mathlib.Analysis.SpecialFunctions.Trigonometric.Bounds
import Mathlib.Tactic.LinearCombination
import Mathlib.Tactic.FieldSimp

/-!
# C68, C69, C71: two-stage gain error, amplitude modulation, jitter and glitches
-/

namespace Verif

open Model

/-! ## Two-stage conversion -/

/-- Plain truncation to `bits` fractional bits. -/
noncomputable def truncBits (x : ℝ) (bits : ℕ) : ℝ := ⌊x * 2 ^ bits⌋ / 2 ^ bits

theorem truncBits_bounds (x : ℝ) (bits : ℕ) : truncBits x bits ≤ x ∧ x < truncBits x bits + 1 / 2 ^ bits := by
  have hp : (0 : ℝ) < 2 ^ bits := by positivity
  unfold truncBits
  constructor
  · rw [div_le_iff₀ hp]
    exact Int.floor_le _
  · rw [← add_div, lt_div_iff₀ hp]
    exact Int.lt_floor_add_one _

private theorem two_stage (x : ℝ) (m l : ℕ) : stageFloor x m + stageFloor (x - stageFloor x m) l = truncBits x (max m l) := by
  have hm : (0 : ℝ) < 2 ^ m := by positivity
  have hl : (0 : ℝ) < 2 ^ l := by positivity
  unfold stageFloor truncBits
  rcases le_or_gt m l with h | h
  · rw [max_eq_right h]
    obtain ⟨d, rfl⟩ := Nat.exists_eq_add_of_le h
    have e : (x - (⌊x * 2 ^ m⌋ : ℝ) / 2 ^ m) * 2 ^ (m + d) = x * 2 ^ (m + d) - ((⌊x * 2 ^ m⌋ * 2 ^ d : ℤ) : ℝ) := by
      push_cast
      rw [pow_add]
      field_simp
    rw [e, Int.floor_sub_intCast]
    push_cast
    rw [pow_add]
    field_simp
    ring
  · rw [max_eq_left h.le]
    have h0 : ⌊(x - (⌊x * 2 ^ m⌋ : ℝ) / 2 ^ m) * 2 ^ l⌋ = 0 := by
      rw [Int.floor_eq_zero_iff]
      have hb := truncBits_bounds x m
      unfold truncBits at hb
      have hlt : (2 : ℝ) ^ l ≤ 2 ^ m := pow_le_pow_right₀ (by norm_num) h.le
      constructor
      · exact mul_nonneg (by linarith [hb.1]) hl.le
      · have : x - (⌊x * 2 ^ m⌋ : ℝ) / 2 ^ m < 1 / 2 ^ m := by linarith [hb.2]
        calc (x - (⌊x * 2 ^ m⌋ : ℝ) / 2 ^ m) * 2 ^ l < 1 / 2 ^ m * 2 ^ l := mul_lt_mul_of_pos_right this hl
          _ ≤ 1 / 2 ^ m * 2 ^ m := mul_le_mul_of_nonneg_left hlt (by positivity)
          _ = 1 := by field_simp
    rw [h0]
    simp

/-- **C68.** Around the offset, both modes give plain truncation at the finer of the two resolutions plus `gain - 1` times the coarse part, or
times the residue, which is between zero and one coarse step. With unit gain the two modes agree and only truncate. An unknown mode raises `ValueError`. -/
theorem C68_gain_error (g : Gen) (input : Option (ℕ → ℝ)) (gain : ℝ) (m l : ℕ) :
    (∃ y, g.raGainError input gain m l .coarsePath = .ok y ∧ ∀ i, y i - g.dc =
      truncBits (g.resolve input i - g.dc) (max m l) + (gain - 1) * truncBits (g.resolve input i - g.dc) m) ∧
    (∃ y, g.raGainError input gain m l .residuePath = .ok y ∧ ∀ i, ∃ res, 0 ≤ res ∧ res < 1 / 2 ^ m ∧
      res = truncBits (g.resolve input i - g.dc) (max m l) - truncBits (g.resolve input i - g.dc) m ∧
      y i - g.dc = truncBits (g.resolve input i - g.dc) (max m l) + (gain - 1) * res) ∧
    g.raGainError input gain m l .other = .error .valueError := by
  refine ⟨⟨_, rfl, fun i => ?_⟩, ⟨_, rfl, fun i => ?_⟩, rfl⟩
  · simp only
    rw [← two_stage]
    unfold truncBits stageFloor
    ring
  · set x := g.resolve input i - g.dc with hx
    have h2 := two_stage x m l
    have hs : stageFloor x m = truncBits x m := rfl
    refine ⟨stageFloor (x - stageFloor x m) l, ?_, ?_, by rw [← h2, hs]; ring, by simp only; rw [← h2, ← hx]; ring⟩
    · have hb := truncBits_bounds x m
      unfold stageFloor at hs ⊢
      apply div_nonneg _ (by positivity)
      have : 0 ≤ ⌊(x - (⌊x * 2 ^ m⌋ : ℝ) / 2 ^ m) * 2 ^ l⌋ := by
        apply Int.floor_nonneg.mpr
        apply mul_nonneg _ (by positivity)
        rw [hs]
        linarith [hb.1]
      exact_mod_cast this
    · have hb := truncBits_bounds x m
      have hb2 := truncBits_bounds (x - stageFloor x m) l
      have : stageFloor (x - stageFloor x m) l = truncBits (x - stageFloor x m) l := rfl
      rw [this]
      rw [hs] at hb2 ⊢
      linarith [hb.2, hb2.1]

/-- **C68 (dynamic gain).** Without the cubic coefficient the dynamic model is the static one, in every mode. -/
theorem C68_dynamic (g : Gen) (input : Option (ℕ → ℝ)) (gain : ℝ) (m l : ℕ) (mode : GainMode) :
    g.raGainErrorDynamic input gain 0 m l mode = g.raGainError input gain m l mode := by
  cases mode with
  | other => rfl
  | coarsePath =>
    unfold Gen.raGainErrorDynamic Gen.raGainError gainStep
    simp
  | residuePath =>
    unfold Gen.raGainErrorDynamic Gen.raGainError gainStep
    simp

/-- **C68 (state).** The gain seen by sample `i` is `gain + c3 · s²` where the state `s` is zero for the first sample and afterwards the previous
output around the offset (coarse mode) or the previous amplified residue (residue mode). -/
theorem C68_dynamic_state (g : Gen) (input : Option (ℕ → ℝ)) (gain c3 : ℝ) (m l : ℕ) :
    (∃ y, g.raGainErrorDynamic input gain c3 m l .coarsePath = .ok y ∧ ∀ i, y i - g.dc = truncBits (g.resolve input i - g.dc) (max m l)
        + (gain + c3 * (if i = 0 then 0 else y (i - 1) - g.dc) ^ 2 - 1) * truncBits (g.resolve input i - g.dc) m) ∧
    (∃ y, g.raGainErrorDynamic input gain c3 m l .residuePath = .ok y ∧ ∀ i, y i - g.dc = truncBits (g.resolve input i - g.dc) m
        + (gain + c3 * (if i = 0 then 0 else y (i - 1) - g.dc - truncBits (g.resolve input (i - 1) - g.dc) m) ^ 2)
          * (truncBits (g.resolve input i - g.dc) (max m l) - truncBits (g.resolve input i - g.dc) m)) := by
  constructor
  · refine ⟨_, rfl, fun i => ?_⟩
    have hs : ∀ x : ℝ, stageFloor x m = truncBits x m := fun _ => rfl
    cases i with
    | zero =>
      simp only [gainStep, gainState, decide_true, if_true]
      rw [← two_stage, hs]
      ring
    | succ i =>
      simp only [gainStep, gainState, decide_true, if_true, Nat.add_sub_cancel, Nat.succ_ne_zero, if_false]
      rw [← two_stage, hs]
      ring
  · refine ⟨_, rfl, fun i => ?_⟩
    have hs : ∀ x : ℝ, stageFloor x m = truncBits x m := fun _ => rfl
    cases i with
    | zero =>
      simp only [gainStep, gainState]
      rw [← two_stage, hs]
      simp
      ring
    | succ i =>
      simp only [gainStep, gainState, Nat.add_sub_cancel, Nat.succ_ne_zero, if_false]
      rw [← two_stage, hs]
      simp [hs]
      ring

/-- **C68 (memory effect).** Plain 12-bit truncation plus `strength` times the 4-bit coarse value of the previous sample; the first sample uses the
last sample of the record. -/
theorem C68_memory (g : Gen) (input : Option (ℕ → ℝ)) (strength : ℝ) (i : ℕ) : g.memoryEffect input strength i =
    truncBits (g.resolve input i) 12 + strength * truncBits (g.resolve input (if i = 0 then g.n - 1 else i - 1)) 4 := by
  have := two_stage (g.resolve input i) 4 12
  rw [show max 4 12 = 12 by norm_num] at this
  rw [← this]
  rfl

/-! ## Amplitude modulation -/

/-- **C69 (sidebands).** Modulating the generator's sine by a tone gives the carrier and two sidebands of exactly half the modulation depth at the sum
and difference frequencies. -/
theorem C69_sidebands (g : Gen) (freq depth : ℝ) (i : ℕ) : g.amTone none freq depth i = g.dc + g.a * Real.sin (2 * Real.pi * g.fin * g.t i)
    + g.a * depth / 2 * Real.cos (2 * Real.pi * (g.fin - freq) * g.t i) - g.a * depth / 2 * Real.cos (2 * Real.pi * (g.fin + freq) * g.t i) := by
  unfold Gen.amTone
  simp only [Gen.resolve, Gen.base]
  have e1 : 2 * Real.pi * (g.fin - freq) * g.t i = 2 * Real.pi * g.fin * g.t i - 2 * Real.pi * freq * g.t i := by ring
  have e2 : 2 * Real.pi * (g.fin + freq) * g.t i = 2 * Real.pi * g.fin * g.t i + 2 * Real.pi * freq * g.t i := by ring
  rw [e1, e2, Real.cos_sub, Real.cos_add]
  ring

/-- **C69 (bounds).** For every record the deviation from the offset is scaled by a factor between `1 - |depth|` and `1 + |depth|`, and samples at the
offset stay there; random modulation scales it by `1 + strength · z`. -/
theorem C69_envelope (g : Gen) (input : Option (ℕ → ℝ)) (freq depth strength : ℝ) (z : ℕ → ℝ) (i : ℕ) :
    (∃ m, 1 - |depth| ≤ m ∧ m ≤ 1 + |depth| ∧ g.amTone input freq depth i - g.dc = m * (g.resolve input i - g.dc)) ∧
    g.amTone input freq 0 i = g.resolve input i ∧
    g.amNoise input strength z i - g.resolve input i = strength * z i * (g.resolve input i - g.dc) := by
  refine ⟨⟨1 + depth * Real.sin (2 * Real.pi * freq * g.t i), ?_, ?_, ?_⟩, ?_, ?_⟩
  · have h : |depth * Real.sin (2 * Real.pi * freq * g.t i)| ≤ |depth| := by
      rw [abs_mul]
      exact mul_le_of_le_one_right (abs_nonneg _) (Real.abs_sin_le_one _)
    linarith [neg_abs_le (depth * Real.sin (2 * Real.pi * freq * g.t i))]
  · have h : |depth * Real.sin (2 * Real.pi * freq * g.t i)| ≤ |depth| := by
      rw [abs_mul]
      exact mul_le_of_le_one_right (abs_nonneg _) (Real.abs_sin_le_one _)
    linarith [le_abs_self (depth * Real.sin (2 * Real.pi * freq * g.t i))]
  · unfold Gen.amTone
    ring
  · unfold Gen.amTone
    ring
  · unfold Gen.amNoise
    ring

/-! ## Jitter and glitches -/

/-- **C71 (jitter).** A time error `τ` moves a sample of the clean sine by at most `2π·|Fin|·|A|·|τ|`, never beyond the amplitude, and not at all for
`τ = 0`. -/
theorem C71_jitter (g : Gen) (tj : ℕ → ℝ) (i : ℕ) : |g.jitter tj i - g.base i| ≤ 2 * Real.pi * |g.fin| * |g.a| * |tj i| ∧ |g.jitter tj i - g.dc| ≤ |g.a| ∧
    (tj i = 0 → g.jitter tj i = g.base i) := by
  refine ⟨?_, ?_, ?_⟩
  · have e : g.jitter tj i - g.base i = g.a * (Real.sin (2 * Real.pi * g.fin * (g.t i + tj i)) - Real.sin (2 * Real.pi * g.fin * g.t i)) := by
      unfold Gen.jitter Gen.base
      ring
    rw [e, abs_mul]
    have h := Real.abs_sin_sub_sin_le (2 * Real.pi * g.fin * (g.t i + tj i)) (2 * Real.pi * g.fin * g.t i)
    have e2 : 2 * Real.pi * g.fin * (g.t i + tj i) - 2 * Real.pi * g.fin * g.t i = 2 * Real.pi * g.fin * tj i := by ring
    rw [e2, abs_mul, abs_mul, abs_of_pos (by positivity : 0 < 2 * Real.pi)] at h
    calc |g.a| * _ ≤ |g.a| * (2 * Real.pi * |g.fin| * |tj i|) := mul_le_mul_of_nonneg_left h (abs_nonneg _)
      _ = _ := by ring
  · unfold Gen.jitter
    rw [add_sub_cancel_right, abs_mul]
    exact mul_le_of_le_one_right (abs_nonneg _) (Real.abs_sin_le_one _)
  · intro h
    unfold Gen.jitter Gen.base
    rw [h, add_zero]

/-- **C71 (glitches).** Every sample is either untouched or raised by exactly the amplitude; with draws in `[0, 1)` a probability of 0 touches no sample
and a probability of 1 every sample. -/
theorem C71_glitch (g : Gen) (input : Option (ℕ → ℝ)) (prob amp : ℝ) (u : ℕ → ℝ) (i : ℕ) (hu0 : 0 ≤ u i) (hu1 : u i < 1) :
    (g.glitch input prob amp u i = g.resolve input i ∨ g.glitch input prob amp u i = g.resolve input i + amp) ∧
    (prob ≤ 0 → g.glitch input prob amp u i = g.resolve input i) ∧ (1 ≤ prob → g.glitch input prob amp u i = g.resolve input i + amp) := by
  unfold Gen.glitch
  refine ⟨?_, fun h => ?_, fun h => ?_⟩
  · by_cases h : u i < prob
    · rw [if_pos h]; right; ring
    · rw [if_neg h]; left; ring
  · rw [if_neg (by linarith)]; ring
  · rw [if_pos (by linarith)]; ring

/-! ### Concrete cases -/

example : ∃ y, (Gen.mk 4 1 0 0 0).raGainError (some fun _ => 3 / 4) (99 / 100) 1 2 .coarsePath = .ok y ∧ y 0 = 3 / 4 - 1 / 200 := by
  obtain ⟨y, hy, h⟩ := (C68_gain_error (Gen.mk 4 1 0 0 0) (some fun _ => 3 / 4) (99 / 100) 1 2).1
  refine ⟨y, hy, ?_⟩
  have := h 0
  have f1 : ⌊(3 / 4 : ℝ) * 2 ^ 2⌋ = 3 := by rw [show (3 / 4 : ℝ) * 2 ^ 2 = ((3 : ℤ) : ℝ) by norm_num, Int.floor_intCast]
  have f2 : ⌊(3 / 4 : ℝ) * 2 ^ 1⌋ = 1 := by rw [Int.floor_eq_iff]; norm_num
  simp only [sub_zero, Gen.resolve, truncBits, show max 1 2 = 2 by norm_num, f1, f2] at this
  rw [this]
  norm_num

example : |(Gen.mk 4 1000 10 1 0).jitter (fun _ => 1 / 1000000) 2 - (Gen.mk 4 1000 10 1 0).base 2| ≤ 2 * Real.pi * |(10 : ℝ)| * |(1 : ℝ)| * |(1 / 1000000 : ℝ)| :=
  (C71_jitter (Gen.mk 4 1000 10 1 0) (fun _ => 1 / 1000000) 2).1

end Verif
