import Verif.Model.SigGen
import Verif.Proofs.Harmonics
import Mathlib.Tactic.LinearCombination
import Mathlib.Tactic.FieldSimp

/-!
# C54: harmonic distortion levels
-/

namespace Verif

open Model

/-! ## Specification -/

/-- Amplitude ratio of a level in dB; an absent level is no distortion. -/
noncomputable def levelRatio (db : Option ℝ) : ℝ :=
  match db with
  | none => 0
  | some v => 10 ^ (v / 20)

/-- The record is, around the offset `dc`, a sum of the fundamental and its harmonics up to order 5 of the phase `θ i`: `p k` and `q k` are the
cosine and sine amplitudes of the `k`-th harmonic. -/
def HasHarmonics (y θ : ℕ → ℝ) (dc : ℝ) (p q : ℕ → ℝ) : Prop :=
  ∀ i, y i = dc + ∑ k ∈ Finset.range 6, (p k * Real.cos (k * θ i) + q k * Real.sin (k * θ i))

/-- Peak amplitude of the `k`-th harmonic. -/
noncomputable def harmonicAmp (p q : ℕ → ℝ) (k : ℕ) : ℝ := Real.sqrt (p k ^ 2 + q k ^ 2)

/-- The phase of the generator's clean sine. -/
noncomputable def genPhase (g : Gen) (i : ℕ) : ℝ := 2 * Real.pi * g.fin * (i / g.fs)

/-! ## Theorems -/

/-- The coefficient that a level stands for. -/
theorem dbToK_ok (g : Gen) (ha : g.a ≠ 0) (db : Option ℝ) (k : ℕ) : g.dbToK db k = .ok (2 ^ (k - 1) * levelRatio db / g.a ^ (k - 1)) := by
  cases db with
  | none => simp [Gen.dbToK, levelRatio]
  | some v => simp [Gen.dbToK, levelRatio, ha]

/-- The static nonlinearity as a polynomial. -/
theorem nonlin_eq (g : Gen) (input : Option (ℕ → ℝ)) (k2 k3 k4 k5 : ℝ) (i : ℕ) : g.staticNonlin input k2 k3 k4 k5 i =
    (g.resolve input i - g.dc) + k2 * (g.resolve input i - g.dc) ^ 2 + k3 * (g.resolve input i - g.dc) ^ 3 + k4 * (g.resolve input i - g.dc) ^ 4
      + k5 * (g.resolve input i - g.dc) ^ 5 + g.dc := by
  unfold Gen.staticNonlin
  by_cases h2 : k2 = 0 <;> by_cases h3 : k3 = 0 <;> by_cases h4 : k4 = 0 <;> by_cases h5 : k5 = 0 <;> simp [h2, h3, h4, h5] <;> ring

theorem cos_four (θ : ℝ) : Real.cos (4 * θ) = 8 * Real.cos θ ^ 4 - 8 * Real.cos θ ^ 2 + 1 := by
  rw [show (4 : ℝ) * θ = 2 * (2 * θ) by ring, Real.cos_two_mul, Real.cos_two_mul]; ring

theorem sin_five (θ : ℝ) : Real.sin (5 * θ) = 16 * Real.sin θ ^ 5 - 20 * Real.sin θ ^ 3 + 5 * Real.sin θ := by
  have h : Real.cos θ ^ 2 = 1 - Real.sin θ ^ 2 := by linarith [Real.sin_sq_add_cos_sq θ]
  rw [show (5 : ℝ) * θ = 2 * θ + 3 * θ by ring, Real.sin_add, Real.sin_two_mul, Real.cos_two_mul, Real.sin_three_mul, Real.cos_three_mul]
  have e : 2 * Real.sin θ * Real.cos θ * (4 * Real.cos θ ^ 3 - 3 * Real.cos θ) + (2 * Real.cos θ ^ 2 - 1) * (3 * Real.sin θ - 4 * Real.sin θ ^ 3) =
      2 * Real.sin θ * (4 * (Real.cos θ ^ 2) ^ 2 - 3 * Real.cos θ ^ 2) + (2 * Real.cos θ ^ 2 - 1) * (3 * Real.sin θ - 4 * Real.sin θ ^ 3) := by ring
  rw [e, h]
  ring

/-- **C54 (all levels together).** Applied to the generator's own sine, the distorted record is exactly the stated sum of harmonics, for every
combination of levels. -/
theorem C54_expansion (g : Gen) (ha : g.a ≠ 0) (hd2 hd3 hd4 hd5 : Option ℝ) : ∃ y, g.staticNonlinHd none hd2 hd3 hd4 hd5 = .ok y ∧
    HasHarmonics y (genPhase g) g.dc
      (fun k => if k = 0 then g.a * (levelRatio hd2 + 3 * levelRatio hd4) else if k = 2 then -(g.a * (levelRatio hd2 + 4 * levelRatio hd4))
        else if k = 4 then g.a * levelRatio hd4 else 0)
      (fun k => if k = 1 then g.a * (1 + 3 * levelRatio hd3 + 10 * levelRatio hd5) else if k = 3 then -(g.a * (levelRatio hd3 + 5 * levelRatio hd5))
        else if k = 5 then g.a * levelRatio hd5 else 0) := by
  refine ⟨g.staticNonlin none (2 ^ (2 - 1) * levelRatio hd2 / g.a ^ (2 - 1)) (2 ^ (3 - 1) * levelRatio hd3 / g.a ^ (3 - 1))
    (2 ^ (4 - 1) * levelRatio hd4 / g.a ^ (4 - 1)) (2 ^ (5 - 1) * levelRatio hd5 / g.a ^ (5 - 1)), ?_, ?_⟩
  · unfold Gen.staticNonlinHd
    rw [dbToK_ok g ha hd2, dbToK_ok g ha hd3, dbToK_ok g ha hd4, dbToK_ok g ha hd5]
    rfl
  · intro i
    rw [nonlin_eq]
    have hb : g.resolve none i - g.dc = g.a * Real.sin (genPhase g i) := by
      unfold Gen.resolve Gen.base genPhase Gen.t
      ring
    rw [hb]
    set θ := genPhase g i
    have h : Real.cos θ ^ 2 = 1 - Real.sin θ ^ 2 := by linarith [Real.sin_sq_add_cos_sq θ]
    have h4 : Real.cos θ ^ 4 = (1 - Real.sin θ ^ 2) ^ 2 := by rw [← h]; ring
    simp only [Finset.sum_range_succ, Finset.sum_range_zero]
    norm_num
    rw [Real.cos_two_mul, Real.sin_three_mul, cos_four, sin_five, h4, h]
    field_simp
    ring

/-- No alias: no harmonic up to twice the highest order falls on a multiple of the sample rate. -/
def NoAlias (g : Gen) : Prop := ∀ m : ℕ, 0 < m → m ≤ 10 → ∀ z : ℤ, g.fin / g.fs * m ≠ z

/-- Without aliases the harmonic amplitudes are determined by the record. -/
theorem C54_unique (g : Gen) (hg : NoAlias g) (y : ℕ → ℝ) (p q p' q' : ℕ → ℝ) (h : HasHarmonics y (genPhase g) g.dc p q) (h' : HasHarmonics y (genPhase g) g.dc p' q') :
    ∀ k, 1 ≤ k → k ≤ 5 → p k = p' k ∧ q k = q' k := by
  set v : ℕ → ℝ := fun j => if j = 0 then p 0 - p' 0 else if j % 2 = 1 then p ((j + 1) / 2) - p' ((j + 1) / 2) else q (j / 2) - q' (j / 2) with hv
  have key := harmonic_independent (g.fin / g.fs) 5 11 (by norm_num) (fun m h0 h10 => hg m h0 (by omega)) v (by
    intro t _
    have e := (h t).symm.trans (h' t)
    have hθ : 2 * Real.pi * (g.fin / g.fs) * t = genPhase g t := by unfold genPhase; ring
    rw [hθ]
    simp only [Finset.sum_range_succ, Finset.sum_range_zero] at e ⊢
    rw [hv]
    norm_num at e ⊢
    norm_num [show ∀ θ : ℝ, (1 + 1) * θ = 2 * θ from fun θ => by ring, show ∀ θ : ℝ, (2 + 1) * θ = 3 * θ from fun θ => by ring,
      show ∀ θ : ℝ, (3 + 1) * θ = 4 * θ from fun θ => by ring, show ∀ θ : ℝ, (4 + 1) * θ = 5 * θ from fun θ => by ring]
    linarith)
  intro k hk1 hk5
  have h1 := key (2 * k - 1) (by omega)
  have h2 := key (2 * k) (by omega)
  rw [hv] at h1 h2
  simp only at h1 h2
  rw [if_neg (by omega), if_pos (by omega), show (2 * k - 1 + 1) / 2 = k by omega] at h1
  rw [if_neg (by omega), if_neg (by omega), show 2 * k / 2 = k by omega] at h2
  exact ⟨by linarith, by linarith⟩

private theorem amp_unique (g : Gen) (hg : NoAlias g) (y : ℕ → ℝ) (p q p' q' : ℕ → ℝ) (h : HasHarmonics y (genPhase g) g.dc p q) (h' : HasHarmonics y (genPhase g) g.dc p' q')
    (k : ℕ) (h1 : 1 ≤ k) (h5 : k ≤ 5) : harmonicAmp p' q' k = harmonicAmp p q k := by
  obtain ⟨e1, e2⟩ := C54_unique g hg y p q p' q' h h' k h1 h5
  unfold harmonicAmp
  rw [e1, e2]

/-- The record consists of harmonics, and whichever way they are read off it, their amplitudes of orders 1 to 5 are the given ones. -/
def HarmonicAmps (g : Gen) (y : ℕ → ℝ) (amp : ℕ → ℝ) : Prop :=
  (∃ p q, HasHarmonics y (genPhase g) g.dc p q) ∧ ∀ p q, HasHarmonics y (genPhase g) g.dc p q → ∀ k, 1 ≤ k → k ≤ 5 → harmonicAmp p q k = amp k

/-- **C54 (amplitudes).** The harmonic amplitudes for every combination of levels. -/
theorem C54_amplitudes (g : Gen) (ha : 0 < g.a) (hg : NoAlias g) (hd2 hd3 hd4 hd5 : Option ℝ) : ∃ y, g.staticNonlinHd none hd2 hd3 hd4 hd5 = .ok y ∧
    HarmonicAmps g y (fun k => g.a * (if k = 1 then 1 + 3 * levelRatio hd3 + 10 * levelRatio hd5 else if k = 2 then levelRatio hd2 + 4 * levelRatio hd4
      else if k = 3 then levelRatio hd3 + 5 * levelRatio hd5 else if k = 4 then levelRatio hd4 else levelRatio hd5)) := by
  have hr : ∀ db, 0 ≤ levelRatio db := by
    intro db
    cases db with
    | none => exact le_refl _
    | some v => unfold levelRatio; positivity
  have h2 := hr hd2
  have h3 := hr hd3
  have h4 := hr hd4
  have h5 := hr hd5
  obtain ⟨y, hy, hh⟩ := C54_expansion g ha.ne' hd2 hd3 hd4 hd5
  refine ⟨y, hy, ⟨_, _, hh⟩, fun p q hpq k hk1 hk5 => ?_⟩
  rw [amp_unique g hg y _ _ p q hh hpq k hk1 hk5]
  have hsq : ∀ z : ℝ, 0 ≤ z → Real.sqrt (z ^ 2) = z := fun z hz => Real.sqrt_sq hz
  unfold harmonicAmp
  interval_cases k <;> norm_num <;> exact hsq _ (by positivity)

/-- **C54.** With a single level requested, the harmonic of that order has peak amplitude exactly `10^(dB/20)` times the sine amplitude. -/
theorem C54_single_level (g : Gen) (ha : 0 < g.a) (hg : NoAlias g) (v : ℝ) :
    (∃ y amp, g.staticNonlinHd none (some v) none none none = .ok y ∧ HarmonicAmps g y amp ∧ amp 2 = 10 ^ (v / 20) * g.a ∧ amp 1 = g.a ∧ amp 3 = 0 ∧ amp 4 = 0 ∧ amp 5 = 0) ∧
    (∃ y amp, g.staticNonlinHd none none (some v) none none = .ok y ∧ HarmonicAmps g y amp ∧ amp 3 = 10 ^ (v / 20) * g.a ∧ amp 2 = 0 ∧ amp 4 = 0 ∧ amp 5 = 0) ∧
    (∃ y amp, g.staticNonlinHd none none none (some v) none = .ok y ∧ HarmonicAmps g y amp ∧ amp 4 = 10 ^ (v / 20) * g.a ∧ amp 1 = g.a ∧ amp 3 = 0 ∧ amp 5 = 0) ∧
    (∃ y amp, g.staticNonlinHd none none none none (some v) = .ok y ∧ HarmonicAmps g y amp ∧ amp 5 = 10 ^ (v / 20) * g.a ∧ amp 2 = 0 ∧ amp 4 = 0) := by
  refine ⟨?_, ?_, ?_, ?_⟩
  · obtain ⟨y, hy, hh⟩ := C54_amplitudes g ha hg (some v) none none none
    exact ⟨y, _, hy, hh, by simp [levelRatio, mul_comm], by simp [levelRatio], by simp [levelRatio], by simp [levelRatio], by simp [levelRatio]⟩
  · obtain ⟨y, hy, hh⟩ := C54_amplitudes g ha hg none (some v) none none
    exact ⟨y, _, hy, hh, by simp [levelRatio, mul_comm], by simp [levelRatio], by simp [levelRatio], by simp [levelRatio]⟩
  · obtain ⟨y, hy, hh⟩ := C54_amplitudes g ha hg none none (some v) none
    exact ⟨y, _, hy, hh, by simp [levelRatio, mul_comm], by simp [levelRatio], by simp [levelRatio], by simp [levelRatio]⟩
  · obtain ⟨y, hy, hh⟩ := C54_amplitudes g ha hg none none none (some v)
    exact ⟨y, _, hy, hh, by simp [levelRatio, mul_comm], by simp [levelRatio], by simp [levelRatio]⟩

/-- The level is not relative to the distorted fundamental (dBc as measured on a spectrum): with HD3 alone the fundamental grows, and the measured
third-harmonic ratio is `r / (1 + 3 r)` instead of the requested `r`. -/
theorem C54_relative_level_false (g : Gen) (ha : 0 < g.a) (hg : NoAlias g) (v : ℝ) : ∃ y amp, g.staticNonlinHd none none (some v) none none = .ok y ∧
    HarmonicAmps g y amp ∧ amp 3 / amp 1 = (10 : ℝ) ^ (v / 20) / (1 + 3 * 10 ^ (v / 20)) ∧ amp 3 / amp 1 < 10 ^ (v / 20) := by
  have hr : (0 : ℝ) < 10 ^ (v / 20) := by positivity
  obtain ⟨y, hy, hh⟩ := C54_amplitudes g ha hg none (some v) none none
  have e : g.a * (levelRatio (some v) + 5 * levelRatio none) / (g.a * (1 + 3 * levelRatio (some v) + 10 * levelRatio none)) = (10 : ℝ) ^ (v / 20) / (1 + 3 * 10 ^ (v / 20)) := by
    simp only [levelRatio]
    rw [mul_zero, add_zero, mul_zero, add_zero]
    generalize (10 : ℝ) ^ (v / 20) = r at hr ⊢
    field_simp
  refine ⟨y, _, hy, hh, by simpa using e, ?_⟩
  refine lt_of_eq_of_lt (by simpa using e) ?_
  rw [div_lt_iff₀ (by positivity)]
  nlinarith

/-- Levels are not independent: HD2 and HD4 both contribute to the second harmonic, HD3 and HD5 to the third. -/
theorem C54_levels_interact (g : Gen) (ha : 0 < g.a) (hg : NoAlias g) (u v : ℝ) :
    (∃ y amp, g.staticNonlinHd none (some u) none (some v) none = .ok y ∧ HarmonicAmps g y amp ∧ amp 2 = g.a * (10 ^ (u / 20) + 4 * 10 ^ (v / 20))) ∧
    (∃ y amp, g.staticNonlinHd none none (some u) none (some v) = .ok y ∧ HarmonicAmps g y amp ∧ amp 3 = g.a * (10 ^ (u / 20) + 5 * 10 ^ (v / 20))) := by
  constructor
  · obtain ⟨y, hy, hh⟩ := C54_amplitudes g ha hg (some u) none (some v) none
    exact ⟨y, _, hy, hh, by simp [levelRatio]⟩
  · obtain ⟨y, hy, hh⟩ := C54_amplitudes g ha hg none (some u) none (some v)
    exact ⟨y, _, hy, hh, by simp [levelRatio]⟩

/-- **C54 (errors and linearity).** A zero amplitude raises `ZeroDivisionError` as soon as a level is given; without any level the record is
returned unchanged, for every input record. -/
theorem C54_errors (g : Gen) (input : Option (ℕ → ℝ)) (v : ℝ) :
    (g.a = 0 → g.staticNonlinHd input (some v) none none none = .error .zeroDivision ∧ g.staticNonlinHd input none (some v) none none = .error .zeroDivision ∧
      g.staticNonlinHd input none none (some v) none = .error .zeroDivision ∧ g.staticNonlinHd input none none none (some v) = .error .zeroDivision) ∧
    ∃ y, g.staticNonlinHd input none none none none = .ok y ∧ ∀ i, y i = g.resolve input i := by
  constructor
  · intro h
    have e : ∀ k, 2 ≤ k → g.dbToK (some v) k = .error .zeroDivision := by
      intro k hk
      have : g.a ^ (k - 1) = 0 := by rw [h]; exact zero_pow (by omega)
      simp [Gen.dbToK, this]
    have e0 : ∀ k, g.dbToK none k = .ok 0 := fun _ => rfl
    unfold Gen.staticNonlinHd
    rw [e 2 (by norm_num), e 3 (by norm_num), e 4 (by norm_num), e 5 (by norm_num), e0, e0, e0]
    exact ⟨rfl, rfl, rfl, rfl⟩
  · refine ⟨g.staticNonlin input 0 0 0 0, rfl, fun i => ?_⟩
    rw [nonlin_eq]
    ring

/-- A half-amplitude generator with HD2 at -40 dB and 5 periods in 64 samples: the second harmonic is 0.005. -/
example : ∃ y amp, (Gen.mk 64 1 (5 / 64) (1 / 2) (1 / 2)).staticNonlinHd none (some (-40)) none none none = .ok y ∧
    HarmonicAmps ⟨64, 1, 5 / 64, 1 / 2, 1 / 2⟩ y amp ∧ amp 2 = 1 / 200 := by
  have hg : NoAlias ⟨64, 1, 5 / 64, 1 / 2, 1 / 2⟩ := by
    intro m h0 h10 z hz
    have h64 : ((5 * m : ℤ) : ℝ) = ((64 * z : ℤ) : ℝ) := by
      push_cast
      simp only [div_one] at hz
      linarith
    have := Int.cast_injective h64
    omega
  obtain ⟨y, amp, h1, h2, h3, _⟩ := (C54_single_level ⟨64, 1, 5 / 64, 1 / 2, 1 / 2⟩ (by norm_num) hg (-40)).1
  refine ⟨y, amp, h1, h2, h3.trans ?_⟩
  rw [show (-40 : ℝ) / 20 = ((-2 : ℤ) : ℝ) by norm_num, Real.rpow_intCast]
  norm_num

end Verif
