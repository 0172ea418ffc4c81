import Verif.Model.SineImpair
import Mathlib.Tactic.Linarith
import Mathlib.Tactic.LinearCombination
import Mathlib.Tactic.Ring
import Mathlib.Tactic.FieldSimp
import Mathlib.Tactic.Positivity

/-! # What the sample formulas of the MATLAB sine data generators do to the signal

Property C167. -/

namespace Verif

open Model

private theorem settle_factor (tTrack tau k v : ℝ) (ht : 0 < tTrack) (htau : 0 < tau) (hk : 0 ≤ k) :
    0 < Real.exp (-tTrack / tauDynamic tau k v) ∧ Real.exp (-tTrack / tauDynamic tau k v) < 1 := by
  have h : 0 < tauDynamic tau k v := by unfold tauDynamic; positivity
  refine ⟨Real.exp_pos _, (Real.exp_lt_exp.mpr ?_).trans_eq Real.exp_zero⟩
  exact div_neg_of_neg_of_pos (by linarith) h

/-- **C167 (settling stays in range).** The settling model never leaves the range spanned by its start and the samples it tracks. -/
theorem C167_settle_range (tTrack tau k : ℝ) (ht : 0 < tTrack) (htau : 0 < tau) (hk : 0 ≤ k) (lo hi : ℝ) (vs : List ℝ) (prev : ℝ) (hp : lo ≤ prev ∧ prev ≤ hi)
    (hv : ∀ v ∈ vs, lo ≤ v ∧ v ≤ hi) : (settle tTrack tau k prev vs).length = vs.length ∧ ∀ y ∈ settle tTrack tau k prev vs, lo ≤ y ∧ y ≤ hi := by
  induction vs generalizing prev with
  | nil => simp [settle]
  | cons v vs ih =>
    obtain ⟨e0, e1⟩ := settle_factor tTrack tau k v ht htau hk
    obtain ⟨v0, v1⟩ := hv v List.mem_cons_self
    have hout : lo ≤ v + (prev - v) * Real.exp (-tTrack / tauDynamic tau k v) ∧ v + (prev - v) * Real.exp (-tTrack / tauDynamic tau k v) ≤ hi := by
      generalize Real.exp (-tTrack / tauDynamic tau k v) = e at e0 e1
      constructor
      · nlinarith [mul_nonneg (sub_nonneg.mpr v0) (sub_nonneg.mpr e1.le), mul_nonneg (sub_nonneg.mpr hp.1) e0.le]
      · nlinarith [mul_nonneg (sub_nonneg.mpr v1) (sub_nonneg.mpr e1.le), mul_nonneg (sub_nonneg.mpr hp.2) e0.le]
    obtain ⟨l, r⟩ := ih _ hout fun u hu => hv u (List.mem_cons_of_mem _ hu)
    rw [settle]
    refine ⟨by simp [l], ?_⟩
    intro y hy
    rcases List.mem_cons.mp hy with rfl | hy
    · exact hout
    · exact r y hy

/-- **C167 (settling towards a held input).** While the signal is held, the distance to it shrinks by the same factor at every sample: one exponential over all tracking windows. -/
theorem C167_settle_hold (tTrack tau k prev v : ℝ) (m i : ℕ) (hi : i < m) :
    (settle tTrack tau k prev (List.replicate m v))[i]? = some (v + (prev - v) * Real.exp (-((i : ℝ) + 1) * tTrack / tauDynamic tau k v)) := by
  induction i generalizing prev m with
  | zero =>
    obtain ⟨m, rfl⟩ := Nat.exists_eq_succ_of_ne_zero hi.ne'
    simp [List.replicate_succ, settle]
  | succ i ih =>
    obtain ⟨m, rfl⟩ := Nat.exists_eq_succ_of_ne_zero (Nat.ne_zero_of_lt hi)
    rw [List.replicate_succ, settle, List.getElem?_cons_succ, ih _ m (by omega)]
    congr 1
    have e : v + (prev - v) * Real.exp (-tTrack / tauDynamic tau k v) - v = (prev - v) * Real.exp (-tTrack / tauDynamic tau k v) := by ring
    rw [e, mul_assoc, ← Real.exp_add]
    congr 3
    push_cast
    ring

/-- **C167 (settling is odd).** Turning the signal over turns the output over: the dynamic error has no even part. -/
theorem C167_settle_odd (tTrack tau k prev : ℝ) (vs : List ℝ) : settle tTrack tau k (-prev) (vs.map fun v => -v) = (settle tTrack tau k prev vs).map fun y => -y := by
  induction vs generalizing prev with
  | nil => simp [settle]
  | cons v vs ih =>
    have ht : tauDynamic tau k (-v) = tauDynamic tau k v := by unfold tauDynamic; ring
    have e : -v + (-prev - -v) * Real.exp (-tTrack / tauDynamic tau k (-v)) = -(v + (prev - v) * Real.exp (-tTrack / tauDynamic tau k v)) := by rw [ht]; ring
    rw [List.map_cons, settle, settle, List.map_cons]
    rw [e, ih]

/-- **C167 (settling without the voltage term is linear).** With `k = 0` the output of a weighted sum of two signals is the weighted sum of the outputs: no distortion, only
gain and delay. -/
theorem C167_settle_linear (tTrack tau a b : ℝ) (ps : List (ℝ × ℝ)) (p q : ℝ) :
    settle tTrack tau 0 (a * p + b * q) (ps.map fun s => a * s.1 + b * s.2) =
      List.zipWith (fun x y => a * x + b * y) (settle tTrack tau 0 p (ps.map Prod.fst)) (settle tTrack tau 0 q (ps.map Prod.snd)) := by
  induction ps generalizing p q with
  | nil => simp [settle]
  | cons s ps ih =>
    have ht : ∀ v, tauDynamic tau 0 v = tau := by intro v; unfold tauDynamic; ring
    simp only [List.map_cons, settle, List.zipWith_cons_cons, ht]
    rw [← ih]
    have e : a * s.1 + b * s.2 + (a * p + b * q - (a * s.1 + b * s.2)) * Real.exp (-tTrack / tau) =
        a * (s.1 + (p - s.1) * Real.exp (-tTrack / tau)) + b * (s.2 + (q - s.2) * Real.exp (-tTrack / tau)) := by ring
    rw [e]

/-- **C167 (settling with the voltage term is not).** With `k > 0` it is not: doubling a single non-zero sample from rest does not double the output. -/
theorem C167_settle_nonlinear (tTrack tau k v : ℝ) (ht : 0 < tTrack) (htau : 0 < tau) (hk : 0 < k) (hv : v ≠ 0) :
    settle tTrack tau k 0 [2 * v] ≠ (settle tTrack tau k 0 [v]).map fun y => 2 * y := by
  intro h
  simp only [settle, List.map_cons, List.map_nil, List.cons.injEq, and_true] at h
  have hv2 : 0 < v ^ 2 := by positivity
  have e : Real.exp (-tTrack / tauDynamic tau k (2 * v)) = Real.exp (-tTrack / tauDynamic tau k v) := by
    have h2 : (2 * v) ≠ 0 := by positivity
    apply mul_left_cancel₀ h2
    linarith
  have e := Real.exp_injective e
  have p1 : 0 < tauDynamic tau k v := by unfold tauDynamic; positivity
  have p2 : tauDynamic tau k v < tauDynamic tau k (2 * v) := by
    unfold tauDynamic
    have : k * v ^ 2 < k * (2 * v) ^ 2 := by nlinarith [mul_pos hk hv2]
    nlinarith
  rw [div_eq_div_iff (by linarith) p1.ne'] at e
  nlinarith

/-- **C167 (static curve).** The polynomial puts exactly these harmonics on a sine of amplitude `A`. -/
theorem C167_static (k1 k2 k3 k4 k5 A θ : ℝ) :
    staticNonlin k1 k2 k3 k4 k5 (A * Real.sin θ) =
      (k2 * A ^ 2 / 2 + 3 * k4 * A ^ 4 / 8) + (k1 * A + 3 * k3 * A ^ 3 / 4 + 5 * k5 * A ^ 5 / 8) * Real.sin θ - (k2 * A ^ 2 / 2 + k4 * A ^ 4 / 2) * Real.cos (2 * θ) -
        (k3 * A ^ 3 / 4 + 5 * k5 * A ^ 5 / 16) * Real.sin (3 * θ) + k4 * A ^ 4 / 8 * Real.cos (4 * θ) + k5 * A ^ 5 / 16 * Real.sin (5 * θ) := by
  have hc : Real.cos θ ^ 2 = 1 - Real.sin θ ^ 2 := by linarith [Real.sin_sq_add_cos_sq θ]
  have c2 : Real.cos (2 * θ) = 1 - 2 * Real.sin θ ^ 2 := by rw [Real.cos_two_mul, hc]; ring
  have c4 : Real.cos (4 * θ) = 2 * Real.cos (2 * θ) ^ 2 - 1 := by rw [← Real.cos_two_mul]; congr 1; ring
  have s3 := Real.sin_three_mul θ
  have s5 : Real.sin (5 * θ) = Real.sin (3 * θ) * Real.cos (2 * θ) + Real.cos (3 * θ) * Real.sin (2 * θ) := by rw [← Real.sin_add]; congr 1; ring
  have c3 : Real.cos (3 * θ) * Real.sin (2 * θ) = (4 * Real.cos θ ^ 2 - 3) * (2 * Real.sin θ) * Real.cos θ ^ 2 := by rw [Real.cos_three_mul, Real.sin_two_mul]; ring
  rw [s5, c3, s3, c4, c2, hc]
  unfold staticNonlin
  ring

/-- **C167 (drift).** The drift starts at nothing, only grows, and within the record stays below `amp (1 - e⁻¹⁰)`. -/
theorem C167_drift (n : ℕ) (amp : ℝ) (hamp : 0 < amp) : driftSample n amp 0 = 0 ∧ (∀ i j, 0 < n → i < j → driftSample n amp i < driftSample n amp j) ∧
    ∀ i, i < n → driftSample n amp i < amp * (1 - Real.exp (-10)) := by
  have mono : ∀ i j : ℕ, 0 < n → i < j → driftSample n amp i < driftSample n amp j := by
    intro i j hn hij
    have hnR : (0 : ℝ) < n := by exact_mod_cast hn
    have hR : (i : ℝ) < j := by exact_mod_cast hij
    have h : -(j : ℝ) / n * 10 < -(i : ℝ) / n * 10 := by
      have := div_lt_div_of_pos_right (neg_lt_neg hR) hnR
      linarith
    have := Real.exp_lt_exp.mpr h
    unfold driftSample
    nlinarith
  refine ⟨by simp [driftSample], mono, ?_⟩
  intro i hi
  have hn : 0 < n := by omega
  have hnR : (n : ℝ) ≠ 0 := by exact_mod_cast hn.ne'
  have h := mono i n hn hi
  have e : driftSample n amp n = amp * (1 - Real.exp (-10)) := by
    unfold driftSample
    rw [neg_div, div_self hnR]
    ring_nf
  rwa [e] at h

/-- **C167 (amplitude tone).** The modulation leaves the carrier alone and adds two lines, each `m / 2` of the carrier, at the sum and the difference of the frequencies. -/
theorem C167_am_tone (A m a b : ℝ) : amToneSample A m a b = A * Real.sin a + m / 2 * A * Real.cos (a - b) - m / 2 * A * Real.cos (a + b) := by
  rw [Real.cos_sub, Real.cos_add]
  unfold amToneSample
  ring

/-- **C167 (clipping).** For a threshold up to one half the output is the nearest point to the signal in `[th, 1 - th]`. -/
theorem C167_clip (th sig : ℝ) (hth : th ≤ 1 / 2) : (th ≤ clipSample th sig ∧ clipSample th sig ≤ 1 - th) ∧ ∀ y, th ≤ y → y ≤ 1 - th → |clipSample th sig - sig| ≤ |y - sig| := by
  unfold clipSample
  constructor
  · exact ⟨le_min (le_max_right _ _) (by linarith), min_le_right _ _⟩
  · intro y h1 h2
    rcases le_total sig th with h | h
    · rw [max_eq_right h, min_eq_left (by linarith), abs_of_nonneg (by linarith), abs_of_nonneg (by linarith)]
      linarith
    · rw [max_eq_left h]
      rcases le_total sig (1 - th) with h' | h'
      · rw [min_eq_left h', sub_self, abs_zero]
        exact abs_nonneg _
      · rw [min_eq_right h', abs_of_nonpos (by linarith), abs_of_nonpos (by linarith)]
        linarith

/-- **C167 (glitch).** A sample is either untouched or a tenth higher, and which does not depend on the signal; with probability 0 none is, with probability 1 all are (`rand` is in
`(0, 1)`). -/
theorem C167_glitch (p u sig : ℝ) (hu : 0 < u ∧ u < 1) : (glitchSample p u sig = sig ↔ p ≤ u) ∧ (glitchSample p u sig = sig + 1 / 10 ↔ u < p) ∧ glitchSample 0 u sig = sig ∧
    glitchSample 1 u sig = sig + 1 / 10 := by
  unfold glitchSample
  refine ⟨?_, ?_, ?_, ?_⟩
  · split_ifs with h
    · constructor
      · intro h'; linarith
      · intro h'; linarith
    · simp only [zero_mul, add_zero, true_iff]; exact not_lt.mp h
  · split_ifs with h
    · simp [h]
    · constructor
      · intro h'; linarith
      · intro h'; exact absurd h' h
  · rw [if_neg (by linarith [hu.1])]; ring
  · rw [if_pos hu.2]; ring

/-- **C167 (names).** The number in a file name is within half a unit of its last digit; so a value below that half is called zero. -/
theorem C167_name (p : ℕ) (x : ℚ) : |nameValue p x - x| ≤ 1 / 2 / 10 ^ p ∧ (0 ≤ x → x < 1 / 2 / 10 ^ p → nameValue p x = 0) := by
  have hp : (0 : ℚ) < 10 ^ p := by positivity
  unfold nameValue
  constructor
  · have h := abs_sub_round (x * 10 ^ p)
    have e : (round (x * 10 ^ p) : ℚ) / 10 ^ p - x = -((x * 10 ^ p - round (x * 10 ^ p)) / 10 ^ p) := by field_simp; ring
    rw [e, abs_neg, abs_div, abs_of_pos hp]
    exact div_le_div_of_nonneg_right h hp.le
  · intro h0 h1
    have h2 : x * 10 ^ p < 1 / 2 := (lt_div_iff₀ hp).mp h1
    have h3 : 0 ≤ x * 10 ^ p := by positivity
    have : round (x * 10 ^ p) = 0 := by
      rw [round_eq, Int.floor_eq_iff]
      push_cast
      constructor <;> linarith
    rw [this]
    simp

/-- **C167 (names in the scripts).** Two of the scripts name a value by another one: the amplitude noise `0.0005` and the reference error `0.00075` are both called `0.001`. -/
theorem C167_name_scripts : nameValue 3 (5 / 10000) = 1 / 1000 ∧ nameValue 3 (75 / 100000) = 1 / 1000 ∧ nameValue 4 (99 / 100) = 99 / 100 := by
  decide +kernel

/-! ## Examples -/

/-- The script's settling values on two samples. -/
example : ∀ y ∈ settle (8 / 100) (4 / 100) (15 / 100) 0 [49 / 100, -49 / 100], -(49 / 100) ≤ y ∧ y ≤ 49 / 100 := by
  refine (C167_settle_range _ _ _ (by norm_num) (by norm_num) (by norm_num) (-(49 / 100)) (49 / 100) _ 0 (by norm_num) ?_).2
  intro v hv
  simp only [List.mem_cons, List.not_mem_nil, or_false] at hv
  rcases hv with rfl | rfl <;> norm_num

/-- Clipping at 0.0112. -/
example : clipSample (112 / 10000) 1 = 1 - 112 / 10000 ∧ clipSample (112 / 10000) (1 / 2) = 1 / 2 := by
  unfold clipSample
  constructor
  · rw [max_eq_left (by norm_num), min_eq_right (by norm_num)]
  · rw [max_eq_left (by norm_num), min_eq_left (by norm_num)]

/-- The third-order curve of the script, `k3 = 0.008`. -/
example (θ : ℝ) : staticNonlin 1 0 (8 / 1000) 0 0 (49 / 100 * Real.sin θ) =
    (49 / 100 + 3 * (8 / 1000) * (49 / 100) ^ 3 / 4) * Real.sin θ - 8 / 1000 * (49 / 100) ^ 3 / 4 * Real.sin (3 * θ) := by
  rw [C167_static]
  ring

end Verif
