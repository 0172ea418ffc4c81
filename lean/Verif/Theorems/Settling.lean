import Verif.Model.SigGen
import Verif.Theorems.NoiseShaping
import Mathlib.Analysis.SpecificLimits.Basic
import Mathlib.Analysis.SpecialFunctions.Exp

/-!
# C56, C72: incomplete settling and reference droop
-/

namespace Verif

open Model Finset Filter Topology

/-- **C56 (range).** With a positive time constant and non-negative tracking time and curvature, the output at sample `i` lies between any bounds that
contain the starting level (the offset) and all input samples up to `i`. -/
theorem C56_range (g : Gen) (input : Option (ℕ → ℝ)) (tTrack tauNom coeffK : ℝ) (hT : 0 ≤ tTrack) (htau : 0 < tauNom) (hk : 0 ≤ coeffK)
    (i : ℕ) (lo hi : ℝ) (hlo0 : lo ≤ g.dc) (hhi0 : g.dc ≤ hi) (hin : ∀ j ≤ i, lo ≤ g.resolve input j ∧ g.resolve input j ≤ hi) :
    lo ≤ g.incompleteSampling input (some tTrack) tauNom coeffK i ∧ g.incompleteSampling input (some tTrack) tauNom coeffK i ≤ hi := by
  have key : ∀ n, n ≤ i + 1 → lo - g.dc ≤ settleState tTrack tauNom coeffK (fun j => g.resolve input j - g.dc) n ∧
      settleState tTrack tauNom coeffK (fun j => g.resolve input j - g.dc) n ≤ hi - g.dc := by
    intro n
    induction n with
    | zero => intro _; exact ⟨by simp [settleState]; linarith, by simp [settleState]; linarith⟩
    | succ n ih =>
      intro hn
      obtain ⟨h1, h2⟩ := ih (by omega)
      obtain ⟨h3, h4⟩ := hin n (by omega)
      show _ ≤ settleStep _ _ _ _ _ ∧ settleStep _ _ _ _ _ ≤ _
      unfold settleStep
      set v := g.resolve input n - g.dc with hv
      set p := settleState tTrack tauNom coeffK (fun j => g.resolve input j - g.dc) n
      set q := Real.exp (-tTrack / (tauNom * (1 + coeffK * v ^ 2))) with hq
      have hq0 : 0 ≤ q := (Real.exp_pos _).le
      have hq1 : q ≤ 1 := by
        rw [hq, Real.exp_le_one_iff]
        apply div_nonpos_of_nonpos_of_nonneg (by linarith)
        positivity
      have e : v + (p - v) * q = q * p + (1 - q) * v := by ring
      simp only
      rw [e]
      have hv1 : lo - g.dc ≤ v := by rw [hv]; linarith
      have hv2 : v ≤ hi - g.dc := by rw [hv]; linarith
      constructor <;> nlinarith
  obtain ⟨h1, h2⟩ := key (i + 1) le_rfl
  unfold Gen.incompleteSampling
  simp only
  constructor <;> linarith

/-- The starting level matters: already the first output of a constant input above the offset is below every input sample. -/
theorem C56_first_sample_outside_input_range (g : Gen) (c : ℝ) (hc : g.dc < c) (tTrack tauNom coeffK : ℝ) :
    g.incompleteSampling (some fun _ => c) (some tTrack) tauNom coeffK 0 < c := by
  unfold Gen.incompleteSampling
  simp only [Gen.resolve, settleState, settleStep]
  have : 0 < Real.exp (-tTrack / (tauNom * (1 + coeffK * (c - g.dc) ^ 2))) := Real.exp_pos _
  nlinarith

/-- **C56 (convergence).** On a constant input the error shrinks by one fixed factor per sample, and with positive tracking time the output
converges to the input. -/
theorem C56_constant (g : Gen) (c : ℝ) (tTrack tauNom coeffK : ℝ) (hT : 0 < tTrack) (htau : 0 < tauNom) (hk : 0 ≤ coeffK) :
    (∀ i, g.incompleteSampling (some fun _ => c) (some tTrack) tauNom coeffK i =
      c + (g.dc - c) * Real.exp (-tTrack / (tauNom * (1 + coeffK * (c - g.dc) ^ 2))) ^ (i + 1)) ∧
    Tendsto (g.incompleteSampling (some fun _ => c) (some tTrack) tauNom coeffK) atTop (𝓝 c) := by
  set q := Real.exp (-tTrack / (tauNom * (1 + coeffK * (c - g.dc) ^ 2))) with hq
  have h : ∀ i, g.incompleteSampling (some fun _ => c) (some tTrack) tauNom coeffK i = c + (g.dc - c) * q ^ (i + 1) := by
    intro i
    have key : ∀ n, settleState tTrack tauNom coeffK (fun _ => c - g.dc) n = (c - g.dc) * (1 - q ^ n) := by
      intro n
      induction n with
      | zero => simp [settleState]
      | succ n ih =>
        show settleStep _ _ _ _ _ = _
        unfold settleStep
        simp only
        rw [ih, ← hq]
        ring
    unfold Gen.incompleteSampling
    simp only [Gen.resolve]
    rw [key]
    ring
  refine ⟨h, ?_⟩
  have hq1 : q < 1 := by
    rw [hq, Real.exp_lt_one_iff]
    apply div_neg_of_neg_of_pos (by linarith)
    positivity
  have h0 : Tendsto (fun i : ℕ => q ^ (i + 1)) atTop (𝓝 0) :=
    (tendsto_pow_atTop_nhds_zero_of_lt_one (Real.exp_pos _).le hq1).comp (tendsto_add_atTop_nat 1)
  have h1 := (h0.const_mul (g.dc - c)).const_add c
  rw [mul_zero, add_zero] at h1
  exact h1.congr fun i => (h i).symm

/-- **C56 (default tracking time).** Omitting `T_track` is the same as one fifth of the sample period. -/
theorem C56_default (g : Gen) (input : Option (ℕ → ℝ)) (tauNom coeffK : ℝ) :
    g.incompleteSampling input none tauNom coeffK = g.incompleteSampling input (some (1 / g.fs * (1 / 5))) tauNom coeffK := rfl

/-- **C72.** The reference droop at sample `i` is the exponentially weighted sum of all past load kicks; with non-negative strength it is
non-negative, and it stays below `strength · peak / (1 - decay)` when the signal stays within `peak` of the offset. -/
theorem C72_droop (g : Gen) (input : Option (ℕ → ℝ)) (tau droop : ℝ) (htau : 0 < tau) (hd : 0 ≤ droop) (i : ℕ) :
    ∃ δ, g.referenceError input tau droop i = (g.resolve input i - g.dc) * (1 - δ) + g.dc ∧
      δ = ∑ j ∈ range (i + 1), droop * |g.resolve input j - g.dc| * Real.exp (-1 / tau) ^ (i - j) ∧ 0 ≤ δ ∧
      ∀ peak, (∀ j ≤ i, |g.resolve input j - g.dc| ≤ peak) → δ ≤ droop * peak / (1 - Real.exp (-1 / tau)) := by
  set d := Real.exp (-1 / tau) with hdd
  have hd0 : 0 ≤ d := (Real.exp_pos _).le
  have hd1 : d < 1 := by
    rw [hdd, Real.exp_lt_one_iff]
    exact div_neg_of_neg_of_pos (by norm_num) htau
  set kick : ℕ → ℝ := fun j => droop * |g.resolve input j - g.dc| with hkick
  have hsum : ∀ n, lfilter [1] [1, -d] kick n = ∑ j ∈ range (n + 1), kick j * d ^ (n - j) := by
    have hz : FilterEq [1] [1, -d] kick (fun n => ∑ j ∈ range (n + 1), kick j * d ^ (n - j)) := by
      intro n
      have hr : ∑ i ∈ range (n + 1), [(1 : ℝ)].getD i 0 * kick (n - i) = kick n := by
        rw [sum_range_succ']
        have : ∑ k ∈ range n, [(1 : ℝ)].getD (k + 1) 0 * kick (n - (k + 1)) = 0 := sum_eq_zero fun k _ => by simp
        rw [this]
        simp
      rw [hr]
      cases n with
      | zero => simp
      | succ n =>
        rw [sum_range_succ', sum_range_succ']
        have : ∑ k ∈ range n, [1, -d].getD (k + 1 + 1) 0 * (∑ j ∈ range (n + 1 - (k + 1 + 1) + 1), kick j * d ^ (n + 1 - (k + 1 + 1) - j)) = 0 := sum_eq_zero fun k _ => by simp
        rw [this]
        have e : ∑ j ∈ range (n + 1 + 1), kick j * d ^ (n + 1 - j) = d * (∑ j ∈ range (n + 1), kick j * d ^ (n - j)) + kick (n + 1) := by
          rw [sum_range_succ, mul_sum]
          congr 1
          · refine sum_congr rfl fun j hj => ?_
            have := mem_range.mp hj
            rw [show n + 1 - j = (n - j) + 1 by omega, pow_succ]
            ring
          · simp
        simp only [zero_add, Nat.sub_zero, show n + 1 - 1 = n by omega]
        rw [e]
        simp
    intro n
    exact filterEq_unique [1] [1, -d] kick _ _ (by simp) (lfilter_filterEq [1] [1, -d] kick (by simp)) hz n
  have hk0 : ∀ j, 0 ≤ kick j := fun j => mul_nonneg hd (abs_nonneg _)
  refine ⟨∑ j ∈ range (i + 1), kick j * d ^ (i - j), ?_, rfl, sum_nonneg fun j _ => mul_nonneg (hk0 j) (pow_nonneg hd0 _), ?_⟩
  · rw [← hsum]
    rfl
  · intro peak hp
    have h1 : ∑ j ∈ range (i + 1), kick j * d ^ (i - j) ≤ ∑ j ∈ range (i + 1), droop * peak * d ^ (i - j) := by
      refine sum_le_sum fun j hj => ?_
      exact mul_le_mul_of_nonneg_right (mul_le_mul_of_nonneg_left (hp j (by have := mem_range.mp hj; omega)) hd) (pow_nonneg hd0 _)
    refine h1.trans ?_
    rw [← mul_sum, div_eq_mul_inv]
    have hpk : 0 ≤ peak := (abs_nonneg _).trans (hp 0 (by omega))
    refine mul_le_mul_of_nonneg_left ?_ (mul_nonneg hd hpk)
    have hg : ∑ j ∈ range (i + 1), d ^ (i - j) = ∑ j ∈ range (i + 1), d ^ j := by
      rw [← sum_range_reflect]
      exact sum_congr rfl fun j hj => by
        have := mem_range.mp hj
        congr 1
        omega
    rw [hg, le_inv_comm₀ ?_ (by linarith)] <;> have hge := mul_neg_geom_sum d (i + 1)
    · rw [le_inv_comm₀ (by linarith) ?_]
      · rw [← one_div, le_div_iff₀ (by linarith)]
        have := pow_nonneg hd0 (i + 1)
        nlinarith
      · exact sum_pos' (fun j _ => pow_nonneg hd0 j) ⟨0, by simp, by simp⟩
    · exact sum_pos' (fun j _ => pow_nonneg hd0 j) ⟨0, by simp, by simp⟩

/-- **C72 (no droop).** Zero strength returns the record unchanged. -/
theorem C72_zero (g : Gen) (input : Option (ℕ → ℝ)) (tau : ℝ) (htau : 0 < tau) (i : ℕ) : g.referenceError input tau 0 i = g.resolve input i := by
  obtain ⟨δ, h1, h2, _⟩ := C72_droop g input tau 0 htau le_rfl i
  rw [h1, h2]
  simp

/-- A settling step to 1 from an offset of 0 with one time constant per sample. -/
example : (Gen.mk 4 1 (1 / 8) 1 0).incompleteSampling (some fun _ => 1) (some 1) 1 0 1 = 1 - Real.exp (-1) ^ 2 := by
  rw [(C56_constant (Gen.mk 4 1 (1 / 8) 1 0) 1 1 1 0 (by norm_num) (by norm_num) le_rfl).1]
  norm_num
  ring

example : ∃ δ, (Gen.mk 4 1 (1 / 8) 1 0).referenceError none 2 (1 / 100) 3 = ((Gen.mk 4 1 (1 / 8) 1 0).base 3 - 0) * (1 - δ) + 0 ∧ 0 ≤ δ := by
  obtain ⟨δ, h1, _, h3, _⟩ := C72_droop (Gen.mk 4 1 (1 / 8) 1 0) none 2 (1 / 100) (by norm_num) (by norm_num) 3
  exact ⟨δ, h1, h3⟩

end Verif
