import Verif.Model.Float64Ops
import Verif.Proofs.Sar
import Verif.Proofs.Frequency

/-!
# Error bounds for chains of rounded operations
-/

namespace Verif

open Model Spec

variable {K : Type} [Field K] [LinearOrder K] [IsStrictOrderedRing K] [FloorRing K]

/-- `fl64 x = x (1 + δ)`. -/
theorem fl64_factor (x : K) : ∃ p : K, |p - 1| ≤ 1 / 2 ^ 53 ∧ fl64 x = x * p := by
  by_cases hx : x = 0
  · exact ⟨1, by norm_num, by rw [hx, fl64_zero, zero_mul]⟩
  refine ⟨fl64 x / x, ?_, by field_simp⟩
  have h := fl64_rel x
  rw [div_sub_one hx, abs_div, div_le_iff₀ (abs_pos.mpr hx)]
  linarith [h, show |x| / 2 ^ 53 = 1 / 2 ^ 53 * |x| by ring]

omit [FloorRing K] in
theorem near_mul {p q s t : K} (hp : |p - 1| ≤ s) (hq : |q - 1| ≤ t) : |p * q - 1| ≤ s + t + s * t := by
  have hs : 0 ≤ s := (abs_nonneg _).trans hp
  have e : p * q - 1 = (p - 1) + (q - 1) + (p - 1) * (q - 1) := by ring
  rw [e]
  calc |(p - 1) + (q - 1) + (p - 1) * (q - 1)| ≤ |(p - 1) + (q - 1)| + |(p - 1) * (q - 1)| := abs_add_le _ _
    _ ≤ |p - 1| + |q - 1| + |p - 1| * |q - 1| := by
      rw [abs_mul]
      linarith [abs_add_le (p - 1) (q - 1)]
    _ ≤ s + t + s * t := by
      have := mul_le_mul hp hq (abs_nonneg _) hs
      linarith

omit [FloorRing K] in
theorem near_inv {p s : K} (hp : |p - 1| ≤ s) (hs : s ≤ 1 / 2) : |p⁻¹ - 1| ≤ 2 * s := by
  have h := abs_le.mp hp
  have hpos : 1 / 2 ≤ p := by linarith [h.1]
  have hp0 : 0 < p := by linarith
  have e : p⁻¹ - 1 = -(p - 1) * p⁻¹ := by field_simp; ring
  rw [e, abs_mul, abs_neg, abs_of_pos (inv_pos.mpr hp0)]
  have hi : p⁻¹ ≤ 2 := by
    rw [inv_le_comm₀ hp0 (by norm_num)]
    linarith
  calc |p - 1| * p⁻¹ ≤ s * 2 := mul_le_mul hp hi (inv_pos.mpr hp0).le ((abs_nonneg _).trans hp)
    _ = 2 * s := by ring

omit [FloorRing K] in
theorem near_scaled {x p s : K} (hp : |p - 1| ≤ s) : |x * p - x| ≤ |x| * s := by
  rw [show x * p - x = x * (p - 1) by ring, abs_mul]
  exact mul_le_mul_of_nonneg_left hp (abs_nonneg _)

/-- A floating-point sum of multiples of a common power of two whose absolute values add up to at most `2^53` units is exact, in any order and grouping. -/
theorem flSum_exact (e : ℤ) {l : List K} {s : K} (h : FlSum l s) (hm : ∀ x ∈ l, ∃ m : ℤ, x = (m : K) * 2 ^ e) (hs : (l.map fun x => |x|).sum ≤ 2 ^ 53 * 2 ^ e) : s = l.sum := by
  have he : (0 : K) < 2 ^ e := by positivity
  have habs : ∀ l : List K, |l.sum| ≤ (l.map fun x => |x|).sum := by
    intro l
    induction l with
    | nil => simp
    | cons a t ih =>
      rw [List.sum_cons, List.map_cons, List.sum_cons]
      exact (abs_add_le _ _).trans (by linarith)
  have hmul : ∀ l : List K, (∀ x ∈ l, ∃ m : ℤ, x = (m : K) * 2 ^ e) → ∃ m : ℤ, l.sum = (m : K) * 2 ^ e := by
    intro l hl
    induction l with
    | nil => exact ⟨0, by simp⟩
    | cons a t ih =>
      obtain ⟨m, hm⟩ := hl a List.mem_cons_self
      obtain ⟨k, hk⟩ := ih fun x hx => hl x (List.mem_cons_of_mem _ hx)
      exact ⟨m + k, by rw [List.sum_cons, hm, hk]; push_cast; ring⟩
  induction h with
  | nil => rfl
  | single x => simp
  | @add a b s t _ _ iha ihb =>
    have n1 : 0 ≤ (a.map fun x => |x|).sum := List.sum_nonneg (by simp)
    have n2 : 0 ≤ (b.map fun x => |x|).sum := List.sum_nonneg (by simp)
    have hs' := hs
    rw [List.map_append, List.sum_append] at hs'
    rw [iha (fun x hx => hm x (List.mem_append_left _ hx)) (by linarith), ihb (fun x hx => hm x (List.mem_append_right _ hx)) (by linarith), ← List.sum_append]
    apply fl64_exact
    obtain ⟨m, hm'⟩ := hmul _ hm
    refine ⟨m, e, ?_, hm'⟩
    have h1 := (habs _).trans hs
    rw [hm', abs_mul, abs_of_pos he, mul_le_mul_iff_left₀ he] at h1
    exact_mod_cast h1
  | @perm a b s hp _ ih =>
    rw [ih (fun x hx => hm x (hp.subset hx)) (by rw [(hp.map _).sum_eq]; exact hs), hp.sum_eq]

theorem rint_neg (x : K) : rint (-x) = -rint x := by
  refine nearestEven_unique (rint_nearestEven (-x)) ?_
  obtain ⟨h1, h2⟩ := rint_nearestEven x
  have e : ∀ y : ℤ, |-x - (y : K)| = |x - ((-y : ℤ) : K)| := by
    intro y
    rw [← abs_neg]
    congr 1
    push_cast
    ring
  constructor
  · intro y
    rw [e, e, neg_neg]
    exact h1 _
  · intro y hy h
    rw [e, e, neg_neg] at h
    exact (h2 (-y) (fun hc => hy (by omega)) h).neg

/-- Rounding keeps the order. -/
theorem fl64_mono {x y : K} (h : x ≤ y) : fl64 x ≤ fl64 y := by
  have hneg : ∀ z : K, fl64 (-z) = -fl64 z := by
    intro z
    by_cases hz : z = 0
    · simp [hz, fl64_zero]
    unfold fl64
    rw [if_neg hz, if_neg (neg_ne_zero.mpr hz)]
    have hu : ulpExp (-z) = ulpExp z := by
      unfold ulpExp
      rw [abs_neg]
    rw [hu, neg_div, rint_neg]
    push_cast
    ring
  have hpos : ∀ x y : K, 0 < x → x ≤ y → fl64 x ≤ fl64 y := by
    intro x y hx hxy
    have hy : 0 < y := lt_of_lt_of_le hx hxy
    have hl : Int.log 2 |x| ≤ Int.log 2 |y| := by
      rw [abs_of_pos hx, abs_of_pos hy]
      exact Int.log_mono_right hx hxy
    rcases hl.eq_or_lt with he | hlt
    · have hu : ulpExp x = ulpExp y := by
        unfold ulpExp
        rw [he]
      unfold fl64
      rw [if_neg hx.ne', if_neg hy.ne', hu]
      have hp : (0 : K) < 2 ^ ulpExp y := by positivity
      apply mul_le_mul_of_nonneg_right _ hp.le
      exact_mod_cast rint_mono (div_le_div_of_nonneg_right hxy hp.le)
    · -- a power of two separates the two
      have bx := (binade hx.ne').2
      have hby := (binade hy.ne').1
      have ax := abs_of_pos hx
      have ay := abs_of_pos hy
      set k := Int.log 2 |x| with hk
      have up : fl64 x ≤ 2 ^ (k + 1) := by
        unfold fl64
        rw [if_neg hx.ne']
        have hp : (0 : K) < 2 ^ ulpExp x := by positivity
        have e : (2 : K) ^ (k + 1) = ((2 ^ 53 : ℤ) : K) * 2 ^ ulpExp x := by
          unfold ulpExp
          rw [← hk, show k + 1 = 53 + (k - 52) by ring, zpow_add₀ (by norm_num)]
          norm_num
        rw [e]
        apply mul_le_mul_of_nonneg_right _ hp.le
        have := rint_mono (K := K) (x := x / 2 ^ ulpExp x) (y := ((2 ^ 53 : ℤ) : K)) (by rw [div_le_iff₀ hp, ← e, ← ax]; exact bx.le)
        rw [rint_intCast] at this
        exact_mod_cast this
      have down : (2 : K) ^ Int.log 2 |y| ≤ fl64 y := by
        unfold fl64
        rw [if_neg hy.ne']
        have hp : (0 : K) < 2 ^ ulpExp y := by positivity
        have e : (2 : K) ^ Int.log 2 |y| = ((2 ^ 52 : ℤ) : K) * 2 ^ ulpExp y := by
          unfold ulpExp
          rw [show Int.log 2 |y| = 52 + (Int.log 2 |y| - 52) by ring, zpow_add₀ (by norm_num)]
          norm_num
        rw [e]
        apply mul_le_mul_of_nonneg_right _ hp.le
        have := rint_mono (K := K) (x := ((2 ^ 52 : ℤ) : K)) (y := y / 2 ^ ulpExp y) (by rw [le_div_iff₀ hp, ← e]; exact hby.trans ay.le)
        rw [rint_intCast] at this
        exact_mod_cast this
      exact up.trans ((zpow_le_zpow_right₀ (by norm_num) (by omega)).trans down)
  rcases lt_trichotomy x 0 with hx | hx | hx
  · rcases lt_or_ge y 0 with hy | hy
    · have := hpos (-y) (-x) (by linarith) (by linarith)
      rw [hneg, hneg] at this
      linarith
    · have h1 := fl64_nonneg hy
      have h2 := fl64_nonneg (x := -x) (by linarith)
      rw [hneg] at h2
      linarith
  · rw [hx, fl64_zero]
    exact fl64_nonneg (by linarith)
  · exact hpos x y hx h

/-- The trial loop is exact on weights that are multiples of a power of two. -/
theorem sarLoop64_exact (x v : K) (ws : List K) (e : ℤ) (hv : ∃ m : ℤ, v = (m : K) * 2 ^ e) (hv0 : 0 ≤ v) (hm : ∀ w ∈ ws, ∃ m : ℤ, w = (m : K) * 2 ^ e) (h0 : ∀ w ∈ ws, 0 ≤ w) (hs : v + ws.sum ≤ 2 ^ 53 * 2 ^ e) : sarLoop64 x v ws = sarLoop x v (quiet ws) := by
  have he : (0 : K) < 2 ^ e := by positivity
  induction ws generalizing v with
  | nil => rfl
  | cons w t ih =>
    have hw0 := h0 w List.mem_cons_self
    have ht0 : 0 ≤ t.sum := List.sum_nonneg fun y hy => h0 y (List.mem_cons_of_mem _ hy)
    rw [List.sum_cons] at hs
    obtain ⟨a, ha⟩ := hv
    obtain ⟨b, hb⟩ := hm w List.mem_cons_self
    have hex : fl64 (v + w) = v + w := by
      apply fl64_exact
      refine ⟨a + b, e, ?_, by rw [ha, hb]; push_cast; ring⟩
      have h1 : ((a + b : ℤ) : K) * 2 ^ e ≤ 2 ^ 53 * 2 ^ e := by
        push_cast
        rw [add_mul, ← ha, ← hb]
        linarith
      have h2 : (0 : K) ≤ ((a + b : ℤ) : K) * 2 ^ e := by
        push_cast
        rw [add_mul, ← ha, ← hb]
        linarith
      have h3 : ((a + b : ℤ) : K) ≤ 2 ^ 53 := le_of_mul_le_mul_right h1 he
      have h4 : (0 : K) ≤ ((a + b : ℤ) : K) := by
        by_contra hc
        push Not at hc
        exact absurd h2 (not_le.mpr (mul_neg_of_neg_of_pos hc he))
      rw [abs_of_nonneg (by exact_mod_cast h4)]
      exact_mod_cast h3
    have hmt : ∀ w ∈ t, ∃ m : ℤ, w = (m : K) * 2 ^ e := fun y hy => hm y (List.mem_cons_of_mem _ hy)
    have h0t : ∀ w ∈ t, 0 ≤ w := fun y hy => h0 y (List.mem_cons_of_mem _ hy)
    simp only [sarLoop64, quiet, List.map_cons, sarLoop, hex, add_zero]
    congr 1
    by_cases hbit : v + w ≤ x
    · simp only [ge_iff_le, hbit, decide_true, if_true]
      exact ih (v + w) ⟨a + b, by rw [ha, hb]; push_cast; ring⟩ (by linarith) hmt h0t (by linarith)
    · simp only [ge_iff_le, hbit, decide_false, Bool.false_eq_true, if_false]
      exact ih v ⟨a, ha⟩ hv0 hmt h0t (by linarith)

end Verif
