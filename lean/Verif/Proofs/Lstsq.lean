import Verif.Proofs.Calibration
import Mathlib.Data.List.GetD

/-!
# The normal equations of an exact least-squares solver
-/

namespace Verif

open Model Finset

/-- A quadratic in the step length that is never below its value at zero has no linear term. -/
theorem dir_orthogonal (n : ℕ) (r g : ℕ → ℝ) (h : ∀ s : ℝ, ∑ t ∈ range n, r t ^ 2 ≤ ∑ t ∈ range n, (r t - s * g t) ^ 2) :
    ∑ t ∈ range n, r t * g t = 0 := by
  set L := ∑ t ∈ range n, r t * g t with hL
  set Q := ∑ t ∈ range n, g t ^ 2 with hQ
  have hQ0 : 0 ≤ Q := sum_nonneg fun t _ => sq_nonneg _
  have hall : ∀ s : ℝ, 0 ≤ -2 * s * L + s ^ 2 * Q := by
    intro s
    have := h s
    have e : ∑ t ∈ range n, (r t - s * g t) ^ 2 = ∑ t ∈ range n, r t ^ 2 - 2 * s * L + s ^ 2 * Q := by
      rw [hL, hQ, mul_sum, mul_sum, ← sum_sub_distrib, ← sum_add_distrib]
      apply sum_congr rfl
      intro t _
      ring
    rw [e] at this
    linarith
  by_contra hne
  have hpos : 0 < L ^ 2 := by positivity
  have := hall (L / (Q + 1))
  have hQ1 : 0 < Q + 1 := by linarith
  have e : -2 * (L / (Q + 1)) * L + (L / (Q + 1)) ^ 2 * Q = -(L ^ 2) * (Q + 2) / (Q + 1) ^ 2 := by
    field_simp
    ring
  rw [e] at this
  have : -(L ^ 2) * (Q + 2) / (Q + 1) ^ 2 < 0 := div_neg_of_neg_of_pos (by nlinarith) (by positivity)
  linarith

theorem matVec_add (A : List (ℕ → ℝ)) (x y : List ℝ) (t : ℕ) (hx : x.length = A.length) (hy : y.length = A.length) :
    matVec A (List.zipWith (· + ·) x y) t = matVec A x t + matVec A y t := by
  unfold matVec
  rw [← sum_add_distrib]
  apply sum_congr rfl
  intro j hj
  have hjA : j < A.length := mem_range.mp hj
  have e : (List.zipWith (· + ·) x y).getD j 0 = x.getD j 0 + y.getD j 0 := by
    rw [List.getD_eq_getElem _ _ (by simp; omega), List.getD_eq_getElem _ _ (by omega), List.getD_eq_getElem _ _ (by omega)]
    simp
  rw [e]
  ring

/-- Sum of squares is minimal. -/
theorem lstsq_min (solve : Lstsq) (hs : IsLstsq solve) (n : ℕ) (A : List (ℕ → ℝ)) (b : ℕ → ℝ) (x : List ℝ) :
    ∑ t ∈ range n, (b t - matVec A (solve n A b) t) ^ 2 ≤ ∑ t ∈ range n, (b t - matVec A x t) ^ 2 := by
  have := hs.opt n A b x
  unfold residNorm at this
  rw [Real.sqrt_le_sqrt_iff (sum_nonneg fun t _ => sq_nonneg _)] at this
  have e : ∀ z : List ℝ, ∑ t ∈ range n, (b t - matVec A z t) ^ 2 = ∑ t ∈ range n, (matVec A z t - b t) ^ 2 := by
    intro z
    apply sum_congr rfl
    intro t _
    ring
  rw [e, e]
  exact this

/-- The residual is orthogonal to everything in the column space. -/
theorem lstsq_orthogonal (solve : Lstsq) (hs : IsLstsq solve) (n : ℕ) (A : List (ℕ → ℝ)) (b : ℕ → ℝ) (z : List ℝ) (hz : z.length = A.length) :
    ∑ t ∈ range n, (b t - matVec A (solve n A b) t) * matVec A z t = 0 := by
  apply dir_orthogonal n (fun t => b t - matVec A (solve n A b) t) (fun t => matVec A z t)
  intro s
  have := lstsq_min solve hs n A b (List.zipWith (· + ·) (solve n A b) (z.map fun v => s * v))
  refine le_trans this (le_of_eq ?_)
  apply sum_congr rfl
  intro t _
  rw [matVec_add _ _ _ _ (hs.len n A b) (by simpa using hz), matVec_smul]
  ring

/-- If a consistent system has independent columns the solver returns the solution. -/
theorem lstsq_unique (solve : Lstsq) (hs : IsLstsq solve) (n : ℕ) (A : List (ℕ → ℝ)) (b : ℕ → ℝ) (x : List ℝ)
    (hx : ∀ t < n, matVec A x t = b t)
    (hind : ∀ v : ℕ → ℝ, (∀ t < n, ∑ j ∈ range A.length, v j * (A.getD j 0) t = 0) → ∀ j < A.length, v j = 0) :
    ∀ j < A.length, (solve n A b).getD j 0 = x.getD j 0 := by
  have h := (residNorm_eq_zero n A _ b).mp (solve_consistent solve hs n A b x hx)
  intro j hj
  have := hind (fun j => (solve n A b).getD j 0 - x.getD j 0) (by
    intro t ht
    have h1 := h t ht
    rw [← hx t ht] at h1
    unfold matVec at h1
    simp only [sub_mul, sum_sub_distrib]
    rw [sub_eq_zero]
    exact h1) j hj
  exact sub_eq_zero.mp this

/-- If the right-hand side is a combination of the columns plus an error orthogonal to all of them, the fitted vector is that combination. -/
theorem lstsq_projection (solve : Lstsq) (hs : IsLstsq solve) (n : ℕ) (A : List (ℕ → ℝ)) (b e : ℕ → ℝ) (x : List ℝ) (hlen : x.length = A.length)
    (hb : ∀ t < n, b t = matVec A x t + e t) (he : ∀ j < A.length, ∑ t ∈ range n, e t * (A.getD j 0) t = 0) :
    ∀ t < n, matVec A (solve n A b) t = matVec A x t := by
  have heort : ∀ z : List ℝ, ∑ t ∈ range n, e t * matVec A z t = 0 := by
    intro z
    unfold matVec
    simp only [mul_sum]
    rw [sum_comm]
    apply sum_eq_zero
    intro j hj
    have := he j (mem_range.mp hj)
    calc ∑ t ∈ range n, e t * (z.getD j 0 * (A.getD j 0) t) = z.getD j 0 * ∑ t ∈ range n, e t * (A.getD j 0) t := by
          rw [mul_sum]
          exact sum_congr rfl fun t _ => by ring
      _ = 0 := by rw [this, mul_zero]
  set d := fun t => matVec A x t - matVec A (solve n A b) t with hd
  have hdz : ∑ t ∈ range n, d t ^ 2 = 0 := by
    have h1 := lstsq_orthogonal solve hs n A b x hlen
    have h2 := lstsq_orthogonal solve hs n A b (solve n A b) (hs.len n A b)
    have h3 := heort x
    have h4 := heort (solve n A b)
    have e1 : ∑ t ∈ range n, d t ^ 2 = ∑ t ∈ range n, (b t - matVec A (solve n A b) t) * matVec A x t -
        ∑ t ∈ range n, (b t - matVec A (solve n A b) t) * matVec A (solve n A b) t - ∑ t ∈ range n, e t * matVec A x t + ∑ t ∈ range n, e t * matVec A (solve n A b) t := by
      rw [← sum_sub_distrib, ← sum_sub_distrib, ← sum_add_distrib]
      apply sum_congr rfl
      intro t ht
      rw [hb t (mem_range.mp ht), hd]
      ring
    rw [e1, h1, h2, h3, h4]
    norm_num
  intro t ht
  have := (sum_eq_zero_iff_of_nonneg fun t _ => sq_nonneg (d t)).mp hdz t (mem_range.mpr ht)
  have := pow_eq_zero_iff (two_ne_zero) |>.mp this
  rw [hd] at this
  simp only at this
  linarith

end Verif
