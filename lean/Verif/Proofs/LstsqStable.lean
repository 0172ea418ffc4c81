import Verif.Proofs.Lstsq
import Mathlib.Analysis.Normed.Module.FiniteDimension
import Mathlib.Analysis.Real.Sqrt

/-!
# Stability of least squares under small changes of the columns and the data
-/

namespace Verif

open Model Finset

/-- Independent columns bound the coefficients by the largest value of the combination. -/
theorem coeff_bound (n m : ℕ) (B : ℕ → ℕ → ℝ) (hind : ∀ v : ℕ → ℝ, (∀ t < n, ∑ j ∈ range m, v j * B j t = 0) → ∀ j < m, v j = 0) :
    ∃ K : ℝ, 0 < K ∧ ∀ (v : ℕ → ℝ) (S : ℝ), 0 ≤ S → (∀ t < n, |∑ j ∈ range m, v j * B j t| ≤ S) → ∀ j < m, |v j| ≤ K * S := by
  let L : (Fin m → ℝ) →ₗ[ℝ] (Fin n → ℝ) :=
    { toFun := fun v t => ∑ j : Fin m, v j * B j t
      map_add' := by
        intro v w
        funext t
        simp [add_mul, sum_add_distrib]
      map_smul' := by
        intro c v
        funext t
        simp [mul_sum, mul_assoc] }
  have hconv : ∀ (v : ℕ → ℝ) (t : Fin n), L (fun j => v j) t = ∑ j ∈ range m, v j * B j t := by
    intro v t
    show ∑ j : Fin m, v j * B j t = _
    exact Fin.sum_univ_eq_sum_range (fun j => v j * B j t) m
  have hinj : Function.Injective L := by
    rw [← LinearMap.ker_eq_bot, LinearMap.ker_eq_bot']
    intro v hv
    have h := hind (fun j => if h : j < m then v ⟨j, h⟩ else 0) (by
      intro t ht
      rw [← hconv _ ⟨t, ht⟩]
      have : (fun j : Fin m => if h : (j : ℕ) < m then v ⟨j, h⟩ else 0) = v := by
        funext j
        simp
      rw [this, hv]
      rfl)
    funext j
    have := h j j.2
    simpa using this
  obtain ⟨K, hK0, hK⟩ := L.injective_iff_antilipschitz.mp hinj
  refine ⟨K, by exact_mod_cast hK0, ?_⟩
  intro v S hS hb j hj
  have h1 := hK.le_mul_dist (fun j : Fin m => v j) 0
  rw [map_zero, dist_zero_right, dist_zero_right] at h1
  have h2 : ‖L fun j : Fin m => v j‖ ≤ S := by
    rw [pi_norm_le_iff_of_nonneg hS]
    intro t
    rw [hconv, Real.norm_eq_abs]
    exact hb t t.2
  have h3 := norm_le_pi_norm (fun j : Fin m => v j) ⟨j, hj⟩
  rw [Real.norm_eq_abs] at h3
  calc |v j| ≤ ‖fun j : Fin m => v j‖ := h3
    _ ≤ K * ‖L fun j : Fin m => v j‖ := h1
    _ ≤ K * S := mul_le_mul_of_nonneg_left h2 K.2

/-- If the columns are near independent reference columns and some coefficient vector nearly solves the system, the least-squares
coefficients are near that vector. -/
theorem lstsq_stable (solve : Lstsq) (hs : IsLstsq solve) (n m : ℕ) (hn : 0 < n) (hm : 0 < m) (B : ℕ → ℕ → ℝ) (K : ℝ) (hK0 : 0 < K)
    (hK : ∀ (v : ℕ → ℝ) (S : ℝ), 0 ≤ S → (∀ t < n, |∑ j ∈ range m, v j * B j t| ≤ S) → ∀ j < m, |v j| ≤ K * S)
    (A : List (ℕ → ℝ)) (hA : A.length = m) (η : ℝ) (hη : ∀ t < n, ∑ j ∈ range m, |(A.getD j 0) t - B j t| ≤ η) (hKη : K * η ≤ 1 / 2)
    (b : ℕ → ℝ) (x : List ℝ) (ρ : ℝ) (hρ : ∀ t < n, |b t - matVec A x t| ≤ ρ) :
    ∀ j < m, |(solve n A b).getD j 0 - x.getD j 0| ≤ 4 * K * Real.sqrt n * ρ := by
  have hρ0 : 0 ≤ ρ := le_trans (abs_nonneg _) (hρ 0 hn)
  have hη0 : 0 ≤ η := le_trans (sum_nonneg fun _ _ => abs_nonneg _) (hη 0 hn)
  have hn1 : (1 : ℝ) ≤ n := by exact_mod_cast hn
  have hsq1 : 1 ≤ Real.sqrt n := by rw [← Real.sqrt_one]; exact Real.sqrt_le_sqrt hn1
  set v : ℕ → ℝ := fun j => (solve n A b).getD j 0 - x.getD j 0 with hv
  -- the fitted values
  have hfit : ∀ t < n, |b t - matVec A (solve n A b) t| ≤ Real.sqrt n * ρ := by
    intro t ht
    have h1 := lstsq_min solve hs n A b x
    have h2 : ∑ t ∈ range n, (b t - matVec A x t) ^ 2 ≤ n * ρ ^ 2 := by
      have : ∀ t ∈ range n, (b t - matVec A x t) ^ 2 ≤ ρ ^ 2 := by
        intro t ht
        rw [← sq_abs]
        exact pow_le_pow_left₀ (abs_nonneg _) (hρ t (mem_range.mp ht)) 2
      have := sum_le_sum this
      rwa [sum_const, card_range, nsmul_eq_mul] at this
    have h3 : (b t - matVec A (solve n A b) t) ^ 2 ≤ n * ρ ^ 2 :=
      le_trans (single_le_sum (f := fun t => (b t - matVec A (solve n A b) t) ^ 2) (fun _ _ => sq_nonneg _) (mem_range.mpr ht)) (le_trans h1 h2)
    apply abs_le_of_sq_le_sq _ (by positivity)
    rw [mul_pow, Real.sq_sqrt (by linarith)]
    exact h3
  have hdiff : ∀ t, ∑ j ∈ range m, v j * (A.getD j 0) t = matVec A (solve n A b) t - matVec A x t := by
    intro t
    unfold matVec
    rw [hA, ← sum_sub_distrib]
    apply sum_congr rfl
    intro j _
    rw [hv]
    ring
  obtain ⟨j0, hj0, hmax⟩ := exists_max_image (range m) (fun j => |v j|) ⟨0, mem_range.mpr hm⟩
  set V := |v j0| with hV
  have hV0 : 0 ≤ V := abs_nonneg _
  have hcomb : ∀ t < n, |∑ j ∈ range m, v j * B j t| ≤ 2 * Real.sqrt n * ρ + V * η := by
    intro t ht
    have e : ∑ j ∈ range m, v j * B j t = ((matVec A (solve n A b) t - b t) + (b t - matVec A x t)) - ∑ j ∈ range m, v j * ((A.getD j 0) t - B j t) := by
      rw [show (matVec A (solve n A b) t - b t) + (b t - matVec A x t) = ∑ j ∈ range m, v j * (A.getD j 0) t by rw [hdiff]; ring, ← sum_sub_distrib]
      apply sum_congr rfl
      intro j _
      ring
    have h1 : |∑ j ∈ range m, v j * ((A.getD j 0) t - B j t)| ≤ V * η := by
      calc |∑ j ∈ range m, v j * ((A.getD j 0) t - B j t)| ≤ ∑ j ∈ range m, |v j * ((A.getD j 0) t - B j t)| := abs_sum_le_sum_abs _ _
        _ ≤ ∑ j ∈ range m, V * |(A.getD j 0) t - B j t| := by
            apply sum_le_sum
            intro j hj
            rw [abs_mul]
            exact mul_le_mul_of_nonneg_right (hmax j hj) (abs_nonneg _)
        _ = V * ∑ j ∈ range m, |(A.getD j 0) t - B j t| := by rw [mul_sum]
        _ ≤ V * η := mul_le_mul_of_nonneg_left (hη t ht) hV0
    have h2 := hfit t ht
    have h3 := hρ t ht
    have h4 : ρ ≤ Real.sqrt n * ρ := by nlinarith
    rw [abs_sub_comm] at h2
    rw [e]
    calc |matVec A (solve n A b) t - b t + (b t - matVec A x t) - ∑ j ∈ range m, v j * ((A.getD j 0) t - B j t)|
        ≤ |matVec A (solve n A b) t - b t + (b t - matVec A x t)| + |∑ j ∈ range m, v j * ((A.getD j 0) t - B j t)| := abs_sub _ _
      _ ≤ |matVec A (solve n A b) t - b t| + |b t - matVec A x t| + |∑ j ∈ range m, v j * ((A.getD j 0) t - B j t)| := by
          linarith [abs_add_le (matVec A (solve n A b) t - b t) (b t - matVec A x t)]
      _ ≤ 2 * Real.sqrt n * ρ + V * η := by linarith
  have hVb := hK v _ (by positivity) hcomb j0 (mem_range.mp hj0)
  have hfin : V ≤ 4 * K * Real.sqrt n * ρ := by
    have h1 : K * (V * η) ≤ V * (1 / 2) := by
      calc K * (V * η) = V * (K * η) := by ring
        _ ≤ V * (1 / 2) := mul_le_mul_of_nonneg_left hKη hV0
    have h2 : K * (2 * Real.sqrt n * ρ + V * η) = 2 * K * Real.sqrt n * ρ + K * (V * η) := by ring
    rw [h2] at hVb
    linarith
  intro j hj
  exact le_trans (hmax j (mem_range.mpr hj)) hfin

end Verif
