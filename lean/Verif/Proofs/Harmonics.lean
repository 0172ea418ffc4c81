import Verif.Model.ErrorDecomp
import Verif.Proofs.Lstsq
import Verif.Np.Dft
import Mathlib.LinearAlgebra.Vandermonde
import Mathlib.Algebra.BigOperators.Fin

/-!
# The harmonic design matrix: layout and independence
-/

namespace Verif

open Model Finset

theorem harmonicBasis_succ (f : ℝ) (H : ℕ) : harmonicBasis f (H + 1) = harmonicBasis f H ++
    [fun (t : ℕ) => Real.cos (((H : ℝ) + 1) * (2 * Real.pi * f * t)), fun (t : ℕ) => Real.sin (((H : ℝ) + 1) * (2 * Real.pi * f * t))] := by
  unfold harmonicBasis
  rw [List.range_succ, List.flatMap_append]
  rfl

theorem harmonicBasis_length (f : ℝ) (H : ℕ) : (harmonicBasis f H).length = 2 * H := by
  induction H with
  | zero => rfl
  | succ H ih =>
    rw [harmonicBasis_succ, List.length_append, ih]
    rfl

theorem harmonicCols_length (f : ℝ) (H : ℕ) : (harmonicCols f H).length = 2 * H + 1 := by
  unfold harmonicCols
  rw [List.length_cons, harmonicBasis_length]

theorem sum_cols (f : ℝ) (H : ℕ) (v : ℕ → ℝ) (t : ℕ) : ∑ j ∈ range (harmonicCols f H).length, v j * ((harmonicCols f H).getD j 0) t =
    v 0 + ∑ h ∈ range H, (v (1 + 2 * h) * Real.cos (((h : ℝ) + 1) * (2 * Real.pi * f * t)) + v (2 + 2 * h) * Real.sin (((h : ℝ) + 1) * (2 * Real.pi * f * t))) := by
  rw [harmonicCols_length]
  induction H with
  | zero => simp [harmonicCols]
  | succ H ih =>
    rw [show 2 * (H + 1) + 1 = (2 * H + 1) + 1 + 1 by ring, sum_range_succ, sum_range_succ, sum_range_succ (n := H)]
    have hlen : (harmonicCols f H).length = 2 * H + 1 := harmonicCols_length f H
    have happ : harmonicCols f (H + 1) = harmonicCols f H ++
        [fun (t : ℕ) => Real.cos (((H : ℝ) + 1) * (2 * Real.pi * f * t)), fun (t : ℕ) => Real.sin (((H : ℝ) + 1) * (2 * Real.pi * f * t))] := by
      unfold harmonicCols
      rw [harmonicBasis_succ]
      rfl
    have e1 : ∀ j < 2 * H + 1, (harmonicCols f (H + 1)).getD j 0 = (harmonicCols f H).getD j 0 := by
      intro j hj
      rw [happ]
      exact getD_append_left_list _ _ _ _ (by omega)
    have e2 := getD_append_right_list (harmonicCols f H)
      [fun (t : ℕ) => Real.cos (((H : ℝ) + 1) * (2 * Real.pi * f * t)), fun (t : ℕ) => Real.sin (((H : ℝ) + 1) * (2 * Real.pi * f * t))] 0 0
    have e3 := getD_append_right_list (harmonicCols f H)
      [fun (t : ℕ) => Real.cos (((H : ℝ) + 1) * (2 * Real.pi * f * t)), fun (t : ℕ) => Real.sin (((H : ℝ) + 1) * (2 * Real.pi * f * t))] 1 0
    rw [← happ, hlen] at e2 e3
    simp only [add_zero, List.getD_cons_zero, List.getD_cons_succ] at e2 e3
    rw [sum_congr rfl fun j hj => by rw [e1 j (mem_range.mp hj)], ih, e2, e3, show 1 + 2 * H = 2 * H + 1 by ring, show 2 + 2 * H = 2 * H + 1 + 1 by ring]
    ring

theorem matVec_harmonic (f : ℝ) (H : ℕ) (W : List ℝ) (t : ℕ) : matVec (harmonicCols f H) W t =
    W.getD 0 0 + ∑ h ∈ range H, (W.getD (1 + 2 * h) 0 * Real.cos (((h : ℝ) + 1) * (2 * Real.pi * f * t)) + W.getD (2 + 2 * h) 0 * Real.sin (((h : ℝ) + 1) * (2 * Real.pi * f * t))) := by
  unfold matVec
  exact sum_cols f H (fun j => W.getD j 0) t

/-- Cosine and sine through the unit circle. -/
private theorem cos_sin_cis (p q s : ℝ) : ((p * Real.cos (2 * Real.pi * s) + q * Real.sin (2 * Real.pi * s) : ℝ) : ℂ) =
    ((p - q * Complex.I) / 2) * cis s + ((p + q * Complex.I) / 2) * cis (-s) := by
  have h1 : cis s = (Real.cos (2 * Real.pi * s) : ℂ) + (Real.sin (2 * Real.pi * s) : ℂ) * Complex.I := by
    apply Complex.ext <;> simp [cis_re, cis_im, -Complex.ofReal_cos, -Complex.ofReal_sin]
  have h2 : cis (-s) = (Real.cos (2 * Real.pi * s) : ℂ) - (Real.sin (2 * Real.pi * s) : ℂ) * Complex.I := by
    apply Complex.ext <;> simp [cis_re, cis_im, -Complex.ofReal_cos, -Complex.ofReal_sin]
  rw [h1, h2]
  push_cast
  linear_combination ((q : ℂ) * Complex.sin (2 * Real.pi * s)) * Complex.I_sq

/-- The columns are independent on `n ≥ 2 H + 1` samples as soon as no multiple up to `2 H` of the frequency is a whole number. -/
theorem harmonic_independent (f : ℝ) (H n : ℕ) (hn : 2 * H + 1 ≤ n) (hf : ∀ m : ℕ, 0 < m → m ≤ 2 * H → ∀ z : ℤ, f * m ≠ z) (v : ℕ → ℝ)
    (h : ∀ t < n, v 0 + ∑ h ∈ range H, (v (1 + 2 * h) * Real.cos (((h : ℝ) + 1) * (2 * Real.pi * f * t)) + v (2 + 2 * h) * Real.sin (((h : ℝ) + 1) * (2 * Real.pi * f * t))) = 0) :
    ∀ j < 2 * H + 1, v j = 0 := by
  set c : ℕ → ℂ := fun j => if j = H then (v 0 : ℂ) else if H < j then ((v (1 + 2 * (j - H - 1)) : ℂ) - v (2 + 2 * (j - H - 1)) * Complex.I) / 2
    else ((v (1 + 2 * (H - 1 - j)) : ℂ) + v (2 + 2 * (H - 1 - j)) * Complex.I) / 2 with hc
  have hsum : ∀ t < n, ∑ j ∈ range (2 * H + 1), c j * (cis (f * j)) ^ t = 0 := by
    intro t ht
    have hpow : ∀ j : ℕ, (cis (f * j)) ^ t = cis (f * j * t) := by
      intro j
      rw [← cis_nat_mul]
      congr 1
      ring
    have hsplit : ∑ j ∈ range (2 * H + 1), c j * (cis (f * j)) ^ t = cis (f * H * t) *
        ((v 0 : ℂ) + ∑ k ∈ range H, (((v (1 + 2 * k) : ℂ) - v (2 + 2 * k) * Complex.I) / 2 * cis (f * (k + 1) * t) +
          ((v (1 + 2 * k) : ℂ) + v (2 + 2 * k) * Complex.I) / 2 * cis (-(f * (k + 1) * t)))) := by
      rw [show 2 * H + 1 = H + (H + 1) by ring, sum_range_add, sum_range_succ', sum_add_distrib, mul_add, mul_add, mul_sum, mul_sum]
      have hlow : ∑ j ∈ range H, c j * (cis (f * j)) ^ t = ∑ k ∈ range H, cis (f * H * t) * (((v (1 + 2 * k) : ℂ) + v (2 + 2 * k) * Complex.I) / 2 * cis (-(f * (k + 1) * t))) := by
        rw [← sum_range_reflect]
        apply sum_congr rfl
        intro k hk
        have hk' := mem_range.mp hk
        rw [hpow, hc]
        simp only
        rw [if_neg (by omega), if_neg (by omega), show H - 1 - (H - 1 - k) = k by omega]
        have hcast : ((H - 1 - k : ℕ) : ℝ) = H - 1 - k := by
          rw [Nat.cast_sub (by omega), Nat.cast_sub (by omega), Nat.cast_one]
        rw [hcast, show f * ((H : ℝ) - 1 - k) * t = f * H * t + -(f * (k + 1) * t) by ring, cis_add]
        ring
      have hhigh : ∑ k ∈ range H, c (H + (k + 1)) * (cis (f * ((H + (k + 1) : ℕ) : ℝ))) ^ t =
          ∑ k ∈ range H, cis (f * H * t) * (((v (1 + 2 * k) : ℂ) - v (2 + 2 * k) * Complex.I) / 2 * cis (f * (k + 1) * t)) := by
        apply sum_congr rfl
        intro k hk
        rw [hpow, hc]
        simp only
        rw [if_neg (by omega), if_pos (by omega), show H + (k + 1) - H - 1 = k by omega]
        push_cast
        rw [show f * ((H : ℝ) + (k + 1)) * t = f * H * t + f * (k + 1) * t by ring, cis_add]
        ring
      have hmid : c (H + 0) * (cis (f * ((H + 0 : ℕ) : ℝ))) ^ t = cis (f * H * t) * (v 0 : ℂ) := by
        rw [hpow, hc]
        simp only [add_zero, if_true]
        ring
      rw [hlow, hhigh, hmid]
      ring
    rw [hsplit]
    have hz := h t ht
    have hz' : (v 0 : ℂ) + ∑ k ∈ range H, (((v (1 + 2 * k) : ℂ) - v (2 + 2 * k) * Complex.I) / 2 * cis (f * (k + 1) * t) +
          ((v (1 + 2 * k) : ℂ) + v (2 + 2 * k) * Complex.I) / 2 * cis (-(f * (k + 1) * t))) = 0 := by
      rw [← Complex.ofReal_zero, ← hz]
      push_cast
      congr 1
      apply sum_congr rfl
      intro k _
      rw [← cos_sin_cis]
      push_cast
      rw [show (2 : ℂ) * Real.pi * (f * (k + 1) * t) = ((k : ℂ) + 1) * (2 * Real.pi * f * t) by ring]
    rw [hz', mul_zero]
  have hinj : Function.Injective fun j : Fin (2 * H + 1) => cis (f * ((j : ℕ) : ℝ)) := by
    have key : ∀ a b : Fin (2 * H + 1), (a : ℕ) < b → cis (f * ((a : ℕ) : ℝ)) ≠ cis (f * ((b : ℕ) : ℝ)) := by
      intro a b hab he
      have : cis (f * ((b - a : ℕ) : ℝ)) = 1 := by
        rw [Nat.cast_sub hab.le, mul_sub, cis_sub, ← he, mul_comm, cis_neg_mul]
      obtain ⟨z, hz⟩ := (cis_eq_one_iff _).mp this
      exact hf (b - a) (by omega) (by omega) z hz
    intro a b he
    rcases lt_trichotomy (a : ℕ) b with hlt | heq | hgt
    · exact absurd he (key a b hlt)
    · exact Fin.ext heq
    · exact absurd he.symm (key b a hgt)
  have hzero := Matrix.eq_zero_of_forall_pow_sum_mul_pow_eq_zero (f := fun j : Fin (2 * H + 1) => cis (f * ((j : ℕ) : ℝ))) (v := fun j => c j) hinj (by
    intro i
    have := hsum i (by omega)
    rw [← Fin.sum_univ_eq_sum_range (fun j => c j * (cis (f * (j : ℝ))) ^ (i : ℕ))] at this
    exact this)
  have hcz : ∀ j < 2 * H + 1, c j = 0 := fun j hj => congrFun hzero ⟨j, hj⟩
  have hv0 : v 0 = 0 := by
    have := hcz H (by omega)
    rw [hc] at this
    simpa using this
  have hpair : ∀ k < H, v (1 + 2 * k) = 0 ∧ v (2 + 2 * k) = 0 := by
    intro k hk
    have := hcz (H + k + 1) (by omega)
    rw [hc] at this
    simp only at this
    rw [if_neg (by omega), if_pos (by omega), show H + k + 1 - H - 1 = k by omega] at this
    have h2 : ((v (1 + 2 * k) : ℂ) - v (2 + 2 * k) * Complex.I) = 0 := by
      rcases div_eq_zero_iff.mp this with h | h
      · exact h
      · norm_num at h
    have hre := congrArg Complex.re h2
    have him := congrArg Complex.im h2
    simp at hre him
    exact ⟨hre, him⟩
  intro j hj
  rcases Nat.eq_zero_or_pos j with h0 | hp
  · rw [h0]; exact hv0
  · rcases Nat.even_or_odd j with ⟨k, hk⟩ | ⟨k, hk⟩
    · have := (hpair (k - 1) (by omega)).2
      rwa [show 2 + 2 * (k - 1) = j by omega] at this
    · have := (hpair k (by omega)).1
      rwa [show 1 + 2 * k = j by omega] at this

end Verif
