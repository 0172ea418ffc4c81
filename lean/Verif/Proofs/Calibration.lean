import Verif.Model.Calibration
import Mathlib.Analysis.InnerProductSpace.Projection.Minimal

/-!
# Lemmas about the calibration model
-/

namespace Verif

open Model Finset

theorem getD_drop_list {α : Type} (l : List α) (m j : ℕ) (d : α) : (l.drop m).getD j d = l.getD (m + j) d := by
  rw [List.getD_eq_getElem?_getD, List.getD_eq_getElem?_getD, List.getElem?_drop]

theorem getD_take_list {α : Type} (l : List α) (m j : ℕ) (d : α) (h : j < m) : (l.take m).getD j d = l.getD j d := by
  rw [List.getD_eq_getElem?_getD, List.getD_eq_getElem?_getD, List.getElem?_take, if_pos h]

theorem getD_append_left_list {α : Type} (l l' : List α) (j : ℕ) (d : α) (h : j < l.length) : (l ++ l').getD j d = l.getD j d := by
  rw [List.getD_eq_getElem?_getD, List.getD_eq_getElem?_getD, List.getElem?_append_left h]

theorem getD_append_right_list {α : Type} (l l' : List α) (j : ℕ) (d : α) : (l ++ l').getD (l.length + j) d = l'.getD j d := by
  rw [List.getD_eq_getElem?_getD, List.getD_eq_getElem?_getD, List.getElem?_append_right (by omega)]
  congr 2
  omega

theorem getD_map_list (l : List ℝ) (t : ℝ) (j : ℕ) : (l.map fun v => t * v).getD j 0 = t * l.getD j 0 := by
  rw [List.getD_eq_getElem?_getD, List.getD_eq_getElem?_getD, List.getElem?_map]
  cases l[j]? <;> simp

theorem matVec_congr (A : List (ℕ → ℝ)) (x y : List ℝ) (n : ℕ) (h : ∀ j < A.length, x.getD j 0 = y.getD j 0) :
    matVec A x n = matVec A y n := by
  unfold matVec
  apply sum_congr rfl
  intro j hj
  rw [h j (mem_range.mp hj)]

theorem matVec_append (A B : List (ℕ → ℝ)) (x : List ℝ) (n : ℕ) :
    matVec (A ++ B) x n = matVec A x n + matVec B (x.drop A.length) n := by
  unfold matVec
  rw [List.length_append, sum_range_add]
  congr 1
  · apply sum_congr rfl
    intro j hj
    rw [getD_append_left_list _ _ _ _ (mem_range.mp hj)]
  · apply sum_congr rfl
    intro j _
    rw [getD_append_right_list, getD_drop_list]

theorem matVec_append' (A B : List (ℕ → ℝ)) (x y : List ℝ) (n : ℕ) (hx : x.length = A.length) :
    matVec (A ++ B) (x ++ y) n = matVec A x n + matVec B y n := by
  rw [matVec_append]
  congr 1
  · exact matVec_congr A _ _ n fun j hj => getD_append_left_list _ _ _ _ (by omega)
  · rw [← hx, List.drop_left]

theorem matVec_cons (c : ℕ → ℝ) (A : List (ℕ → ℝ)) (v : ℝ) (x : List ℝ) (n : ℕ) :
    matVec (c :: A) (v :: x) n = v * c n + matVec A x n := by
  unfold matVec
  rw [List.length_cons, sum_range_succ', add_comm]
  rfl

theorem matVec_smul (A : List (ℕ → ℝ)) (x : List ℝ) (t : ℝ) (n : ℕ) : matVec A (x.map fun v => t * v) n = t * matVec A x n := by
  unfold matVec
  rw [mul_sum]
  apply sum_congr rfl
  intro j _
  rw [getD_map_list, mul_assoc]

theorem matVec_range (m : ℕ) (g : ℕ → ℕ → ℝ) (x : List ℝ) (n : ℕ) :
    matVec ((List.range m).map g) x n = ∑ j ∈ range m, x.getD j 0 * g j n := by
  unfold matVec
  rw [List.length_map, List.length_range]
  apply sum_congr rfl
  intro j hj
  congr 1
  rw [List.getD_eq_getElem?_getD]
  simp [mem_range.mp hj]

theorem residNorm_nonneg (N : ℕ) (A : List (ℕ → ℝ)) (x : List ℝ) (b : ℕ → ℝ) : 0 ≤ residNorm N A x b := Real.sqrt_nonneg _

theorem residNorm_eq_zero (N : ℕ) (A : List (ℕ → ℝ)) (x : List ℝ) (b : ℕ → ℝ) :
    residNorm N A x b = 0 ↔ ∀ n < N, matVec A x n = b n := by
  unfold residNorm
  rw [Real.sqrt_eq_zero (sum_nonneg fun n _ => sq_nonneg _), sum_eq_zero_iff_of_nonneg (fun n _ => sq_nonneg _)]
  constructor
  · intro h n hn
    have := h n (mem_range.mpr hn)
    rw [sq_eq_zero_iff] at this
    linarith
  · intro h n hn
    rw [h n (mem_range.mp hn)]
    ring

/-- Least squares with a consistent system solves it exactly. -/
theorem solve_consistent (solve : Lstsq) (hs : IsLstsq solve) (N : ℕ) (A : List (ℕ → ℝ)) (b : ℕ → ℝ) (y : List ℝ)
    (hy : ∀ n < N, matVec A y n = b n) : residNorm N A (solve N A b) b = 0 := by
  apply le_antisymm _ (residNorm_nonneg _ _ _ _)
  have := hs.opt N A b y
  rwa [(residNorm_eq_zero N A y b).mpr hy] at this

/-- A relation `X z + cos a + sin b = 0` on the first `N` rows. -/
def Relation (N : ℕ) (X cos sin : List (ℕ → ℝ)) (z a b : List ℝ) : Prop :=
  ∀ n < N, matVec X z n + matVec cos a n + matVec sin b n = 0

/-- All relations are multiples of `(z, a, b)`. -/
def OnlyRelation (N : ℕ) (X cos sin : List (ℕ → ℝ)) (z a b : List ℝ) : Prop :=
  ∀ z' a' b' : List ℝ, z'.length = X.length → a'.length = cos.length → b'.length = sin.length →
    Relation N X cos sin z' a' b' → ∃ t : ℝ, z' = z.map (fun v => t * v) ∧ a' = a.map (fun v => t * v) ∧ b' = b.map (fun v => t * v)

theorem half_unique (solve : Lstsq) (hs : IsLstsq solve) (N : ℕ) (X cos st : List (ℕ → ℝ)) (s0 : ℕ → ℝ) (z a bt : List ℝ) (b0 : ℝ)
    (hz : z.length = X.length) (ha : a.length = cos.length) (hb : bt.length = st.length)
    (hu : ∀ z' a' bt' : List ℝ, z'.length = X.length → a'.length = cos.length → bt'.length = st.length →
      (∀ n < N, matVec X z' n + matVec cos a' n + matVec (s0 :: st) (1 :: bt') n = 0) →
      ∃ t : ℝ, z' = z.map (fun v => t * v) ∧ a' = a.map (fun v => t * v) ∧ 1 = t * b0 ∧ bt' = bt.map (fun v => t * v))
    (hr : ∀ n < N, matVec X z n + matVec cos a n + matVec (s0 :: st) (b0 :: bt) n = 0) :
    let x := solve N (X ++ st ++ cos) (fun n => -s0 n)
    (b0 ≠ 0 → residNorm N (X ++ st ++ cos) x (fun n => -s0 n) = 0 ∧ x = (z ++ bt ++ a).map fun v => b0⁻¹ * v) ∧
    (b0 = 0 → residNorm N (X ++ st ++ cos) x (fun n => -s0 n) ≠ 0) := by
  intro x
  have hx : x.length = X.length + st.length + cos.length := by
    have := hs.len N (X ++ st ++ cos) (fun n => -s0 n)
    rw [List.length_append, List.length_append] at this
    exact this
  have ext : residNorm N (X ++ st ++ cos) x (fun n => -s0 n) = 0 →
      ∃ t : ℝ, 1 = t * b0 ∧ x = (z ++ bt ++ a).map fun v => t * v := by
    intro h0
    rw [residNorm_eq_zero] at h0
    have hsplit : x = x.take X.length ++ (x.drop X.length).take st.length ++ x.drop (X.length + st.length) := by
      rw [List.append_assoc, ← List.drop_drop, List.take_append_drop, List.take_append_drop]
    obtain ⟨t, h1, h2, h3, h4⟩ := hu (x.take X.length) (x.drop (X.length + st.length)) ((x.drop X.length).take st.length)
      (by rw [List.length_take]; omega) (by rw [List.length_drop]; omega)
      (by rw [List.length_take, List.length_drop]; omega) (by
        intro n hn
        have := h0 n hn
        rw [hsplit, matVec_append', matVec_append'] at this
        · rw [matVec_cons]; linarith
        · rw [List.length_take]; omega
        · rw [List.length_append, List.length_append, List.length_take, List.length_take, List.length_drop]; omega)
    refine ⟨t, h3, ?_⟩
    rw [hsplit, h1, h2, h4]
    simp
  constructor
  · intro hb0
    have h0 : residNorm N (X ++ st ++ cos) x (fun n => -s0 n) = 0 := by
      apply solve_consistent solve hs N _ _ ((z ++ bt ++ a).map fun v => b0⁻¹ * v)
      intro n hn
      rw [matVec_smul, matVec_append' _ _ _ _ _ (by simp [hz, hb]), matVec_append' _ _ _ _ _ hz]
      have := hr n hn
      rw [matVec_cons] at this
      have e : matVec X z n + matVec st bt n + matVec cos a n = -(b0 * s0 n) := by linarith
      rw [e]
      field_simp
    refine ⟨h0, ?_⟩
    obtain ⟨t, h1, h2⟩ := ext h0
    rw [h2]
    have : t = b0⁻¹ := by field_simp; linarith
    rw [this]
  · intro hb0 h0
    obtain ⟨t, h1, _⟩ := ext h0
    rw [hb0, mul_zero] at h1
    exact one_ne_zero h1

/-- The dual-basis solver on data with exactly one relation (up to scale). -/
theorem dual_unique (solve : Lstsq) (hs : IsLstsq solve) (N : ℕ) (common offs derivs ct st : List (ℕ → ℝ)) (c0 s0 : ℕ → ℝ)
    (z at' bt : List ℝ) (a0 b0 : ℝ) (hz : z.length = (common ++ offs ++ derivs).length) (ha : at'.length = ct.length)
    (hb : bt.length = st.length) (hne : a0 ≠ 0 ∨ b0 ≠ 0)
    (hr : Relation N (common ++ offs ++ derivs) (c0 :: ct) (s0 :: st) z (a0 :: at') (b0 :: bt))
    (hu : OnlyRelation N (common ++ offs ++ derivs) (c0 :: ct) (s0 :: st) z (a0 :: at') (b0 :: bt)) :
    dualBasis solve N common offs derivs (c0 :: ct) (s0 :: st) =
      .ok (if b0 ≠ 0 then ((z ++ bt ++ (a0 :: at')).map (fun v => b0⁻¹ * v), 1)
        else ((z ++ at' ++ (b0 :: bt)).map (fun v => a0⁻¹ * v), 0)) := by
  have h2 := half_unique solve hs N (common ++ offs ++ derivs) (c0 :: ct) st s0 z (a0 :: at') bt b0 hz (by simp [ha]) hb
    (by
      intro z' a' bt' l1 l2 l3 hrel
      obtain ⟨t, e1, e2, e3⟩ := hu z' a' (1 :: bt') l1 l2 (by simp [l3]) hrel
      rw [List.map_cons] at e3
      injection e3 with e3 e4
      exact ⟨t, e1, e2, e3, e4⟩) hr
  have h1 := half_unique solve hs N (common ++ offs ++ derivs) (s0 :: st) ct c0 z (b0 :: bt) at' a0 hz (by simp [hb]) ha
    (by
      intro z' b' at'' l1 l2 l3 hrel
      obtain ⟨t, e1, e2, e3⟩ := hu z' (1 :: at'') b' l1 (by simp [l3]) l2 (by intro n hn; have := hrel n hn; linarith)
      rw [List.map_cons] at e2
      injection e2 with e2 e4
      exact ⟨t, e1, e3, e2, e4⟩) (by intro n hn; have := hr n hn; linarith)
  unfold dualBasis
  simp only at h1 h2 ⊢
  by_cases hb0 : b0 = 0
  · rw [if_neg (not_not.mpr hb0)]
    obtain ⟨e1, e2⟩ := h1.1 (hne.resolve_right (not_not.mpr hb0))
    have e3 := h2.2 hb0
    rw [if_pos]
    · rw [e2]
    · rw [e1]
      exact lt_of_le_of_ne (residNorm_nonneg _ _ _ _) (Ne.symm e3)
  · rw [if_pos hb0]
    obtain ⟨e1, e2⟩ := h2.1 hb0
    rw [if_neg]
    · rw [e2]
    · rw [e1]
      exact not_lt.mpr (residNorm_nonneg _ _ _ _)

/-- The specification of the external solver is satisfiable: least-squares solutions always exist. -/
theorem exists_lstsq : ∃ solve : Lstsq, IsLstsq solve := by
  have key : ∀ (N : ℕ) (A : List (ℕ → ℝ)) (b : ℕ → ℝ), ∃ x : List ℝ, x.length = A.length ∧ ∀ y, residNorm N A x b ≤ residNorm N A y b := by
    intro N A b
    let v : Fin A.length → EuclideanSpace ℝ (Fin N) := fun j => WithLp.toLp 2 fun i : Fin N => (A.get j) i
    let β : EuclideanSpace ℝ (Fin N) := WithLp.toLp 2 fun i : Fin N => b i
    let f : (Fin A.length → ℝ) →ₗ[ℝ] EuclideanSpace ℝ (Fin N) := Fintype.linearCombination ℝ v
    have hform : ∀ y : List ℝ, residNorm N A y b = ‖f (fun j => y.getD j 0) - β‖ := by
      intro y
      rw [EuclideanSpace.norm_eq]
      unfold residNorm
      congr 1
      rw [← Fin.sum_univ_eq_sum_range (fun n => (matVec A y n - b n) ^ 2) N]
      apply sum_congr rfl
      intro i _
      have : (f (fun j => y.getD j 0) - β) i = matVec A y i - b i := by
        simp only [f, β, v, Fintype.linearCombination_apply, PiLp.sub_apply, WithLp.ofLp_sum, Finset.sum_apply, WithLp.ofLp_smul, Pi.smul_apply, smul_eq_mul]
        congr 1
        unfold matVec
        rw [← Fin.sum_univ_eq_sum_range (fun j => y.getD j 0 * (A.getD j 0) i) A.length]
        apply sum_congr rfl
        intro j _
        rw [List.getD_eq_getElem?_getD (l := A), List.getElem?_eq_getElem j.2]
        rfl
      rw [this, Real.norm_eq_abs, sq_abs]
    obtain ⟨p, hp, hmin⟩ := Submodule.exists_norm_eq_iInf_of_complete_subspace (LinearMap.range f) (Submodule.complete_of_finiteDimensional _) β
    obtain ⟨g, hg⟩ := hp
    refine ⟨List.ofFn g, by simp, ?_⟩
    intro y
    rw [hform, hform]
    have e : (fun j : Fin A.length => (List.ofFn g).getD j 0) = g := by
      funext j
      rw [List.getD_eq_getElem?_getD]
      simp
    rw [e, hg, norm_sub_rev, norm_sub_rev _ β, hmin]
    have hbdd : BddBelow (Set.range fun w : LinearMap.range f => ‖β - w‖) := ⟨0, by rintro _ ⟨w, rfl⟩; exact norm_nonneg _⟩
    exact ciInf_le hbdd ⟨f (fun j => y.getD j 0), LinearMap.mem_range_self f _⟩
  choose s h1 h2 using key
  exact ⟨s, ⟨h1, h2⟩⟩

end Verif
