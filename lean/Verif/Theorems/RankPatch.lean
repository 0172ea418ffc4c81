import Verif.Model.Calibration
import Mathlib.LinearAlgebra.Dimension.Finite
import Mathlib.LinearAlgebra.FiniteDimensional.Lemmas
import Mathlib.LinearAlgebra.Dimension.OrzechProperty

/-!
# C38: rank patching and recovery
-/

namespace Verif

open Model Finset

/-- Weight that a processed bit gets back. -/
private noncomputable def back (weff : List ℝ) (l : ℤ × ℝ) : ℝ := if l.1 < 0 then 0 else weff.getD l.1.toNat 0 * l.2

/-- What is true of the loop state after the first `k` bits. -/
private structure Inv (N : ℕ) (bits : List (ℕ → ℝ)) (nominal : List ℝ) (k : ℕ) (s : Patched) : Prop where
  len : s.links.length = k
  flen : s.founders.length = s.eff.length
  rng : ∀ l ∈ s.links, l.1 < s.eff.length
  lo : ∀ l ∈ s.links, -1 ≤ l.1
  sum : ∀ (weff : List ℝ) (n : ℕ), matVec s.eff weff n = ∑ i ∈ range k, back weff (s.links.getD i (-1, 0)) * (bits.getD i 0) n
  fnd : ∀ j < s.eff.length, s.founders.getD j 0 < k ∧ s.links.getD (s.founders.getD j 0) (-1, 0) = ((j : ℤ), 1)
  rat : ∀ i < k, ∀ (j : ℕ) (r : ℝ), s.links.getD i (-1, 0) = ((j : ℤ), r) →
    r = 1 ∧ s.founders.getD j 0 = i ∨ r = nominal.getD i 0 / nominal.getD (s.founders.getD j 0) 0 ∧ s.founders.getD j 0 < i
  dead : ∀ i < k, ptpSmall N (bits.getD i 0) → s.links.getD i (-1, 0) = (-1, 0)

private theorem getD_append_lt {α : Type} (l l' : List α) (d : α) (i : ℕ) (h : i < l.length) : (l ++ l').getD i d = l.getD i d := by
  rw [List.getD_eq_getElem?_getD, List.getD_eq_getElem?_getD, List.getElem?_append_left h]

private theorem getD_append_self {α : Type} (l : List α) (a d : α) : (l ++ [a]).getD l.length d = a := by
  rw [List.getD_eq_getElem?_getD, List.getElem?_append_right le_rfl]
  simp

private theorem getD_set {α : Type} (l : List α) (j : ℕ) (a d : α) (hj : j < l.length) (i : ℕ) :
    (l.set j a).getD i d = if i = j then a else l.getD i d := by
  rw [List.getD_eq_getElem?_getD, List.getD_eq_getElem?_getD, List.getElem?_set]
  by_cases h : j = i
  · subst h; simp [hj]
  · rw [if_neg h, if_neg (Ne.symm h)]

private theorem inv_step (N : ℕ) (bits : List (ℕ → ℝ)) (nominal : List ℝ) (k : ℕ) (s : Patched) (h : Inv N bits nominal k s) :
    Inv N bits nominal (k + 1) (patchStep N bits nominal s k) := by
  -- dropping a bit
  have drop : Inv N bits nominal (k + 1) { s with links := s.links ++ [(-1, 0)] } := by
    have e1 : ∀ i < k, (s.links ++ [((-1 : ℤ), (0 : ℝ))]).getD i (-1, 0) = s.links.getD i (-1, 0) := fun i hi =>
      getD_append_lt _ _ _ _ (by rw [h.len]; exact hi)
    have e2 : (s.links ++ [((-1 : ℤ), (0 : ℝ))]).getD k (-1, 0) = (-1, 0) := by
      conv_lhs => rw [← h.len]
      exact getD_append_self _ _ _
    refine ⟨by simp [h.len], h.flen, ?_, ?_, ?_, ?_, ?_, ?_⟩
    · intro l hl
      rcases List.mem_append.mp hl with hl | hl
      · exact h.rng l hl
      · simp at hl; subst hl; simp; omega
    · intro l hl
      rcases List.mem_append.mp hl with hl | hl
      · exact h.lo l hl
      · simp at hl; subst hl; simp
    · intro weff n
      rw [sum_range_succ]
      simp only
      rw [e2]
      have : back weff (-1, 0) = 0 := by simp [back]
      rw [this, zero_mul, add_zero, h.sum]
      apply sum_congr rfl
      intro i hi
      rw [e1 i (mem_range.mp hi)]
    · intro j hj
      obtain ⟨h1, h2⟩ := h.fnd j hj
      refine ⟨by simp only; omega, ?_⟩
      simp only
      rw [e1 _ h1]
      exact h2
    · intro i hi j r hij
      simp only at hij ⊢
      by_cases hik : i < k
      · rw [e1 i hik] at hij
        exact h.rat i hik j r hij
      · have : i = k := by omega
        subst this
        rw [e2] at hij
        have := congrArg Prod.fst hij
        simp only at this
        omega
    · intro i hi hd
      simp only
      by_cases hik : i < k
      · rw [e1 i hik]; exact h.dead i hik hd
      · have : i = k := by omega
        subst this
        exact e2
  unfold patchStep
  simp only
  by_cases hA : ptpSmall N (bits.getD k 0)
  · rw [if_pos hA]; exact drop
  rw [if_neg hA]
  by_cases hB : rankOf N ((fun _ => 1) :: s.eff) < rankOf N ((fun _ => 1) :: (s.eff ++ [bits.getD k 0]))
  · rw [if_pos hB]
    have e1 : ∀ i < k, (s.links ++ [((s.eff.length : ℤ), (1 : ℝ))]).getD i (-1, 0) = s.links.getD i (-1, 0) := fun i hi =>
      getD_append_lt _ _ _ _ (by rw [h.len]; exact hi)
    have e2 : (s.links ++ [((s.eff.length : ℤ), (1 : ℝ))]).getD k (-1, 0) = ((s.eff.length : ℤ), 1) := by
      conv_lhs => rw [← h.len]
      exact getD_append_self _ _ _
    have f1 : ∀ j < s.eff.length, (s.founders ++ [k]).getD j 0 = s.founders.getD j 0 := fun j hj =>
      getD_append_lt _ _ _ _ (by rw [h.flen]; exact hj)
    have f2 : (s.founders ++ [k]).getD s.eff.length 0 = k := by
      rw [← h.flen]
      exact getD_append_self _ _ _
    refine ⟨by simp [h.len], by simp [h.flen], ?_, ?_, ?_, ?_, ?_, ?_⟩
    · intro l hl
      simp only [List.length_append, List.length_singleton]
      rcases List.mem_append.mp hl with hl | hl
      · have := h.rng l hl; push_cast; omega
      · simp at hl; subst hl; simp
    · intro l hl
      rcases List.mem_append.mp hl with hl | hl
      · exact h.lo l hl
      · simp at hl; subst hl; simp
    · intro weff n
      rw [sum_range_succ]
      simp only
      rw [e2]
      unfold matVec
      rw [List.length_append, List.length_singleton, sum_range_succ, getD_append_self]
      have : back weff ((s.eff.length : ℤ), 1) = weff.getD s.eff.length 0 := by simp [back]
      rw [this]
      congr 1
      have e3 : ∑ i ∈ range k, back weff ((s.links ++ [((s.eff.length : ℤ), (1 : ℝ))]).getD i (-1, 0)) * (bits.getD i 0) n
          = ∑ i ∈ range k, back weff (s.links.getD i (-1, 0)) * (bits.getD i 0) n :=
        sum_congr rfl fun i hi => by rw [e1 i (mem_range.mp hi)]
      rw [e3, ← h.sum]
      unfold matVec
      apply sum_congr rfl
      intro j hj
      rw [getD_append_lt _ _ _ _ (mem_range.mp hj)]
    · intro j hj
      simp only [List.length_append, List.length_singleton] at hj ⊢
      by_cases hj' : j < s.eff.length
      · obtain ⟨h1, h2⟩ := h.fnd j hj'
        rw [f1 j hj', e1 _ h1]
        exact ⟨by omega, h2⟩
      · have : j = s.eff.length := by omega
        subst this
        rw [f2, e2]
        exact ⟨by omega, rfl⟩
    · intro i hi j r hij
      simp only at hij ⊢
      by_cases hik : i < k
      · rw [e1 i hik] at hij
        have hj : j < s.eff.length := by
          have := h.rng (s.links.getD i (-1, 0)) (by
            rw [List.getD_eq_getElem?_getD, List.getElem?_eq_getElem (by rw [h.len]; exact hik)]
            exact List.getElem_mem _)
          rw [hij] at this
          simp only at this
          exact_mod_cast this
        rw [f1 j hj]
        exact h.rat i hik j r hij
      · have : i = k := by omega
        subst this
        rw [e2] at hij
        have h1 := congrArg Prod.fst hij
        have h2 := congrArg Prod.snd hij
        simp only at h1 h2
        have : j = s.eff.length := by omega
        subst this
        exact Or.inl ⟨h2.symm, f2⟩
    · intro i hi hd
      simp only
      by_cases hik : i < k
      · rw [e1 i hik]; exact h.dead i hik hd
      · have : i = k := by omega
        subst this
        exact absurd hd hA
  rw [if_neg hB]
  cases hm : mergeTarget N (bits.getD k 0) s.eff s.founders.length with
  | none => exact drop
  | some j =>
    have hj : j < s.eff.length := by
      have := List.mem_of_find?_eq_some hm
      rw [List.mem_range, h.flen] at this
      exact this
    simp only
    set r := nominal.getD k 0 / nominal.getD (s.founders.getD j 0) 0 with hr
    have e1 : ∀ i < k, (s.links ++ [((j : ℤ), r)]).getD i (-1, 0) = s.links.getD i (-1, 0) := fun i hi =>
      getD_append_lt _ _ _ _ (by rw [h.len]; exact hi)
    have e2 : (s.links ++ [((j : ℤ), r)]).getD k (-1, 0) = ((j : ℤ), r) := by
      conv_lhs => rw [← h.len]
      exact getD_append_self _ _ _
    refine ⟨by simp [h.len], by simp [h.flen], ?_, ?_, ?_, ?_, ?_, ?_⟩
    · intro l hl
      simp only [List.length_set]
      rcases List.mem_append.mp hl with hl | hl
      · exact h.rng l hl
      · simp at hl; subst hl; simp only; exact_mod_cast hj
    · intro l hl
      rcases List.mem_append.mp hl with hl | hl
      · exact h.lo l hl
      · simp at hl; subst hl; simp only; omega
    · intro weff n
      rw [sum_range_succ]
      simp only
      rw [e2]
      rw [sum_congr rfl (g := fun i => back weff (s.links.getD i (-1, 0)) * (bits.getD i 0) n)
        (fun i hi => by rw [e1 i (mem_range.mp hi)]), ← h.sum]
      unfold matVec
      rw [List.length_set]
      have : back weff ((j : ℤ), r) = weff.getD j 0 * r := by simp [back]
      rw [this]
      have : ∀ i ∈ range s.eff.length, weff.getD i 0 * ((s.eff.set j (fun n => (s.eff.getD j 0) n + (bits.getD k 0) n * r)).getD i 0) n
          = weff.getD i 0 * (s.eff.getD i 0) n + (if i = j then weff.getD j 0 * r * (bits.getD k 0) n else 0) := by
        intro i _
        rw [getD_set _ _ _ _ hj]
        by_cases hij : i = j
        · subst hij; rw [if_pos rfl, if_pos rfl]; ring
        · rw [if_neg hij, if_neg hij, add_zero]
      rw [sum_congr rfl this, sum_add_distrib, sum_ite_eq', if_pos (mem_range.mpr hj)]
    · intro i hi
      simp only [List.length_set] at hi ⊢
      obtain ⟨h1, h2⟩ := h.fnd i hi
      rw [e1 _ h1]
      exact ⟨by omega, h2⟩
    · intro i hi j' r' hij
      simp only at hij ⊢
      by_cases hik : i < k
      · rw [e1 i hik] at hij
        exact h.rat i hik j' r' hij
      · have : i = k := by omega
        subst this
        rw [e2] at hij
        have h1 := congrArg Prod.fst hij
        have h2 := congrArg Prod.snd hij
        simp only at h1 h2
        have : j' = j := by omega
        subst this
        exact Or.inr ⟨by rw [← h2], (h.fnd j' hj).1⟩
    · intro i hi hd
      simp only
      by_cases hik : i < k
      · rw [e1 i hik]; exact h.dead i hik hd
      · have : i = k := by omega
        subst this
        exact absurd hd hA

private theorem inv_loop (N : ℕ) (bits : List (ℕ → ℝ)) (nominal : List ℝ) (k : ℕ) :
    Inv N bits nominal k ((List.range k).foldl (patchStep N bits nominal) { eff := [], founders := [], links := [] }) := by
  induction k with
  | zero =>
    refine ⟨rfl, rfl, by simp, by simp, ?_, by simp, by simp, by simp⟩
    intro weff n
    simp [matVec]
  | succ k ih =>
    rw [List.range_succ, List.foldl_append]
    exact inv_step N bits nominal k _ ih

/-- Full rank excludes constant columns. -/
theorem not_const_of_rank (N : ℕ) (bits : List (ℕ → ℝ)) (h : bits.length + 1 ≤ rankOf N (bits ++ [fun _ => 1])) (i : ℕ)
    (hi : i < bits.length) (c : ℝ) : ∃ n < N, (bits.getD i 0) n ≠ c := by
  by_contra hc
  push Not at hc
  unfold rankOf at h
  have hli : LinearIndependent ℝ (fun (j : Fin (bits ++ [fun _ => (1 : ℝ)]).length) (n : Fin N) => ((bits ++ [fun _ => 1]).get j) n) := by
    rw [linearIndependent_iff_card_le_finrank_span]
    simpa using h
  rw [Fintype.linearIndependent_iff] at hli
  have hl : (bits ++ [fun _ => (1 : ℝ)]).length = bits.length + 1 := by simp
  let a : Fin (bits ++ [fun _ => (1 : ℝ)]).length := ⟨i, by omega⟩
  let b : Fin (bits ++ [fun _ => (1 : ℝ)]).length := ⟨bits.length, by omega⟩
  have hab : a ≠ b := by
    intro hab
    have := congrArg Fin.val hab
    simp [a, b] at this
    omega
  have key := hli (fun j => if j = a then 1 else if j = b then -c else 0) (by
    funext n
    rw [Finset.sum_apply]
    have : ∀ j : Fin (bits ++ [fun _ => (1 : ℝ)]).length,
        ((if j = a then (1 : ℝ) else if j = b then -c else 0) • fun n : Fin N => ((bits ++ [fun _ => 1]).get j) n) n
        = (if j = a then ((bits ++ [fun _ => (1 : ℝ)]).get a) n else 0) + (if j = b then -c * ((bits ++ [fun _ => (1 : ℝ)]).get b) n else 0) := by
      intro j
      rw [Pi.smul_apply, smul_eq_mul]
      by_cases h1 : j = a
      · subst h1; rw [if_pos rfl, if_pos rfl, if_neg hab]; ring
      · by_cases h2 : j = b
        · subst h2; rw [if_neg h1, if_pos rfl, if_neg h1, if_pos rfl]; ring
        · rw [if_neg h1, if_neg h2, if_neg h1, if_neg h2]; ring
    rw [sum_congr rfl (fun j _ => this j), sum_add_distrib, sum_ite_eq', if_pos (mem_univ _), sum_ite_eq', if_pos (mem_univ _)]
    have ha : ((bits ++ [fun _ => (1 : ℝ)]).get a) n = c := by
      have := hc n n.2
      rw [List.getD_eq_getElem?_getD, List.getElem?_eq_getElem hi] at this
      simp only [List.get_eq_getElem, a]
      rw [List.getElem_append_left hi]
      exact this
    have hb : ((bits ++ [fun _ => (1 : ℝ)]).get b) n = 1 := by
      simp [List.get_eq_getElem, b]
    rw [ha, hb]
    simp) a
  rw [if_pos rfl] at key
  exact one_ne_zero key

private theorem inv_patch (N : ℕ) (bits : List (ℕ → ℝ)) (nominal : List ℝ) (hN : 0 < N)
    (hs : ∀ i < bits.length, ptpSmall N (bits.getD i 0) → ∃ c, ∀ n < N, (bits.getD i 0) n = c) :
    Inv N bits nominal bits.length (patchRank N bits nominal) := by
  unfold patchRank
  by_cases h : bits.length + 1 ≤ rankOf N (bits ++ [fun _ => 1])
  · rw [if_pos h]
    have e : ∀ i < bits.length, ((List.range bits.length).map fun (i : ℕ) => ((i : ℤ), (1 : ℝ))).getD i (-1, 0) = ((i : ℤ), 1) := by
      intro i hi
      rw [List.getD_eq_getElem?_getD]
      simp [hi]
    have f : ∀ i < bits.length, (List.range bits.length).getD i 0 = i := by
      intro i hi
      rw [List.getD_eq_getElem?_getD]
      simp [hi]
    refine ⟨by simp, by simp, ?_, ?_, ?_, ?_, ?_, ?_⟩
    · intro l hl
      simp only [List.mem_map, List.mem_range] at hl
      obtain ⟨i, hi, rfl⟩ := hl
      simp only
      exact_mod_cast hi
    · intro l hl
      simp only [List.mem_map, List.mem_range] at hl
      obtain ⟨i, hi, rfl⟩ := hl
      simp only
      omega
    · intro weff n
      unfold matVec
      apply sum_congr rfl
      intro i hi
      simp only
      rw [e i (mem_range.mp hi)]
      simp [back]
    · intro j hj
      simp only at hj ⊢
      rw [f j hj, e j hj]
      exact ⟨hj, rfl⟩
    · intro i hi j r hij
      simp only at hij ⊢
      rw [e i hi] at hij
      have h1 := congrArg Prod.fst hij
      have h2 := congrArg Prod.snd hij
      simp only at h1 h2
      have : j = i := by omega
      subst this
      exact Or.inl ⟨h2.symm, f _ hi⟩
    · intro i hi hd
      obtain ⟨c, hc⟩ := hs i hi hd
      obtain ⟨n, hn, hne⟩ := not_const_of_rank N bits h i hi c
      exact absurd (hc n hn) hne
  · rw [if_neg h]
    exact inv_loop N bits nominal bits.length

/-- The part of the invariant that needs no assumption on almost constant columns. -/
private theorem patch_sum (N : ℕ) (bits : List (ℕ → ℝ)) (nominal : List ℝ) :
    let P := patchRank N bits nominal
    P.links.length = bits.length ∧ (∀ l ∈ P.links, -1 ≤ l.1 ∧ l.1 < P.eff.length) ∧
      ∀ (weff : List ℝ) (n : ℕ), matVec P.eff weff n = ∑ i ∈ range bits.length, back weff (P.links.getD i (-1, 0)) * (bits.getD i 0) n := by
  simp only
  unfold patchRank
  by_cases h : bits.length + 1 ≤ rankOf N (bits ++ [fun _ => 1])
  · rw [if_pos h]
    refine ⟨by simp, ?_, ?_⟩
    · intro l hl
      simp only [List.mem_map, List.mem_range] at hl
      obtain ⟨i, hi, rfl⟩ := hl
      simp only
      exact ⟨by omega, by exact_mod_cast hi⟩
    · intro weff n
      unfold matVec
      apply sum_congr rfl
      intro i hi
      rw [mem_range] at hi
      have e : ((List.range bits.length).map fun (i : ℕ) => ((i : ℤ), (1 : ℝ))).getD i (-1, 0) = ((i : ℤ), 1) := by
        rw [List.getD_eq_getElem?_getD]
        simp [hi]
      simp only
      rw [e]
      simp [back]
  · rw [if_neg h]
    have := inv_loop N bits nominal bits.length
    exact ⟨this.len, fun l hl => ⟨this.lo l hl, this.rng l hl⟩, this.sum⟩

/-- **C38 (exact).** For every bit matrix, nominal weights and solved effective weights: whenever recovery succeeds, the
patched matrix times the effective weights equals the full matrix times the recovered weights, at every sample. -/
theorem C38_patch_recover_exact (N : ℕ) (bits : List (ℕ → ℝ)) (nominal weff w : List ℝ)
    (h : recoverRank weff (patchRank N bits nominal).links = .ok w) :
    w.length = bits.length ∧ ∀ n, matVec (patchRank N bits nominal).eff weff n = matVec bits w n := by
  obtain ⟨h1, _, h3⟩ := patch_sum N bits nominal
  unfold recoverRank at h
  split_ifs at h with hc
  injection h with h
  subst h
  refine ⟨by simp [h1], ?_⟩
  intro n
  rw [h3]
  unfold matVec
  apply sum_congr rfl
  intro i hi
  rw [mem_range] at hi
  congr 1
  have hi' : i < (patchRank N bits nominal).links.length := by rw [h1]; exact hi
  rw [List.getD_eq_getElem?_getD, List.getD_eq_getElem?_getD, List.getElem?_map, List.getElem?_eq_getElem hi']
  rfl

/-- **C38 (recovery succeeds).** With one weight per effective column recovery fails exactly when every bit was dropped
(no effective column although there are bits); the failure is an `IndexError`. -/
theorem C38_recover_succeeds (N : ℕ) (bits : List (ℕ → ℝ)) (nominal weff : List ℝ)
    (hl : weff.length = (patchRank N bits nominal).eff.length) :
    (∃ w, recoverRank weff (patchRank N bits nominal).links = .ok w) ↔ bits = [] ∨ (patchRank N bits nominal).eff ≠ [] := by
  obtain ⟨h1, h2, _⟩ := patch_sum N bits nominal
  unfold recoverRank
  constructor
  · rintro ⟨w, h⟩
    by_contra hc
    push Not at hc
    obtain ⟨hb, he⟩ := hc
    rw [if_pos] at h
    · cases h
    · have : (patchRank N bits nominal).links ≠ [] := by
        rw [← List.length_pos_iff, h1]
        exact List.length_pos_iff.mpr hb
      obtain ⟨l, hm⟩ := List.exists_mem_of_ne_nil _ this
      refine ⟨l, hm, ?_⟩
      rw [hl, he]
      simp
  · intro h
    rw [if_neg]
    · exact ⟨_, rfl⟩
    · rintro ⟨l, hm, hle⟩
      have := h2 l hm
      rcases h with h | h
      · rw [h] at h1
        have : (patchRank N bits nominal).links = [] := List.length_eq_zero_iff.mp (by rw [h, h1]; rfl)
        rw [this] at hm
        simp at hm
      · have := List.length_pos_iff.mpr h
        omega

/-- **C38 (defect).** If every bit is constant, recovery raises `IndexError` instead of returning zero weights. -/
theorem C38_all_constant_fails (N : ℕ) (hN : 0 < N) (bits : List (ℕ → ℝ)) (hb : bits ≠ []) (nominal : List ℝ)
    (hc : ∀ i < bits.length, ∃ c, ∀ n < N, (bits.getD i 0) n = c) :
    (patchRank N bits nominal).eff = [] ∧ recoverRank [] (patchRank N bits nominal).links = .error .indexError := by
  have hpos : 0 < bits.length := List.length_pos_iff.mpr hb
  have hrank : ¬ bits.length + 1 ≤ rankOf N (bits ++ [fun _ => 1]) := by
    intro h
    obtain ⟨c, hc0⟩ := hc 0 hpos
    obtain ⟨n, hn, hne⟩ := not_const_of_rank N bits h 0 hpos c
    exact hne (hc0 n hn)
  have hpt : ∀ i < bits.length, ptpSmall N (bits.getD i 0) := by
    intro i hi a ha b hb
    obtain ⟨c, hci⟩ := hc i hi
    rw [hci a ha, hci b hb, sub_self]
    positivity
  have heff : (patchRank N bits nominal).eff = [] := by
    unfold patchRank
    rw [if_neg hrank]
    have : ∀ k ≤ bits.length, ((List.range k).foldl (patchStep N bits nominal) { eff := [], founders := [], links := [] }).eff = [] := by
      intro k
      induction k with
      | zero => intro _; rfl
      | succ k ih =>
        intro hk
        rw [List.range_succ, List.foldl_append]
        simp only [List.foldl_cons, List.foldl_nil]
        rw [patchStep]
        simp only
        rw [if_pos (hpt k (by omega))]
        exact ih (by omega)
    exact this _ le_rfl
  refine ⟨heff, ?_⟩
  cases hr : recoverRank [] (patchRank N bits nominal).links with
  | ok w =>
    have := (C38_recover_succeeds N bits nominal [] (by rw [heff]; rfl)).mp ⟨w, hr⟩
    rcases this with h | h
    · exact absurd h hb
    · exact absurd heff h
  | error e =>
    unfold recoverRank at hr
    split_ifs at hr
    injection hr with hr
    rw [hr]

/-- **C38 (merged bits keep the nominal ratio, dead bits get zero).** In the recovered weights every bit is either zero because
it was dropped, or tied to an effective column whose founding bit `f` has weight `w[f]`, and then
`w[i] * nominal[f] = w[f] * nominal[i]`. Constant bits always get weight zero. -/
theorem C38_ratios_and_dead_bits (N : ℕ) (hN : 0 < N) (bits : List (ℕ → ℝ)) (nominal weff w : List ℝ)
    (hnom : ∀ i < bits.length, nominal.getD i 0 ≠ 0)
    (hs : ∀ i < bits.length, ptpSmall N (bits.getD i 0) → ∃ c, ∀ n < N, (bits.getD i 0) n = c)
    (h : recoverRank weff (patchRank N bits nominal).links = .ok w) (i : ℕ) (hi : i < bits.length) :
    (w.getD i 0 = 0 ∨ ∃ j < (patchRank N bits nominal).eff.length, ∃ f ≤ i, (patchRank N bits nominal).founders.getD j 0 = f ∧
      w.getD f 0 = weff.getD j 0 ∧ w.getD i 0 * nominal.getD f 0 = w.getD f 0 * nominal.getD i 0) ∧
    (ptpSmall N (bits.getD i 0) → w.getD i 0 = 0) := by
  have hinv := inv_patch N bits nominal hN hs
  generalize patchRank N bits nominal = P at *
  have hw : ∀ k < bits.length, w.getD k 0 = back weff (P.links.getD k (-1, 0)) := by
    intro k hk
    unfold recoverRank at h
    split_ifs at h with hc
    injection h with h
    subst h
    have hk' : k < P.links.length := by rw [hinv.len]; exact hk
    rw [List.getD_eq_getElem?_getD, List.getD_eq_getElem?_getD, List.getElem?_map, List.getElem?_eq_getElem hk']
    rfl
  constructor
  · have hi' : i < P.links.length := by rw [hinv.len]; exact hi
    have hmem : P.links.getD i (-1, 0) ∈ P.links := by
      rw [List.getD_eq_getElem?_getD, List.getElem?_eq_getElem hi']
      exact List.getElem_mem _
    have hlo := hinv.lo _ hmem
    have hhi := hinv.rng _ hmem
    by_cases hneg : (P.links.getD i (-1, 0)).1 < 0
    · left
      rw [hw i hi]
      unfold back
      rw [if_pos hneg]
    · right
      have hq : P.links.getD i (-1, 0) = (((P.links.getD i (-1, 0)).1.toNat : ℤ), (P.links.getD i (-1, 0)).2) := by
        rw [Int.toNat_of_nonneg (by omega)]
      generalize hjd : (P.links.getD i (-1, 0)).1.toNat = j at hq
      generalize (P.links.getD i (-1, 0)).2 = r at hq
      have hj : j < P.eff.length := by omega
      obtain ⟨hf1, hf2⟩ := hinv.fnd j hj
      have hwf : w.getD (P.founders.getD j 0) 0 = weff.getD j 0 := by
        rw [hw _ hf1, hf2]
        simp [back]
      have hwi : w.getD i 0 = weff.getD j 0 * r := by
        rw [hw i hi, hq]
        simp [back]
      rcases hinv.rat i hi j r hq with ⟨hr, hfi⟩ | ⟨hr, hfi⟩
      · exact ⟨j, hj, i, le_rfl, hfi, by rw [← hfi]; exact hwf, rfl⟩
      · refine ⟨j, hj, P.founders.getD j 0, hfi.le, rfl, hwf, ?_⟩
        rw [hwi, hwf, hr, mul_assoc, div_mul_cancel₀ _ (hnom _ hf1)]
  · intro hd
    rw [hw i hi, hinv.dead i hi hd]
    simp [back]

/-! ### When a bit opens a new column -/

/-- The first `N` samples of a column. -/
def sampled (N : ℕ) (c : ℕ → ℝ) : Fin N → ℝ := fun i => c i

private theorem rankOf_eq (N : ℕ) (L : List (ℕ → ℝ)) :
    rankOf N L = Module.finrank ℝ (Submodule.span ℝ (sampled N '' {c | c ∈ L})) := by
  have hset : (Set.range fun (j : Fin L.length) (i : Fin N) => (L.get j) i) = sampled N '' {c | c ∈ L} := by
    ext v
    constructor
    · rintro ⟨j, rfl⟩
      exact ⟨L.get j, List.get_mem _ _, rfl⟩
    · rintro ⟨c, hc, rfl⟩
      obtain ⟨j, hj⟩ := List.get_of_mem hc
      exact ⟨j, by simp only [hj]; rfl⟩
  unfold rankOf Set.finrank
  rw [hset]

private theorem rank_lt_iff (N : ℕ) (L : List (ℕ → ℝ)) (c : ℕ → ℝ) :
    rankOf N ((fun _ => 1) :: L) < rankOf N ((fun _ => 1) :: (L ++ [c])) ↔
      sampled N c ∉ Submodule.span ℝ (sampled N '' {c | c ∈ (fun _ => (1 : ℝ)) :: L}) := by
  rw [rankOf_eq, rankOf_eq]
  have hset : sampled N '' {x | x ∈ (fun _ => (1 : ℝ)) :: (L ++ [c])}
      = insert (sampled N c) (sampled N '' {x | x ∈ (fun _ => (1 : ℝ)) :: L}) := by
    rw [← Set.image_insert_eq]
    congr 1
    ext c
    simp only [List.mem_cons, List.mem_append, Set.mem_setOf_eq, Set.mem_insert_iff, List.not_mem_nil, or_false]
    tauto
  rw [hset]
  constructor
  · intro h hm
    rw [Submodule.span_insert_eq_span hm] at h
    exact lt_irrefl _ h
  · intro h
    apply Submodule.finrank_lt_finrank_of_lt
    refine lt_of_le_of_ne (Submodule.span_mono (Set.subset_insert _ _)) ?_
    intro he
    apply h
    rw [he]
    exact Submodule.subset_span (Set.mem_insert _ _)

private theorem step_merge (N : ℕ) (bits : List (ℕ → ℝ)) (nominal : List ℝ) (s : Patched) (k j : ℕ)
    (hA : ¬ ptpSmall N (bits.getD k 0)) (hB : ¬ rankOf N ((fun _ => 1) :: s.eff) < rankOf N ((fun _ => 1) :: (s.eff ++ [bits.getD k 0])))
    (hm : mergeTarget N (bits.getD k 0) s.eff s.founders.length = some j) :
    patchStep N bits nominal s k =
      { s with
        eff := s.eff.set j (fun n => (s.eff.getD j 0) n + (bits.getD k 0) n * (nominal.getD k 0 / nominal.getD (s.founders.getD j 0) 0))
        links := s.links ++ [((j : ℤ), nominal.getD k 0 / nominal.getD (s.founders.getD j 0) 0)] } := by
  unfold patchStep
  simp only
  rw [if_neg hA, if_neg hB, hm]

/-- **C38 (independence test).** A non-constant bit opens a new effective column exactly when it is not an affine combination of
the effective columns built so far. -/
theorem C38_new_column_iff_independent (N : ℕ) (bits : List (ℕ → ℝ)) (nominal : List ℝ) (s : Patched) (k : ℕ)
    (hA : ¬ ptpSmall N (bits.getD k 0)) :
    (patchStep N bits nominal s k).eff.length = s.eff.length + 1 ↔
      sampled N (bits.getD k 0) ∉ Submodule.span ℝ (sampled N '' {c | c ∈ (fun _ => (1 : ℝ)) :: s.eff}) := by
  rw [← rank_lt_iff]
  unfold patchStep
  simp only
  rw [if_neg hA]
  by_cases hB : rankOf N ((fun _ => 1) :: s.eff) < rankOf N ((fun _ => 1) :: (s.eff ++ [bits.getD k 0]))
  · rw [if_pos hB]
    simp only [hB, List.length_append, List.length_singleton]
  · rw [if_neg hB]
    simp only [hB, iff_false]
    cases mergeTarget N (bits.getD k 0) s.eff s.founders.length <;> simp

/-! ### Concrete cases -/

theorem step_first (N : ℕ) (bits : List (ℕ → ℝ)) (nominal : List ℝ) (i j : ℕ) (hi : i < N) (hj : j < N)
    (h : 1 / 10 ^ 15 ≤ (bits.getD 0 0) i - (bits.getD 0 0) j) :
    patchStep N bits nominal { eff := [], founders := [], links := [] } 0 = { eff := [bits.getD 0 0], founders := [0], links := [(0, 1)] } := by
  have hA : ¬ ptpSmall N (bits.getD 0 0) := fun hp => absurd (hp i hi j hj) (not_lt.mpr h)
  have hB := (C38_new_column_iff_independent N bits nominal { eff := [], founders := [], links := [] } 0 hA).mpr (by
    have : sampled N '' {c | c ∈ [(fun _ => (1 : ℝ))]} = {sampled N (fun _ => 1)} := by simp
    rw [this, Submodule.mem_span_singleton]
    rintro ⟨a, ha⟩
    have h1 := congrFun ha ⟨i, hi⟩
    have h2 := congrFun ha ⟨j, hj⟩
    simp only [sampled, Pi.smul_apply, smul_eq_mul, mul_one] at h1 h2
    have : (0 : ℝ) < 1 / 10 ^ 15 := by positivity
    linarith)
  unfold patchStep at hB ⊢
  simp only at hB ⊢
  rw [if_neg hA] at hB ⊢
  split_ifs at hB ⊢ with hC
  · rfl
  · simp [mergeTarget] at hB

/-- The second of two affinely dependent columns is merged into the first. -/
theorem patch_two (N : ℕ) (b : ℕ → ℝ) (v0 v1 α β : ℝ) (hα : |α| = 1) (i j : ℕ) (hi : i < N) (hj : j < N)
    (h : 1 / 10 ^ 15 ≤ b i - b j) (hvar : 1 / 10 ^ 15 ≤ colMean N fun n => (b n - colMean N b) ^ 2) :
    patchRank N [b, fun n => α * b n + β] [v0, v1] =
      { eff := [fun n => b n + (α * b n + β) * (v1 / v0)], founders := [0], links := [(0, 1), (0, v1 / v0)] } := by
  have hNR : (N : ℝ) ≠ 0 := by exact_mod_cast (by omega : N ≠ 0)
  have hmem : sampled N (fun n => α * b n + β) ∈ Submodule.span ℝ (sampled N '' {c | c ∈ [(fun _ => (1 : ℝ)), b]}) := by
    have e : sampled N (fun n => α * b n + β) = α • sampled N b + β • sampled N (fun _ => 1) := by
      funext n; simp [sampled]
    rw [e]
    apply Submodule.add_mem
    · exact Submodule.smul_mem _ _ (Submodule.subset_span ⟨b, by simp, rfl⟩)
    · exact Submodule.smul_mem _ _ (Submodule.subset_span ⟨_, by simp, rfl⟩)
  have hA : ¬ ptpSmall N (fun n => α * b n + β) := by
    intro hp
    rcases (abs_eq (by norm_num)).mp hα with ha | ha
    · have := hp i hi j hj; rw [ha] at this; linarith
    · have := hp j hj i hi; rw [ha] at this; linarith
  have hrank : ¬ ([b, fun n => α * b n + β] : List (ℕ → ℝ)).length + 1 ≤ rankOf N ([b, fun n => α * b n + β] ++ [fun _ => 1]) := by
    have h1 : rankOf N ([b, fun n => α * b n + β] ++ [fun _ => 1]) = rankOf N [(fun _ => (1 : ℝ)), b] := by
      rw [rankOf_eq, rankOf_eq]
      have hset : sampled N '' {c | c ∈ [b, fun n => α * b n + β] ++ [fun _ => (1 : ℝ)]}
          = insert (sampled N fun n => α * b n + β) (sampled N '' {c | c ∈ [(fun _ => (1 : ℝ)), b]}) := by
        rw [← Set.image_insert_eq]
        congr 1
        ext c
        simp only [List.cons_append, List.nil_append, List.mem_cons, Set.mem_setOf_eq, Set.mem_insert_iff, List.not_mem_nil, or_false]
        tauto
      rw [hset, Submodule.span_insert_eq_span hmem]
    rw [h1]
    have : rankOf N [(fun _ => (1 : ℝ)), b] ≤ 2 := by
      unfold rankOf
      exact (finrank_range_le_card _).trans (by simp)
    simp only [List.length_cons, List.length_nil]
    omega
  have hmean : colMean N (fun n => α * b n + β) = α * colMean N b + β := by
    unfold colMean
    rw [sum_add_distrib, ← mul_sum]
    simp only [sum_const, card_range, nsmul_eq_mul]
    field_simp
  have hcorr : correlation N (fun n => α * b n + β) b = α := by
    have hα2 : α ^ 2 = 1 := by rw [← sq_abs, hα]; norm_num
    set V := colMean N fun n => (b n - colMean N b) ^ 2 with hV
    have hV0 : 0 < V := lt_of_lt_of_le (by positivity) hvar
    unfold correlation
    simp only
    have e1 : (colMean N fun n => (α * b n + β - colMean N (fun n => α * b n + β)) ^ 2) = V := by
      rw [hV, hmean]
      unfold colMean
      congr 1
      apply sum_congr rfl
      intro n _
      calc (α * b n + β - (α * ((∑ n ∈ range N, b n) / N) + β)) ^ 2 = α ^ 2 * (b n - (∑ n ∈ range N, b n) / N) ^ 2 := by ring
        _ = _ := by rw [hα2, one_mul]
    have e2 : colMean N (fun n => (α * b n + β - colMean N (fun n => α * b n + β)) * (b n - colMean N b)) = α * V := by
      rw [hV, hmean]
      generalize colMean N b = m
      unfold colMean
      rw [mul_div_assoc', mul_sum]
      congr 1
      apply sum_congr rfl
      intro n _
      ring
    rw [e1, e2, ← hV, Real.mul_self_sqrt hV0.le, if_neg (not_lt.mpr hvar), mul_div_assoc, div_self hV0.ne', mul_one]
  unfold patchRank
  rw [if_neg hrank]
  have hr2 : List.range ([b, fun n => α * b n + β] : List (ℕ → ℝ)).length = [0, 1] := rfl
  rw [hr2, List.foldl_cons, List.foldl_cons, List.foldl_nil, step_first N [b, fun n => α * b n + β] _ i j hi hj h]
  have hm : mergeTarget N (fun n => α * b n + β) [b] 1 = some 0 := by
    unfold mergeTarget
    have hr1 : List.range 1 = [0] := rfl
    rw [hr1, List.find?_cons_of_pos]
    simp only [List.getD_cons_zero]
    rw [hcorr, hα]
    norm_num
  refine Eq.trans (step_merge N [b, fun n => α * b n + β] [v0, v1] { eff := [b], founders := [0], links := [(0, 1)] } 1 0 hA
    (by rw [rank_lt_iff]; exact not_not.mpr hmem) hm) ?_
  simp

/-- Two identical bits with nominal weights 2 and 1: merged, and the recovered weights keep the ratio 2 : 1. -/
example : recoverRank [10] (patchRank 2 [fun n => n, fun n => 1 * (n : ℝ) + 0] [2, 1]).links = .ok [10, 5] := by
  rw [patch_two 2 (fun n => (n : ℝ)) 2 1 1 0 (by simp) 1 0 (by omega) (by omega) (by norm_num) (by
    unfold colMean; norm_num [sum_range_succ])]
  norm_num [recoverRank]

/-- **C38 (defect).** A bit and its complement with equal nominal weights are merged into a column that is constant, i.e.
dependent on the offset column: the patched problem is still rank deficient. -/
theorem C38_complementary_bits_cancel (N : ℕ) (b : ℕ → ℝ) (v : ℝ) (hv : v ≠ 0) (i j : ℕ) (hi : i < N) (hj : j < N)
    (h : 1 / 10 ^ 15 ≤ b i - b j) (hvar : 1 / 10 ^ 15 ≤ colMean N fun n => (b n - colMean N b) ^ 2) :
    ∃ e, (patchRank N [b, fun n => -1 * b n + 1] [v, v]).eff = [e] ∧ ∀ n, e n = 1 := by
  rw [patch_two N b v v (-1) 1 (by simp) i j hi hj h hvar]
  refine ⟨_, rfl, ?_⟩
  intro n
  rw [div_self hv]
  ring

example : ∃ e, (patchRank 2 [fun n => (n : ℝ), fun n => -1 * (n : ℝ) + 1] [1, 1]).eff = [e] ∧ ∀ n, e n = 1 :=
  C38_complementary_bits_cancel 2 (fun n => (n : ℝ)) 1 one_ne_zero 1 0 (by omega) (by omega) (by norm_num)
    (by unfold colMean; norm_num [sum_range_succ])

end Verif
