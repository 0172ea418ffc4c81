import Verif.Model.SigGen
import Mathlib.Data.List.GetD
import Mathlib.Algebra.Order.Archimedean.Real.Basic

/-!
# Lemmas about `np.percentile`
-/

namespace Verif

open Model

/-! ## Interpolation on a sorted list -/

/-- Linear interpolation between neighbouring entries, holding the last entry. -/
noncomputable def interp (l : List ℝ) (v : ℝ) : ℝ :=
  l.getD ⌊v⌋.toNat 0 + (l.getD (min (⌊v⌋.toNat + 1) (l.length - 1)) 0 - l.getD ⌊v⌋.toNat 0) * (v - ⌊v⌋)

theorem sorted_getD (l : List ℝ) (hl : l.Pairwise (· ≤ ·)) (i j : ℕ) (hij : i ≤ j) (hj : j < l.length) : l.getD i 0 ≤ l.getD j 0 := by
  rw [List.getD_eq_getElem _ _ (by omega), List.getD_eq_getElem _ _ hj]
  rcases Nat.lt_or_ge i j with h | h
  · exact List.pairwise_iff_getElem.mp hl i j (by omega) hj h
  · have : i = j := by omega
    subst this
    exact le_refl _

theorem interp_bounds (l : List ℝ) (hl : l.Pairwise (· ≤ ·)) (v : ℝ) (h0 : 0 ≤ v) (h1 : v ≤ (l.length : ℝ) - 1) :
    l.getD ⌊v⌋.toNat 0 ≤ interp l v ∧ interp l v ≤ l.getD (min (⌊v⌋.toNat + 1) (l.length - 1)) 0 ∧ ⌊v⌋.toNat ≤ l.length - 1 ∧ 1 ≤ l.length := by
  have hf0 : 0 ≤ ⌊v⌋ := Int.floor_nonneg.mpr h0
  have hfv : (⌊v⌋ : ℝ) ≤ v := Int.floor_le v
  have hfz : ⌊v⌋ ≤ (l.length : ℤ) - 1 := by
    have : (⌊v⌋ : ℝ) ≤ (((l.length : ℤ) - 1 : ℤ) : ℝ) := by push_cast; linarith
    exact_mod_cast this
  have hlt := Int.lt_floor_add_one v
  have hm := sorted_getD l hl ⌊v⌋.toNat (min (⌊v⌋.toNat + 1) (l.length - 1)) (by omega) (by omega)
  unfold interp
  refine ⟨?_, ?_, by omega, by omega⟩
  · nlinarith
  · nlinarith

theorem interp_mono (l : List ℝ) (hl : l.Pairwise (· ≤ ·)) (u v : ℝ) (h0 : 0 ≤ u) (huv : u ≤ v) (h1 : v ≤ (l.length : ℝ) - 1) : interp l u ≤ interp l v := by
  obtain ⟨a1, a2, a3, a4⟩ := interp_bounds l hl u h0 (by linarith)
  obtain ⟨b1, b2, b3, b4⟩ := interp_bounds l hl v (by linarith) h1
  have hfu : 0 ≤ ⌊u⌋ := Int.floor_nonneg.mpr h0
  rcases (Int.floor_le_floor huv).lt_or_eq with h | h
  · refine a2.trans (le_trans ?_ b1)
    exact sorted_getD l hl _ _ (by omega) (by omega)
  · unfold interp
    rw [← h]
    have hm := sorted_getD l hl ⌊u⌋.toNat (min (⌊u⌋.toNat + 1) (l.length - 1)) (by omega) (by omega)
    nlinarith

/-- Entries from index `⌈v⌉` on are at least the interpolated value; entries up to index `⌊v⌋` at most. -/
theorem interp_split (l : List ℝ) (hl : l.Pairwise (· ≤ ·)) (v : ℝ) (h0 : 0 ≤ v) (h1 : v ≤ (l.length : ℝ) - 1) :
    (∀ j, ⌈v⌉.toNat ≤ j → j < l.length → interp l v ≤ l.getD j 0) ∧ ∀ j, j ≤ ⌊v⌋.toNat → l.getD j 0 ≤ interp l v := by
  obtain ⟨a1, a2, a3, a4⟩ := interp_bounds l hl v h0 h1
  have hfu : 0 ≤ ⌊v⌋ := Int.floor_nonneg.mpr h0
  constructor
  · intro j hj hjl
    have hfc : ⌊v⌋ ≤ ⌈v⌉ := Int.floor_le_ceil v
    rcases hfc.lt_or_eq with h | h
    · exact a2.trans (sorted_getD l hl _ _ (by omega) hjl)
    · have hv : (⌊v⌋ : ℝ) = v := le_antisymm (Int.floor_le v) (by rw [h]; exact Int.le_ceil v)
      have : interp l v = l.getD ⌊v⌋.toNat 0 := by
        unfold interp
        rw [hv, sub_self, mul_zero, add_zero]
      rw [this]
      exact sorted_getD l hl _ _ (by omega) hjl
  · intro j hj
    exact (sorted_getD l hl j _ hj (by omega)).trans a1

theorem count_lt (l : List ℝ) (a : ℝ) (m : ℕ) (h : ∀ j, m ≤ j → j < l.length → a ≤ l.getD j 0) : (l.filter fun x => decide (x < a)).length ≤ m := by
  have hs : l.filter (fun x => decide (x < a)) = (l.take m).filter (fun x => decide (x < a)) ++ (l.drop m).filter (fun x => decide (x < a)) := by
    rw [← List.filter_append, List.take_append_drop]
  have hd : (l.drop m).filter (fun x => decide (x < a)) = [] := by
    rw [List.filter_eq_nil_iff]
    intro x hx
    obtain ⟨j, hj, rfl⟩ := List.mem_iff_getElem.mp hx
    rw [List.length_drop] at hj
    have := h (m + j) (by omega) (by omega)
    rw [List.getD_eq_getElem _ _ (by omega)] at this
    simp only [List.getElem_drop, decide_eq_true_eq, not_lt]
    exact this
  rw [hs, hd, List.append_nil]
  exact (List.length_filter_le _ _).trans (by simp)

theorem count_gt (l : List ℝ) (a : ℝ) (m : ℕ) (h : ∀ j, j ≤ m → j < l.length → l.getD j 0 ≤ a) : (l.filter fun x => decide (a < x)).length ≤ l.length - 1 - m := by
  have hs : l.filter (fun x => decide (a < x)) = (l.take (m + 1)).filter (fun x => decide (a < x)) ++ (l.drop (m + 1)).filter (fun x => decide (a < x)) := by
    rw [← List.filter_append, List.take_append_drop]
  have hd : (l.take (m + 1)).filter (fun x => decide (a < x)) = [] := by
    rw [List.filter_eq_nil_iff]
    intro x hx
    obtain ⟨j, hj, rfl⟩ := List.mem_iff_getElem.mp hx
    rw [List.length_take] at hj
    have := h j (by omega) (by omega)
    rw [List.getD_eq_getElem _ _ (by omega)] at this
    simp only [List.getElem_take, decide_eq_true_eq, not_lt]
    exact this
  rw [hs, hd, List.nil_append]
  exact (List.length_filter_le _ _).trans (by rw [List.length_drop]; omega)

theorem percentile_eq (s : List ℝ) (hs : s ≠ []) (q : ℝ) (h0 : 0 ≤ q) (h1 : q ≤ 100) :
    percentile s q = .ok (interp (sortAsc s) (q / 100 * (s.length - 1))) := by
  unfold percentile
  rw [if_neg (by push Not; exact ⟨h0, h1⟩), if_neg hs]
  unfold interp
  rw [sortAsc_length]

/-- A percentile lies between two samples of the record. -/
theorem percentile_between (s : List ℝ) (hs : s ≠ []) (q : ℝ) (h0 : 0 ≤ q) (h1 : q ≤ 100) :
    ∃ p, percentile s q = .ok p ∧ (∀ b, (∀ v ∈ s, b ≤ v) → b ≤ p) ∧ ∀ b, (∀ v ∈ s, v ≤ b) → p ≤ b := by
  refine ⟨_, percentile_eq s hs q h0 h1, ?_⟩
  have hl : 1 ≤ s.length := List.length_pos_iff.mpr hs
  have hlr : (1 : ℝ) ≤ s.length := by exact_mod_cast hl
  obtain ⟨a1, a2, a3, a4⟩ := interp_bounds (sortAsc s) (sortAsc_sorted s) (q / 100 * (s.length - 1)) (by apply mul_nonneg <;> [positivity; linarith])
    (by rw [sortAsc_length]; have : q / 100 ≤ 1 := by linarith
        nlinarith)
  have hm : ∀ i < (sortAsc s).length, (sortAsc s).getD i 0 ∈ s := by
    intro i hi
    rw [List.getD_eq_getElem _ _ hi]
    exact (sortAsc_perm s).mem_iff.mp (List.getElem_mem hi)
  constructor
  · intro b hb
    exact (hb _ (hm _ (by omega))).trans a1
  · intro b hb
    exact a2.trans (hb _ (hm _ (by omega)))

theorem percentile_le_of_count (s : List ℝ) (hs : s ≠ []) (q : ℝ) (h0 : 0 ≤ q) (h1 : q ≤ 100) (p v : ℝ) (hp : percentile s q = .ok p)
    (hc : ⌈q / 100 * (s.length - 1)⌉.toNat < (s.filter fun x => decide (x ≤ v)).length) : p ≤ v := by
  rw [percentile_eq s hs q h0 h1] at hp
  injection hp with hp
  by_contra hcon
  push Not at hcon
  have hl : 1 ≤ s.length := List.length_pos_iff.mpr hs
  have hlr : (1 : ℝ) ≤ s.length := by exact_mod_cast hl
  have hsp := (interp_split (sortAsc s) (sortAsc_sorted s) (q / 100 * (s.length - 1)) (by apply mul_nonneg <;> [positivity; linarith])
    (by rw [sortAsc_length]; have : q / 100 ≤ 1 := by linarith
        nlinarith)).1
  have h := count_lt (sortAsc s) p _ (by rw [← hp]; exact hsp)
  have h2 : ((sortAsc s).filter fun x => decide (x < p)).length = (s.filter fun x => decide (x < p)).length :=
    ((sortAsc_perm s).filter _).length_eq
  have h3 : (s.filter fun x => decide (x ≤ v)).length ≤ (s.filter fun x => decide (x < p)).length := by
    rw [← List.countP_eq_length_filter, ← List.countP_eq_length_filter]
    apply List.countP_mono_left
    intro x _ hx
    simp only [decide_eq_true_eq] at hx ⊢
    linarith
  omega

theorem le_percentile_of_count (s : List ℝ) (hs : s ≠ []) (q : ℝ) (h0 : 0 ≤ q) (h1 : q ≤ 100) (p v : ℝ) (hp : percentile s q = .ok p)
    (hc : s.length - 1 - ⌊q / 100 * (s.length - 1)⌋.toNat < (s.filter fun x => decide (v ≤ x)).length) : v ≤ p := by
  rw [percentile_eq s hs q h0 h1] at hp
  injection hp with hp
  by_contra hcon
  push Not at hcon
  have hl : 1 ≤ s.length := List.length_pos_iff.mpr hs
  have hlr : (1 : ℝ) ≤ s.length := by exact_mod_cast hl
  have hsp := (interp_split (sortAsc s) (sortAsc_sorted s) (q / 100 * (s.length - 1)) (by apply mul_nonneg <;> [positivity; linarith])
    (by rw [sortAsc_length]; have : q / 100 ≤ 1 := by linarith
        nlinarith)).2
  have h := count_gt (sortAsc s) p ⌊q / 100 * (s.length - 1)⌋.toNat (fun j hj _ => by rw [← hp]; exact hsp j hj)
  have h2 : ((sortAsc s).filter fun x => decide (p < x)).length = (s.filter fun x => decide (p < x)).length :=
    ((sortAsc_perm s).filter _).length_eq
  have h3 : (s.filter fun x => decide (v ≤ x)).length ≤ (s.filter fun x => decide (p < x)).length := by
    rw [← List.countP_eq_length_filter, ← List.countP_eq_length_filter]
    apply List.countP_mono_left
    intro x _ hx
    simp only [decide_eq_true_eq] at hx ⊢
    linarith
  rw [sortAsc_length] at h
  omega

end Verif
