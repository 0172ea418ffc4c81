import Verif.Model.SpectrumBins
import Verif.Spec.Spectrum

/-!
# Helper lemmas about the bin accounting
-/

namespace Verif

open Model Spec Finset

variable {K : Type} [Field K] [LinearOrder K] [IsStrictOrderedRing K] [FloorRing K]

theorem take_getD (p : List K) (n i : ℕ) : (p.take n).getD i 0 = if i < n then p.getD i 0 else 0 := by
  rw [List.getD_eq_getElem?_getD, List.getElem?_take, List.getD_eq_getElem?_getD]
  split_ifs <;> simp

theorem take_sum (p : List K) (n : ℕ) (hn : n ≤ p.length) : (p.take n).sum = ∑ i ∈ range n, p.getD i 0 := by
  rw [list_sum_eq, List.length_take, min_eq_left hn]
  apply sum_congr rfl
  intro i hi
  rw [take_getD, if_pos (mem_range.mp hi)]

theorem cleared_length (p : List K) (n sb lo hi : ℕ) : (clearedInband p n sb lo hi).length = min n p.length := by
  unfold clearedInband
  simp only
  split_ifs <;> simp [zeroRange_length]

theorem cleared_getD (p : List K) (n sb lo hi i : ℕ) :
    (clearedInband p n sb lo hi).getD i 0 = if i < n ∧ sb < i ∧ ¬ (lo ≤ i ∧ i < hi) then p.getD i 0 else 0 := by
  unfold clearedInband
  simp only
  split_ifs with h1 h2 h2
  · rw [zeroRange_getD, if_neg h2.2.2, zeroRange_getD, if_neg (by omega), take_getD, if_pos h2.1]
  · rw [zeroRange_getD]
    split_ifs with h3
    · rfl
    · rw [zeroRange_getD]
      split_ifs with h4
      · rfl
      · rw [take_getD]
        split_ifs with h5
        · exfalso; apply h2; refine ⟨h5, ?_, h3⟩; omega
        · rfl
  · rw [zeroRange_getD, if_neg (by omega), take_getD, if_pos h2.1]
  · rw [zeroRange_getD]
    split_ifs with h4
    · rfl
    · rw [take_getD]
      split_ifs with h5
      · exfalso; apply h2; refine ⟨h5, ?_, ?_⟩ <;> omega
      · rfl

/-- A power spectrum has no negative bin. -/
def NonnegSpec (p : List K) : Prop := ∀ v ∈ p, 0 ≤ v

theorem cleared_getD_nonneg (p : List K) (hp : NonnegSpec p) (n sb lo hi i : ℕ) :
    0 ≤ (clearedInband p n sb lo hi).getD i 0 := by
  rw [cleared_getD]
  split_ifs
  · exact getD_nonneg p hp i
  · exact le_refl _

theorem cleared_sum (p : List K) (n sb f : ℕ) (hn : n ≤ p.length) :
    (clearedInband p n sb (f - sb) (min (f + sb + 1) n)).sum = power (fun i => p.getD i 0) (nadBins n sb f) := by
  rw [list_sum_eq, cleared_length, min_eq_left hn]
  unfold power
  have hsub : nadBins n sb f ⊆ range n := by
    unfold nadBins
    exact (sdiff_subset).trans sdiff_subset
  rw [← sum_subset hsub]
  · apply sum_congr rfl
    intro i hi
    unfold nadBins dcLobe lobe at hi
    simp only [mem_sdiff, mem_range, mem_Icc] at hi
    rw [cleared_getD, if_pos (by omega)]
  · intro i hi hni
    rw [cleared_getD, if_neg]
    intro h
    apply hni
    unfold nadBins dcLobe lobe
    simp only [mem_sdiff, mem_range, mem_Icc]
    omega

theorem nad_eq_cleared (p : List K) (n sb f : ℕ) (hn : n ≤ p.length) :
    noiseAndDistortion p n sb f = (clearedInband p n sb (f - sb) (min (f + sb + 1) n)).sum := by
  unfold noiseAndDistortion
  simp only
  split_ifs with h
  · rw [take_sum _ _ (by simp [zeroRange_length, hn]), list_sum_eq, cleared_length, min_eq_left hn]
    apply sum_congr rfl
    intro i hi
    rw [mem_range] at hi
    rw [cleared_getD, zeroRange_getD, zeroRange_getD]
    split_ifs <;> first | rfl | omega
  · rw [take_sum _ _ (by simp [zeroRange_length, hn]), list_sum_eq, cleared_length, min_eq_left hn]
    apply sum_congr rfl
    intro i hi
    rw [mem_range] at hi
    rw [cleared_getD, zeroRange_getD]
    split_ifs <;> first | rfl | omega

end Verif
