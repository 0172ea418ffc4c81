import Verif.Model.ErrorBins
import Mathlib.Algebra.Order.Chebyshev
import Mathlib.Algebra.Order.BigOperators.Group.Finset

/-!
# Per-bin statistics
-/

namespace Verif

open Model Finset

/-- What per-bin statistics of the kept samples must satisfy, whatever the bin assignment. -/
structure Conserves (n nb : ℕ) (kept : ℕ → Prop) [DecidablePred kept] (e : ℕ → ℝ) (count : ℕ → ℕ) (mean rms : ℕ → Option ℝ) : Prop where
  total : ∑ b ∈ range nb, count b = ((range n).filter kept).card
  sum : ∑ b ∈ range nb, (count b : ℝ) * (mean b).getD 0 = ∑ t ∈ (range n).filter kept, e t
  sumSq : ∑ b ∈ range nb, (count b : ℝ) * (rms b).getD 0 ^ 2 = ∑ t ∈ (range n).filter kept, e t ^ 2
  nan : ∀ b, ((mean b).isNone ↔ count b = 0) ∧ ((rms b).isNone ↔ count b = 0)
  le : ∀ b m q, mean b = some m → rms b = some q → |m| ≤ q

theorem bins_conserve (n nb : ℕ) (idx : ℕ → ℕ) (mask : ℕ → Bool) (e : ℕ → ℝ) (h : ∀ t < n, mask t = true → idx t < nb) :
    Conserves n nb (fun t => mask t = true) e (binCount n idx mask) (binMean n idx mask e) (binRms n idx mask e) := by
  have hmaps : ∀ t ∈ (range n).filter (fun t => mask t = true), idx t ∈ range nb := by
    intro t ht
    rw [mem_filter, mem_range] at ht
    exact mem_range.mpr (h t ht.1 ht.2)
  have hfib : ∀ b, ((range n).filter (fun t => mask t = true)).filter (fun t => idx t = b) = (range n).filter fun t => mask t = true ∧ idx t = b := by
    intro b
    rw [filter_filter]
  have hcnt : ∀ b, 0 < binCount n idx mask b → (0 : ℝ) < binCount n idx mask b := fun b hb => by exact_mod_cast hb
  have hzero : ∀ (b : ℕ) (w : ℕ → ℝ), ¬ 0 < binCount n idx mask b → binSum n idx mask w b = 0 := by
    intro b w hb
    have h0 : binCount n idx mask b = 0 := by omega
    unfold binCount at h0
    unfold binSum
    rw [card_eq_zero.mp h0, sum_empty]
  have hsum : ∀ w : ℕ → ℝ, ∑ b ∈ range nb, binSum n idx mask w b = ∑ t ∈ (range n).filter (fun t => mask t = true), w t := by
    intro w
    rw [← sum_fiberwise_of_maps_to hmaps]
    apply sum_congr rfl
    intro b _
    unfold binSum
    rw [hfib]
  have hsq0 : ∀ b, 0 ≤ binSum n idx mask (fun t => e t ^ 2) b := fun b => sum_nonneg fun t _ => sq_nonneg _
  refine ⟨?_, ?_, ?_, ?_, ?_⟩
  · rw [card_eq_sum_card_fiberwise hmaps]
    apply sum_congr rfl
    intro b _
    unfold binCount
    rw [hfib]
  · rw [← hsum]
    apply sum_congr rfl
    intro b _
    unfold binMean
    by_cases hb : 0 < binCount n idx mask b
    · rw [if_pos hb, Option.getD_some, mul_div_cancel₀ _ (hcnt b hb).ne']
    · rw [if_neg hb, Option.getD_none, mul_zero, hzero b _ hb]
  · rw [← hsum]
    apply sum_congr rfl
    intro b _
    unfold binRms
    by_cases hb : 0 < binCount n idx mask b
    · rw [if_pos hb, Option.getD_some, Real.sq_sqrt (div_nonneg (hsq0 b) (hcnt b hb).le), mul_div_cancel₀ _ (hcnt b hb).ne']
    · rw [if_neg hb, Option.getD_none, hzero b _ hb]
      ring
  · intro b
    unfold binMean binRms
    by_cases hb : 0 < binCount n idx mask b
    · rw [if_pos hb, if_pos hb]
      simp
      omega
    · rw [if_neg hb, if_neg hb]
      simp
      omega
  · intro b m q hm hq
    unfold binMean at hm
    unfold binRms at hq
    by_cases hb : 0 < binCount n idx mask b
    · rw [if_pos hb] at hm hq
      injection hm with hm
      injection hq with hq
      rw [← hm, ← hq]
      apply Real.le_sqrt_of_sq_le
      rw [sq_abs, div_pow, div_le_div_iff₀ (by have := hcnt b hb; positivity) (hcnt b hb)]
      have hc := sq_sum_le_card_mul_sum_sq (s := (range n).filter fun t => mask t = true ∧ idx t = b) (f := e)
      have hc' : binSum n idx mask e b ^ 2 ≤ (binCount n idx mask b : ℝ) * binSum n idx mask (fun t => e t ^ 2) b := hc
      have := hcnt b hb
      nlinarith
    · rw [if_neg hb] at hm
      cases hm

end Verif
