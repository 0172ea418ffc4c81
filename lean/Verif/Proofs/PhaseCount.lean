import Verif.Theorems.SineFit
import Mathlib.Data.Int.Order.Units
import Mathlib.Analysis.SpecialFunctions.Trigonometric.Inverse
import Mathlib.Tactic.FieldSimp
import Mathlib.Tactic.Positivity

/-!
# How many samples of a coherent sine lie on either side of a level
-/

namespace Verif

open Finset

/-! ## Samples near the peak of a sine -/

/-- If the record visits every phase once, at least `K + 1` samples are within `π (K + 1) / N` of the peak. -/
theorem near_peak (N b : ℕ) (hN : 0 < N) (hcop : Nat.Coprime b N) (φ : ℝ) (K : ℕ) (hK : K + 1 ≤ N) :
    K + 1 ≤ ((range N).filter fun n : ℕ => Real.cos (Real.pi * (K + 1) / N) ≤ Real.cos (2 * Real.pi * ((b : ℝ) / N) * n + φ)).card := by
  have hNR : (0 : ℝ) < N := by exact_mod_cast hN
  have hpi := Real.pi_pos
  obtain ⟨c, hc⟩ : ∃ c : ℝ, c = -(φ * N / (2 * Real.pi)) := ⟨_, rfl⟩
  obtain ⟨j0, hj0⟩ : ∃ j0 : ℤ, j0 = ⌈c - ((K : ℝ) + 1) / 2⌉ := ⟨_, rfl⟩
  have hl := Int.le_ceil (c - ((K : ℝ) + 1) / 2)
  have hu := Int.ceil_lt_add_one (c - ((K : ℝ) + 1) / 2)
  rw [← hj0] at hl hu
  -- the sample that shows phase `j`
  have hinv : ∀ j : ℤ, ∃ n < N, (N : ℤ) ∣ b * n - j := by
    intro j
    have hcop' : IsCoprime (b : ℤ) (N : ℤ) := Nat.isCoprime_iff_coprime.mpr hcop
    obtain ⟨u, v, huv⟩ := hcop'
    refine ⟨(u * j % N).toNat, ?_, ?_⟩
    · have := Int.emod_lt_of_pos (u * j) (by exact_mod_cast hN : (0 : ℤ) < N)
      have := Int.emod_nonneg (u * j) (by exact_mod_cast hN.ne' : (N : ℤ) ≠ 0)
      omega
    · rw [Int.toNat_of_nonneg (Int.emod_nonneg _ (by exact_mod_cast hN.ne'))]
      have h1 := Int.emod_add_mul_ediv (u * j) N
      refine ⟨-(b * (u * j / N)) - v * j, ?_⟩
      linear_combination (b : ℤ) * h1 + j * huv
  choose f hf1 hf2 using hinv
  have hcard : ((range (K + 1)).image fun i : ℕ => f (j0 + i)).card = K + 1 := by
    rw [card_image_of_injOn, card_range]
    intro i hi k hk hik
    rw [mem_coe, mem_range] at hi hk
    simp only at hik
    have h1 := hf2 (j0 + i)
    have h2 := hf2 (j0 + k)
    rw [hik] at h1
    have h3 := Int.dvd_sub h1 h2
    have e : (b : ℤ) * f (j0 + k) - (j0 + i) - (b * f (j0 + k) - (j0 + k)) = (k : ℤ) - i := by ring
    rw [e] at h3
    have h4 := Int.eq_zero_of_abs_lt_dvd h3 (by rw [abs_lt]; omega)
    omega
  rw [← hcard]
  apply card_le_card
  intro n hn
  rw [mem_image] at hn
  obtain ⟨i, hi, rfl⟩ := hn
  rw [mem_range] at hi
  rw [mem_filter, mem_range]
  refine ⟨hf1 _, ?_⟩
  obtain ⟨z, hz⟩ := hf2 (j0 + i)
  have hzR : (b : ℝ) * (f (j0 + i) : ℕ) = (j0 + i) + N * z := by
    have : (b : ℤ) * f (j0 + i) = (j0 + i) + N * z := by linarith
    exact_mod_cast this
  have hang : 2 * Real.pi * ((b : ℝ) / N) * (f (j0 + i) : ℕ) + φ = 2 * Real.pi / N * ((j0 + i : ℝ) - c) + z * (2 * Real.pi) := by
    have e1 : 2 * Real.pi * ((b : ℝ) / N) * (f (j0 + i) : ℕ) = 2 * Real.pi / N * (b * (f (j0 + i) : ℕ)) := by ring
    rw [e1, hzR, hc]
    field_simp
    ring
  rw [hang, Real.cos_add_int_mul_two_pi, ← Real.cos_abs (2 * Real.pi / N * ((j0 + i : ℝ) - c))]
  have hiR : (i : ℝ) ≤ K := by exact_mod_cast (by omega : i ≤ K)
  have hi0 : (0 : ℝ) ≤ i := Nat.cast_nonneg i
  have habs : |2 * Real.pi / N * ((j0 + i : ℝ) - c)| ≤ Real.pi * (K + 1) / N := by
    rw [abs_mul, abs_of_pos (by positivity : (0 : ℝ) < 2 * Real.pi / N)]
    have h1 : |(j0 + i : ℝ) - c| ≤ (K + 1) / 2 := by
      rw [abs_le]
      constructor <;> linarith
    calc 2 * Real.pi / N * |(j0 + i : ℝ) - c| ≤ 2 * Real.pi / N * ((K + 1) / 2) := mul_le_mul_of_nonneg_left h1 (by positivity)
      _ = Real.pi * (K + 1) / N := by ring
  apply Real.cos_le_cos_of_nonneg_of_le_pi (abs_nonneg _) _ habs
  rw [div_le_iff₀ hNR]
  apply mul_le_mul_of_nonneg_left _ hpi.le
  exact_mod_cast hK

/-- At least `N α / π - 1` samples are strictly closer than `α` to the peak. -/
theorem count_above (N b : ℕ) (hN : 0 < N) (hcop : Nat.Coprime b N) (φ α : ℝ) (h0 : 0 ≤ α) (h1 : α ≤ Real.pi) :
    (N : ℝ) * α / Real.pi - 1 ≤ ((range N).filter fun n : ℕ => Real.cos α < Real.cos (2 * Real.pi * ((b : ℝ) / N) * n + φ)).card := by
  have hNR : (0 : ℝ) < N := by exact_mod_cast hN
  have hpi := Real.pi_pos
  obtain ⟨m, hm⟩ : ∃ m : ℕ, m = ⌈(N : ℝ) * α / Real.pi⌉₊ - 1 := ⟨_, rfl⟩
  have hx0 : 0 ≤ (N : ℝ) * α / Real.pi := by positivity
  have hle := Nat.le_ceil ((N : ℝ) * α / Real.pi)
  rcases Nat.eq_zero_or_pos m with h | h
  · have hc : ⌈(N : ℝ) * α / Real.pi⌉₊ ≤ 1 := by omega
    have hc' : ((⌈(N : ℝ) * α / Real.pi⌉₊ : ℕ) : ℝ) ≤ 1 := by exact_mod_cast hc
    have := Nat.cast_nonneg (α := ℝ) ((range N).filter fun n : ℕ => Real.cos α < Real.cos (2 * Real.pi * ((b : ℝ) / N) * n + φ)).card
    linarith
  · obtain ⟨K, rfl⟩ : ∃ K, m = K + 1 := ⟨m - 1, by omega⟩
    have hc : ⌈(N : ℝ) * α / Real.pi⌉₊ = K + 2 := by omega
    have hlt : ((K : ℝ) + 1) < (N : ℝ) * α / Real.pi := by
      have := Nat.lt_ceil.mp (by omega : K + 1 < ⌈(N : ℝ) * α / Real.pi⌉₊)
      exact_mod_cast this
    rw [hc] at hle
    push_cast at hle
    have hlt' : Real.pi * ((K : ℝ) + 1) / N < α := by
      rw [lt_div_iff₀ hpi] at hlt
      rw [div_lt_iff₀ hNR]
      linarith
    have hKN : K + 1 ≤ N := by
      have h2 : (N : ℝ) * α / Real.pi ≤ N := by
        rw [div_le_iff₀ hpi]
        exact mul_le_mul_of_nonneg_left h1 hNR.le
      have : ((K + 1 : ℕ) : ℝ) ≤ N := by push_cast; linarith
      exact_mod_cast this
    have hcos : Real.cos α < Real.cos (Real.pi * ((K : ℝ) + 1) / N) := Real.cos_lt_cos_of_nonneg_of_le_pi (by positivity) h1 hlt'
    have key := (near_peak N b hN hcop φ K hKN).trans (card_le_card (t := (range N).filter fun n : ℕ => Real.cos α < Real.cos (2 * Real.pi * ((b : ℝ) / N) * n + φ))
      fun n hn => by
        rw [mem_filter] at hn ⊢
        exact ⟨hn.1, hcos.trans_le hn.2⟩)
    have : ((K + 1 : ℕ) : ℝ) ≤ (((range N).filter fun n : ℕ => Real.cos α < Real.cos (2 * Real.pi * ((b : ℝ) / N) * n + φ)).card : ℝ) := by exact_mod_cast key
    push_cast at this
    linarith

/-- At least `N (1 - α / π) - 1` samples are strictly farther than `α` from the peak. -/
theorem count_below (N b : ℕ) (hN : 0 < N) (hcop : Nat.Coprime b N) (φ α : ℝ) (h0 : 0 ≤ α) (h1 : α ≤ Real.pi) :
    (N : ℝ) * (Real.pi - α) / Real.pi - 1 ≤ ((range N).filter fun n : ℕ => Real.cos (2 * Real.pi * ((b : ℝ) / N) * n + φ) < Real.cos α).card := by
  refine (count_above N b hN hcop (φ + Real.pi) (Real.pi - α) (by linarith) (by linarith)).trans (le_of_eq ?_)
  congr 2
  apply filter_congr
  intro n _
  rw [← add_assoc, Real.cos_add_pi, Real.cos_pi_sub, neg_lt_neg_iff]

end Verif
