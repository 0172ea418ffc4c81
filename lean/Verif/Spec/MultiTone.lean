import Mathlib.Analysis.SpecialFunctions.Trigonometric.Basic
import Mathlib.Algebra.BigOperators.Group.Finset.Basic

/-!
# Records made of several coherent tones
-/

namespace Verif.Spec

open Finset

/-- `N` samples of the tones `amp b · cos(2π b n / N + φ b)`, `b ∈ S`, on a DC level `D`: every tone completes a whole number `b` of periods. -/
noncomputable def tonesRow (N : ℕ) (S : Finset ℕ) (amp φ : ℕ → ℝ) (D : ℝ) : List ℝ :=
  (List.range N).map fun (n : ℕ) => (∑ b ∈ S, amp b * Real.cos (2 * Real.pi * (b * n / N) + φ b)) + D

/-- The lobes of half-width `m` around the tones clear the DC lobe, the Nyquist bin and each other, and no two tones are in adjacent bins. -/
structure Separated (N m : ℕ) (S : Finset ℕ) : Prop where
  dc : ∀ b ∈ S, 2 * m < b
  nyquist : ∀ b ∈ S, 2 * (b + m) < N
  apart : ∀ b ∈ S, ∀ c ∈ S, b < c → b + max (2 * m) 1 < c

end Verif.Spec
