import Verif.Np.Basic
import Mathlib.Data.Int.GCD
import Mathlib.Data.Nat.Find
import Mathlib.Tactic.Linarith

/-!
# Model of `matlab/src/findbin.m`
-/

namespace Verif.Model

open Verif

variable {K : Type} [Field K] [LinearOrder K] [IsStrictOrderedRing K] [FloorRing K]

/-- The two tests made at distance `d` from the starting bin. `matlab/src/findbin.m:92-103`
(`gcd(b_upper, n) == 1`, then `b_lower > 0 && gcd(b_lower, n) == 1`; MATLAB's `gcd` ignores signs). -/
def mlBinHit (n : ℕ) (start : ℤ) (d : ℕ) : Prop :=
  Int.gcd (start + d) n = 1 ∨ (0 < start - d ∧ Int.gcd (start - d) n = 1)

instance (n : ℕ) (start : ℤ) (d : ℕ) : Decidable (mlBinHit n start d) := inferInstanceAs (Decidable (_ ∨ _))

/-- The `while true` loop is left: above the start there is a bin congruent to 1. -/
theorem mlBinHit_exists (n : ℕ) (hn : 0 < n) (start : ℤ) : ∃ d, mlBinHit n start d := by
  have h0 : 0 ≤ (1 - start) % (n : ℤ) := Int.emod_nonneg _ (by omega)
  refine ⟨((1 - start) % (n : ℤ)).toNat, Or.inl ?_⟩
  rw [Int.toNat_of_nonneg h0]
  have e : start + (1 - start) % (n : ℤ) = 1 + n * (-((1 - start) / (n : ℤ))) := by
    have := Int.emod_add_mul_ediv (1 - start) (n : ℤ)
    linarith
  rw [e]
  simp

/-- `findbin(fs, fin, n)` for one frequency. `matlab/src/findbin.m:65-107`: the refusals of lines 65-73, the start
`floor(fin/fs*n)` and the search loop, which is left at the first distance with a hit, the upper bin being tried
first. Simplification: `n` is a natural number (line 70 refuses the others). -/
def mlFindBin (fs fin : K) (n : ℕ) : Option ℤ :=
  if fs ≤ 0 then none
  else if hn : 0 < n then
    let start := ⌊fin / fs * n⌋
    let d := Nat.find (mlBinHit_exists n hn start)
    some (if Int.gcd (start + d) n = 1 then start + d else start - d)
  else none

end Verif.Model
