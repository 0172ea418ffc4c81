import Mathlib.Algebra.Order.Floor.Ring
import Mathlib.Algebra.Order.Field.Basic
import Mathlib.Algebra.BigOperators.Group.List.Basic

/-!
# Specifications for data converters
-/

namespace Verif.Spec

variable {K : Type} [Field K] [LinearOrder K]

/-- MSB-first `n`-bit binary expansion of `k`. -/
def bitsMSB (n k : ℕ) : List Bool := (List.range n).map fun i => k.testBit (n - 1 - i)

/-- Ideal `n`-bit code of a normalised input: floor, saturated at both ends of the code range. -/
def idealCode [FloorRing K] (n : ℕ) (x : K) : ℕ := (max 0 (min ⌊x * 2 ^ n⌋ (2 ^ n - 1))).toNat

/-- Every weight is covered by the later ones up to `eps` (binary, sub-radix-2, redundant arrays). -/
def Covered (eps : K) : List K → Prop
  | [] => True
  | w :: rest => w ≤ rest.sum + eps ∧ Covered eps rest

/-- Every weight is covered by the later ones up to `eps`, even after the comparator noise of that trial
(a negative noise sample makes the trial miss) has eaten into the margin. -/
def CoveredNoisy (eps : K) : List K → List K → Prop
  | w :: ws, e :: es => w ≤ ws.sum + eps + e ∧ CoveredNoisy eps ws es
  | _, _ => True

/-- Value of a bit vector under a weight vector. -/
def weighted : List Bool → List K → K
  | b :: bs, w :: ws => (if b then w else 0) + weighted bs ws
  | _, _ => 0

end Verif.Spec
