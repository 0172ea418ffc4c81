import Mathlib.Algebra.Order.Field.Basic
import Mathlib.RingTheory.Coprime.Basic
import Mathlib.Algebra.Ring.Int.Parity

/-!
# Specifications for coherent sampling and aliasing (no reference to the model)
-/

namespace Verif.Spec

variable {K : Type} [Field K] [LinearOrder K] [IsStrictOrderedRing K]

/-- A bin a coherent test tone may use. -/
def Eligible (nFft : ℤ) (forceOdd : Bool) (b : ℤ) : Prop :=
  0 < b ∧ (forceOdd = true → Odd b) ∧ IsCoprime b nFft

/-- `z` is a nearest integer of `x`, and the even one when two integers are equally near. -/
def NearestEven (x : K) (z : ℤ) : Prop :=
  (∀ y : ℤ, |x - z| ≤ |x - y|) ∧ (∀ y : ℤ, y ≠ z → |x - z| = |x - y| → Even z)

/-- `f` is an alias of `fin` at sampling rate `fs`: it differs from `fin` or `-fin` by a multiple of `fs`. -/
def Alias (fin fs f : K) : Prop :=
  ∃ k : ℤ, fin = k * fs + f ∨ fin = k * fs - f

/-- `f` is the alias of `fin` in the first Nyquist zone. -/
def FirstZoneAlias (fin fs f : K) : Prop :=
  0 ≤ f ∧ f ≤ fs / 2 ∧ Alias fin fs f

end Verif.Spec
