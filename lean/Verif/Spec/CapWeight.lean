import Mathlib.Algebra.Order.Field.Basic
import Mathlib.Algebra.BigOperators.Group.List.Basic

/-!
# Physical specification of a split (bridged) capacitor DAC
-/

namespace Verif.Spec

variable {K : Type} [Field K] [LinearOrder K]

/-- One section of the array: bit capacitor, bridge towards the next (more significant) section
(`0` = direct connection), parasitic to ground, and the voltage driven on the bit capacitor's bottom plate. -/
structure Section (K : Type) where
  cd : K
  cb : K
  cp : K
  b : K

/-- `Ladder secs V Q`: there are node voltages satisfying charge conservation at every section node such
that the terminal at the MSB end sits at voltage `V` and draws charge `Q` into the array
(all nodes initially discharged).  Sections are listed LSB first. -/
inductive Ladder : List (Section K) → K → K → Prop
  | nil (V : K) : Ladder [] V 0
  | snoc {secs : List (Section K)} {s : Section K} {v q V Q : K} :
      Ladder secs v q →
      -- charge entering the node from the right = charge passed on to the left + charge on the node's capacitors
      Q = q + s.cd * (v - s.b) + s.cp * v →
      -- the link to the right is a wire or the bridge capacitor
      (s.cb = 0 → V = v) → (0 < s.cb → Q = s.cb * (V - v)) →
      Ladder (secs ++ [s]) V Q

/-- `Σ wᵢ·bᵢ` -/
def dot (w b : List K) : K := (List.zipWith (· * ·) w b).sum

end Verif.Spec
