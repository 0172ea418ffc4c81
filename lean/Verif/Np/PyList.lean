import Verif.Np.Basic
import Mathlib.Algebra.BigOperators.Group.List.Basic

/-!
# Python list indexing and insertion, dot product
-/

namespace Verif

/-- `l[i]` for a Python list: negative indices count from the end, out of range raises `IndexError`. -/
def pyGet {α : Type} (l : List α) (i : ℤ) : Py α :=
  let j := if i < 0 then i + l.length else i
  if j < 0 then .error .indexError
  else match l[j.toNat]? with
    | some x => .ok x
    | none => .error .indexError

/-- `l.insert(i, x)` for a Python list: negative indices count from the end, positions are clamped. -/
def pyInsert {α : Type} (l : List α) (i : ℤ) (x : α) : List α :=
  let j := if i < 0 then i + l.length else i
  let k := min j.toNat l.length
  l.take k ++ x :: l.drop k

/-- Dot product of two vectors (`codes @ weights`); numpy raises `ValueError` on a length mismatch. -/
def pyDot {K : Type} [Semiring K] (a b : List K) : Py K :=
  if a.length = b.length then .ok ((List.zipWith (· * ·) a b).sum) else .error .valueError

end Verif
