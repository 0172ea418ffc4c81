import Mathlib.Algebra.Order.Floor.Ring
import Mathlib.Algebra.Order.Field.Basic
import Mathlib.Algebra.Ring.Parity
import Mathlib.Data.Rat.Floor
import Mathlib.Tactic.Linarith
import Mathlib.Tactic.Ring
import Mathlib.Tactic.FieldSimp
import Mathlib.Tactic.Push

/-!
# Python / numpy primitives used by the modelled code

Numbers are elements of an arbitrary linearly ordered field (floats are modelled as exact numbers, see
`DESIGN.md`).  Exceptions are values.
-/

namespace Verif

/-- Exceptions raised by the modelled code (Python exception classes; messages dropped). -/
inductive PyErr where
  | valueError
  | typeError
  | zeroDivision
  | indexError
  | assertionError
  | fileExists
  | fileNotFound
deriving DecidableEq, Repr

/-- Result of a Python call that may raise. -/
abbrev Py (α : Type) := Except PyErr α

variable {K : Type} [Field K] [LinearOrder K] [IsStrictOrderedRing K] [FloorRing K]

/-- `np.round(x)`, `np.rint(x)` and Python 3 `round(x)`: nearest integer, ties to even. -/
def rint (x : K) : ℤ :=
  let f := ⌊x⌋
  if x - f < 1 / 2 then f
  else if 1 / 2 < x - f then f + 1
  else if f % 2 = 0 then f else f + 1

/-- Python `x % n` for numbers (`n > 0`): floored modulo, as used by `float.__mod__` / `int.__mod__`. -/
def pmod (x n : K) : K := x - n * ⌊x / n⌋

/-- Python `int(x)` / numpy `.astype(int)` on a float: truncation towards zero. -/
def truncInt (x : K) : ℤ := if 0 ≤ x then ⌊x⌋ else ⌈x⌉

/-- `np.clip(x, lo, hi)` = `minimum(maximum(x, lo), hi)`. -/
def clip {α : Type} [LinearOrder α] (x lo hi : α) : α := min (max x lo) hi

/-! ## Facts about rounding -/

omit [IsStrictOrderedRing K] in
theorem rint_eq_floor_or (x : K) : rint x = ⌊x⌋ ∨ rint x = ⌊x⌋ + 1 := by
  unfold rint; simp only; split_ifs <;> simp

theorem abs_sub_rint_le (x : K) : |x - rint x| ≤ 1 / 2 := by
  have h0 := Int.floor_le x
  have h1 := Int.lt_floor_add_one x
  unfold rint; simp only
  split_ifs with h2 h3 h4
  · rw [abs_le]; constructor <;> linarith
  · push_cast; rw [abs_le]; constructor <;> linarith
  · rw [abs_le]; constructor <;> linarith
  · push_cast; rw [abs_le]; constructor <;> linarith

theorem rint_intCast (z : ℤ) : rint (z : K) = z := by
  unfold rint; simp

theorem rint_unique {x : K} {z : ℤ} (h : |x - z| < 1 / 2) : rint x = z := by
  have h1 := abs_sub_rint_le x
  have h2 : |(rint x : K) - z| < 1 := by
    calc |(rint x : K) - z| = |(x - z) - (x - rint x)| := by ring_nf
      _ ≤ |x - z| + |x - rint x| := abs_sub _ _
      _ < 1 := by linarith
  have h3 : |rint x - z| < 1 := by exact_mod_cast h2
  have := Int.abs_lt_one_iff.mp h3
  omega

/-- No integer is strictly closer to `x` than `rint x`. -/
theorem rint_closest (x : K) (z : ℤ) : |x - rint x| ≤ |x - z| := by
  by_contra h
  push Not at h
  have h1 := abs_sub_rint_le x
  have := rint_unique (x := x) (z := z) (by linarith)
  rw [this] at h
  exact lt_irrefl _ h

theorem rint_mono {x y : K} (h : x ≤ y) : rint x ≤ rint y := by
  by_contra hc
  push Not at hc
  have hx := abs_le.mp (abs_sub_rint_le x)
  have hy := abs_le.mp (abs_sub_rint_le y)
  have h1 : (rint y : K) + 1 ≤ rint x := by exact_mod_cast hc
  have hxy : x = y := by linarith
  subst hxy
  exact absurd hc (lt_irrefl _)

theorem pmod_nonneg (x : K) {n : K} (hn : 0 < n) : 0 ≤ pmod x n := by
  unfold pmod
  have := Int.floor_le (x / n)
  rw [le_div_iff₀ hn] at this
  linarith

theorem pmod_lt (x : K) {n : K} (hn : 0 < n) : pmod x n < n := by
  unfold pmod
  have := Int.lt_floor_add_one (x / n)
  rw [div_lt_iff₀ hn] at this
  linarith

theorem clip_mem {α : Type} [LinearOrder α] {x lo hi : α} (h : lo ≤ hi) :
    lo ≤ clip x lo hi ∧ clip x lo hi ≤ hi := by
  unfold clip
  exact ⟨le_min (le_max_right _ _) h, min_le_right _ _⟩

theorem clip_of_mem {α : Type} [LinearOrder α] {x lo hi : α} (h1 : lo ≤ x) (h2 : x ≤ hi) :
    clip x lo hi = x := by
  unfold clip
  rw [max_eq_left h1, min_eq_left h2]

theorem clip_mono {α : Type} [LinearOrder α] {x y lo hi : α} (h : x ≤ y) :
    clip x lo hi ≤ clip y lo hi := by
  unfold clip
  exact min_le_min_right _ (max_le_max_right _ h)

end Verif
