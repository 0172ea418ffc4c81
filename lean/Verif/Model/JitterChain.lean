import Verif.Model.SigGen

/-!
# Model of `apply_jitter` on a given record (`siggen/nonidealities.py:94-100`)

`scipy.interpolate.CubicSpline` is a parameter: any routine that returns a spline as its documentation describes it for the default end condition
"not-a-knot".
-/

namespace Verif.Model

open Verif

/-- A cubic in local powers, as in the coefficient table of `CubicSpline`. Used at `siggen/nonidealities.py:99`. -/
@[ext] structure Cubic where
  a : ℝ
  b : ℝ
  c : ℝ
  d : ℝ

/-- Value of a cubic. Used at `siggen/nonidealities.py:100`. -/
def Cubic.eval (p : Cubic) (v : ℝ) : ℝ := p.a + p.b * v + p.c * v ^ 2 + p.d * v ^ 3

/-- First derivative of a cubic. Part of the description of `CubicSpline`, `siggen/nonidealities.py:99`. -/
def Cubic.slope (p : Cubic) (v : ℝ) : ℝ := p.b + 2 * p.c * v + 3 * p.d * v ^ 2

/-- Second derivative of a cubic. Part of the description of `CubicSpline`, `siggen/nonidealities.py:99`. -/
def Cubic.curv (p : Cubic) (v : ℝ) : ℝ := 2 * p.c + 6 * p.d * v

/-- What `CubicSpline(x, y)` returns for `n` knots a distance `h` apart, one cubic for each interval: it passes through the points, slope and curvature
are continuous, and the first two and the last two intervals carry the same polynomial ("not-a-knot"); three points give a parabola, two a line.
`siggen/nonidealities.py:99`. -/
structure IsCubicSpline (n : ℕ) (h : ℝ) (y : ℕ → ℝ) (p : ℕ → Cubic) : Prop where
  left : ∀ i, i + 1 < n → (p i).eval 0 = y i
  right : ∀ i, i + 1 < n → (p i).eval h = y (i + 1)
  slope : ∀ i, i + 2 < n → (p i).slope h = (p (i + 1)).slope 0
  curv : ∀ i, i + 2 < n → (p i).curv h = (p (i + 1)).curv 0
  start : 3 ≤ n → ∀ v, (p 0).eval (h + v) = (p 1).eval v
  stop : 3 ≤ n → ∀ v, (p (n - 3)).eval (h + v) = (p (n - 2)).eval v
  three : n = 3 → (p 0).d = 0
  two : n = 2 → (p 0).c = 0 ∧ (p 0).d = 0

/-- The routine: number of knots, their distance, the values. `siggen/nonidealities.py:99`. -/
abbrev SplineLib := ℕ → ℝ → (ℕ → ℝ) → ℕ → Cubic

/-- The routine does as documented. `siggen/nonidealities.py:99`. -/
def IsSplineLib (L : SplineLib) : Prop := ∀ n h y, 2 ≤ n → 0 < h → IsCubicSpline n h y (L n h y)

/-- Evaluation at a time: the cubic of the interval that contains it, the first or last one outside. `siggen/nonidealities.py:100`. -/
noncomputable def splineAt (n : ℕ) (fs : ℝ) (p : ℕ → Cubic) (x : ℝ) : ℝ :=
  let i := min ⌊x * fs⌋.toNat (n - 2)
  (p i).eval (x - i / fs)

/-- `apply_jitter` on a given record with the drawn time errors `tj`. `CubicSpline` raises for fewer than two knots, knots that do not increase and
values of another length. `siggen/nonidealities.py:94-100`. -/
noncomputable def Gen.jitterChain (L : SplineLib) (g : Gen) (x : List ℝ) (tj : ℕ → ℝ) : Py (List ℝ) :=
  if g.n < 2 ∨ g.fs ≤ 0 ∨ x.length ≠ g.n then .error .valueError
  else .ok ((List.range g.n).map fun i => splineAt g.n g.fs (L g.n (1 / g.fs) fun k => x.getD k 0) (g.t i + tj i))

end Verif.Model
