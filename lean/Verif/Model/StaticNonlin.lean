import Verif.Model.ErrorBins

/-!
# Model of `aout/fit_static_nonlin.py`

A record of `N` samples is a function on `ℕ` read at `0 .. N-1`. `np.linalg.lstsq`, used by the sine fit and inside `np.polyfit`, is the parameter `solve`.
-/

namespace Verif.Model

open Verif Finset

/-- Columns of `np.vander(x, d + 1)`: powers `d, d - 1, …, 0`. -/
noncomputable def vander (x : ℕ → ℝ) (d : ℕ) : List (ℕ → ℝ) := (List.range (d + 1)).map fun (i : ℕ) => fun (t : ℕ) => x t ^ (d - i)

/-- Euclidean norm of a column over `N` rows. -/
noncomputable def colNorm (N : ℕ) (c : ℕ → ℝ) : ℝ := Real.sqrt (∑ t ∈ range N, c t ^ 2)

/-- `np.polyfit(x, y, d)`: least squares on the Vandermonde columns divided by their norms, coefficients divided by the norms afterwards; highest power
first. The singular-value cutoff `rcond` is not modelled. -/
noncomputable def polyfit (solve : Lstsq) (N : ℕ) (x y : ℕ → ℝ) (d : ℕ) : List ℝ :=
  let c := solve N ((vander x d).map fun col => fun t => col t / colNorm N col) y
  (List.range (d + 1)).map fun (i : ℕ) => c.getD i 0 / colNorm N ((vander x d).getD i 0)

/-- `np.polyval(c, v)`, highest power first. -/
noncomputable def polyval (c : List ℝ) (v : ℝ) : ℝ := c.foldl (fun acc a => acc * v + a) 0

/-- `a / b` in floating point: `none` stands for inf or NaN. -/
noncomputable def fdiv (a b : ℝ) : Option ℝ := if b = 0 then none else some (a / b)

/-- The returned tuple; `none` stands for NaN (or inf, when the linear coefficient is zero). -/
structure StaticNonlin where
  k2 : Option ℝ
  k3 : Option ℝ
  fitted : ℕ → ℝ
  transferX : List ℝ
  transferY : List ℝ

/-- `np.linspace(a, b, 1000)`. `@[irreducible]` keeps Lean from unfolding the count. -/
@[irreducible] def transferPoints : ℕ := 1000

/-- The part after the sine fit. `aout/fit_static_nonlin.py:86-143`. -/
noncomputable def staticNonlinCore (solve : Lstsq) (N : ℕ) (y fitted : ℕ → ℝ) (order : ℕ) : Py StaticNonlin :=
  let x := fun t => fitted t - colMean N fitted
  let z := fun t => y t - colMean N y
  let xmax := colPeak N x
  if xmax < 1 / 10 ^ 10 then .error .valueError
  else
    let p := polyfit solve N (fun t => x t / xmax) z order
    let k1 := p.getD (order - 1) 0 / xmax
    let lo := recMin N fitted
    let hi := recMax N fitted
    let xs := (List.range transferPoints).map fun (i : ℕ) => lo + (i : ℝ) * ((hi - lo) / ((transferPoints : ℝ) - 1))
    .ok { k2 := fdiv (p.getD (order - 2) 0 / xmax ^ 2) k1, k3 := if 3 ≤ order then fdiv (p.getD (order - 3) 0 / xmax ^ 3) k1 else none,
          fitted := fitted, transferX := xs, transferY := xs.map fun v => polyval p ((v - colMean N fitted) / xmax) + colMean N y }

/-- `fit_static_nonlin`. `aout/fit_static_nonlin.py:66-143`. The warning for orders above 10 is left out. `fit_sine` runs with its defaults (automatic
frequency, one refinement, tolerance `1e-9`). -/
noncomputable def fitStaticNonlin (solve : Lstsq) (N : ℕ) (y : ℕ → ℝ) (order : ℤ) : Py StaticNonlin :=
  if order < 2 then .error .valueError
  else if (N : ℤ) < order + 2 then .error .valueError
  else
    match fitCore solve N y none 1 (1 / 10 ^ 9) with
    | .error e => .error e
    | .ok fit => staticNonlinCore solve N y fit.fitted order.toNat

end Verif.Model
