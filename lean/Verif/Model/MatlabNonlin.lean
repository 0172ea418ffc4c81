import Verif.Model.MatlabFit
import Verif.Model.StaticNonlin

/-!
# Model of MATLAB `dumped/fitstaticnl.m`

`aout/fit_static_nonlin.py:6` names it as its counterpart. The least-squares routine behind `polyfit` and `linsolve` is the parameter `solve`. `none` stands for an error,
or for a result that is NaN because the sine fit is.
-/

namespace Verif.Model

open Verif Finset

/-- MATLAB's `polyfit(x, y, d)`: least squares on the Vandermonde columns as they are (NumPy divides them by their norms first); highest power first. -/
noncomputable def mlPolyfit (solve : Lstsq) (N : ℕ) (x y : ℕ → ℝ) (d : ℕ) : List ℝ := solve N (vander x d) y

/-- The part after the sine fit. `matlab/src/dumped/fitstaticnl.m:126-189`. -/
noncomputable def mlStaticCore (solve : Lstsq) (N : ℕ) (y fitted : ℕ → ℝ) (order : ℕ) : Option StaticNonlin :=
  let xIdeal := fun t => fitted t - colMean N fitted
  let yActual := fun t => y t - colMean N y
  let xmax := colPeak N xIdeal
  if xmax < 1 / 10 ^ 10 then none
  else
    let p := mlPolyfit solve N (fun t => xIdeal t / xmax) yActual order
    let k1 := p.getD (p.length - 2) 0 / xmax
    let lo := recMin N fitted
    let hi := recMax N fitted
    let xs := (List.range transferPoints).map fun (i : ℕ) => lo + (i : ℝ) * ((hi - lo) / ((transferPoints : ℝ) - 1))
    some { k2 := fdiv (p.getD (p.length - 3) 0 / xmax ^ 2) k1, k3 := if 3 ≤ order then fdiv (p.getD (p.length - 4) 0 / xmax ^ 3) k1 else none,
           fitted := fitted, transferX := xs, transferY := xs.map fun v => polyval p ((v - colMean N fitted) / xmax) + colMean N y }

/-- `fitstaticnl(sig, order, freq)`; `freq = 0` is the default. The warning is left out. `matlab/src/dumped/fitstaticnl.m:80-189`. -/
noncomputable def mlStaticNl (solve : Lstsq) (N : ℕ) (y : ℕ → ℝ) (order : ℤ) (freq : ℝ) : Option StaticNonlin :=
  if order < 2 then none
  else if freq < 0 ∨ 1 / 2 ≤ freq then none
  else if (N : ℤ) < order + 2 then none
  else (mlSinfitDefault solve N y freq).bind fun m => mlStaticCore solve N y m.fitted order.toNat

end Verif.Model
