import Verif.Model.MatlabFit

/-!
# Model of MATLAB `tomdec.m` (without the plot)

`linsolve` is the parameter `solve`, as `np.linalg.lstsq` is in `Model/ErrorDecomp.lean`.
-/

namespace Verif.Model

open Verif

/-- `[ones, SI, SQ]`: the constant, all cosines, all sines. `matlab/src/tomdec.m:87-95`. -/
noncomputable def mlTomCols (f : ℝ) (order : ℕ) : List (ℕ → ℝ) :=
  (fun _ => 1) :: (((List.range order).map fun (h : ℕ) => fun (t : ℕ) => Real.cos (t * f * ((h : ℝ) + 1) * 2 * Real.pi)) ++
    ((List.range order).map fun (h : ℕ) => fun (t : ℕ) => Real.sin (t * f * ((h : ℝ) + 1) * 2 * Real.pi)))

/-- The returned values. `matlab/src/tomdec.m:1`. -/
structure MlDecomp where
  sine : ℕ → ℝ
  err : ℕ → ℝ
  har : ℕ → ℝ
  oth : ℕ → ℝ
  freq : ℝ

/-- The part after the frequency is known. `matlab/src/tomdec.m:94-111`. -/
noncomputable def mlTomSplit (solve : Lstsq) (n : ℕ) (y : ℕ → ℝ) (f : ℝ) (order : ℕ) : MlDecomp :=
  let W := solve n (mlTomCols f order) y
  let sine := fun (t : ℕ) => W.getD 0 0 + Real.cos (t * f * 1 * 2 * Real.pi) * W.getD 1 0 + Real.sin (t * f * 1 * 2 * Real.pi) * W.getD (1 + order) 0
  let all := matVec (mlTomCols f order) W
  { sine := sine, err := fun t => y t - sine t, har := fun t => all t - sine t, oth := fun t => y t - all t, freq := f }

/-- `tomdec(sig, freq, order)` for a vector of `n` samples; `none` for the frequency is the default `-1`. A frequency outside `[0, 0.5]` or an
order below one is refused by the parser, and zero asks for the automatic frequency. Simplification: the order is an integer (the code rounds it).
`matlab/src/tomdec.m:61-111`. -/
noncomputable def mlTomdec (solve : Lstsq) (n : ℕ) (y : ℕ → ℝ) (freq : Option ℝ) (order : ℤ) : Option MlDecomp :=
  if order < 1 then none
  else
    match freq with
    | none => (mlFindfreq solve n y 1).map fun f => mlTomSplit solve n y f order.toNat
    | some f =>
      if f < 0 ∨ 1 / 2 < f then none
      else if f = 0 then (mlFindfreq solve n y 1).map fun f => mlTomSplit solve n y f order.toNat
      else some (mlTomSplit solve n y f order.toNat)

end Verif.Model
