import Verif.Model.Dout
import Verif.Model.MatlabCal

/-!
# Model of `matlab/src/plotres.m` and `matlab/src/shortcut/plotressin.m`

The points drawn; axes, labels and transparency are left out. `none` stands for `error(...)` or an index outside an array. The weights are a row vector and the
signal is a vector, both given as lists; an `N x M` bit matrix is the list of its rows together with `M`.
-/

namespace Verif.Model

open Verif

variable {K : Type} [Field K] [LinearOrder K]

/-- A matrix of stage numbers with its size; entries are counted from zero. -/
structure StageMatrix where
  r : ℕ
  c : ℕ
  at_ : ℕ → ℕ → ℤ

/-- The argument `xy`: a preset or a matrix. `matlab/src/plotres.m:33-42`. -/
inductive MlXy where
  | sig
  | res
  | bit
  | mat (a : StageMatrix)

/-- `resolvePlotresXy`. `matlab/src/plotres.m:235-252`. -/
def mlResolveXy (m : ℕ) : MlXy → StageMatrix
  | .sig => { r := m, c := 2, at_ := fun i j => if j = 0 then 0 else i + 1 }
  | .res => { r := m, c := 2, at_ := fun i j => if j = 0 then i else m }
  | .bit => { r := m, c := 2, at_ := fun i j => if j = 0 then i else i + 1 }
  | .mat a => a

/-- `validatePlotresXy` and the reading of the pairs: two columns are taken as they are, anything else is transposed.
`matlab/src/plotres.m:97-103, 225-233`. -/
def mlPairs (a : StageMatrix) : Option (List (ℤ × ℤ)) :=
  if a.r ≠ 2 ∧ a.c ≠ 2 then none
  else if a.c = 2 then some ((List.range a.r).map fun i => (a.at_ i 0, a.at_ i 1))
  else some ((List.range a.c).map fun i => (a.at_ 0 i, a.at_ 1 i))

/-- `sig - bits(:,1:k)*wgt(1:k)'`; `1:k` is empty for `k < 1` and an error beyond the matrix or the weights. `matlab/src/plotres.m:112-113`. -/
def mlResidual (m : ℕ) (signal : List K) (rows : List (List K)) (w : List K) (k : ℤ) : Option (List K) :=
  if m < k.toNat ∨ w.length < k.toNat then none
  else some (signal.zipWith (fun s r => s - ((r.take k.toNat).zipWith (· * ·) (w.take k.toNat)).sum) rows)

/-- The points of one tile. `matlab/src/plotres.m:108-115`. -/
def mlTile (m : ℕ) (signal : List K) (rows : List (List K)) (w : List K) (p : ℤ × ℤ) : Option (List K × List K) :=
  match mlResidual m signal rows w p.1, mlResidual m signal rows w p.2 with
  | some x, some y => some (x, y)
  | _, _ => none

/-- `plotres(sig, bits, wgt, xy)`; `w = none` is the default of binary weights, `.res` the default of `xy`. `matlab/src/plotres.m:74-130`. -/
def mlPlotres (m : ℕ) (signal : List K) (rows : List (List K)) (w : Option (List K)) (xy : MlXy) : Option (List (List K × List K)) :=
  if signal.length ≠ rows.length then none
  else
    match mlPairs (mlResolveXy m xy) with
    | none => none
    | some ps => ps.mapM (mlTile m signal rows (w.getD ((List.range m).map fun i => 2 ^ (m - 1 - i))))

/-- `plotressin(bits, xy, 'freq', freq, 'order', H)`. `matlab/src/shortcut/plotressin.m:59-75`; the other arguments of `wcalsin` are its defaults
(`matlab/src/wcalsin.m:316-326`). -/
noncomputable def mlPlotressin (solve : Lstsq) (seg : List (List ℝ)) (xy : MlXy) (freq : ℝ) (H : ℕ) : Option (List (List ℝ × List ℝ)) :=
  let rows := orientSegment seg
  match mlWcalsin solve rows freq (1 / 2) (1 / 10 ^ 12) 100 H false none with
  | none => none
  | some r => mlPlotres (rows.headD []).length (r.ideal.map fun v => v + r.offset) rows (some r.weight) xy

end Verif.Model
