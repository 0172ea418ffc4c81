import Mathlib.Data.Rat.Defs

/-!
# Model of the argument conversion of `matlab/src/legacy/errHistSine.m`

Numbers are rational; a logical argument counts as the number 0 or 1, which is how `==` treats it. `other` stands for every further kind of argument (function handle, string object,
matrix); `ischar` is false of it. Simplified: after `'mode'`, an `other` counts as different from 0, though the script would take a matrix of zeros as 0 and fail on a handle.
-/

namespace Verif.Model

/-- An argument of a MATLAB call, as `varargin` holds it. `matlab/src/legacy/errHistSine.m:1`. -/
inductive MlArg where
  | text (s : String)
  | num (q : ℚ)
  | other (id : ℕ)
deriving DecidableEq

/-- `ischar(a) && strcmpi(a, 'mode')`. `matlab/src/legacy/errHistSine.m:52`. -/
def MlArg.isMode : MlArg → Bool
  | .text s => s.toLower = "mode"
  | _ => false

/-- The two cells added for `'mode', modeVal`. A text compared with 0 gives an array of falses, so it takes the second branch. `matlab/src/legacy/errHistSine.m:56-62`. -/
def modeCells (v : MlArg) : List MlArg := if v = .num 0 then [.text "xaxis", .text "phase"] else [.text "xaxis", .text "value"]

/-- The loop over `varargin`; `none` is `error('errHistSine:invalidMode', …)`. `matlab/src/legacy/errHistSine.m:49-72`. -/
def histArgs : List MlArg → Option (List MlArg)
  | [] => some []
  | [a] => if a.isMode then none else some [a]
  | a :: b :: rest =>
    if a.isMode then (histArgs rest).map fun r => modeCells b ++ r
    else (histArgs (b :: rest)).map fun r => a :: r

end Verif.Model
