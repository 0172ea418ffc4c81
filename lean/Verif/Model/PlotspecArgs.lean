import Mathlib.Data.Real.Basic

/-!
# Model of the aliased parameters of `matlab/src/plotspec.m`

The five pairs of an old and a new name. An argument that is not passed is `none`; one that is passed has the kind its validator asks for, and the sign checks are modelled. Logical
arguments are `Bool`; the numbers 0 and 1, which the validators also take for them, are not distinguished from it.
-/

namespace Verif.Model

/-- A value of `averageMode`. `matlab/src/plotspec.m:145, 161`. -/
inductive AvgModeArg where
  | normal
  | coherent
  | number (b : Bool)
deriving DecidableEq

/-- A value of `window` or `winType`: one of the two words or a function handle. `matlab/src/plotspec.m:143, 152, 157`. -/
inductive WindowArg where
  | hann
  | rect
  | handle (id : ℕ)
deriving DecidableEq

/-- The aliased arguments as passed. `matlab/src/plotspec.m:148, 152-161`. -/
structure PlotspecArgs where
  averageMode : Option AvgModeArg := none
  coAvg : Option Bool := none
  maxSignal : Option ℝ := none
  maxCode : Option ℝ := none
  window : Option WindowArg := none
  winType : Option WindowArg := none
  disp : Option Bool := none
  isPlot : Option Bool := none
  cutoff : Option ℝ := none
  noFlicker : Option ℝ := none

/-- The five internal variables. `matlab/src/plotspec.m:196-241`. -/
structure PlotspecVars where
  coAvg : Bool
  maxSignal : ℝ
  windowFunc : WindowArg
  dispPlot : Bool
  cutoffFreq : ℝ

/-- `validScalarPosNum` on an argument that was passed; defaults are not checked. `matlab/src/plotspec.m:140`. -/
def passesPos : Option ℝ → Prop
  | none => True
  | some x => 0 < x

/-- `coAvg`. `matlab/src/plotspec.m:198-213`. -/
def avgVar (a : PlotspecArgs) : Bool :=
  match a.averageMode.getD .normal with
  | .normal => a.coAvg.getD false
  | .coherent => true
  | .number b => b

/-- `windowFunc`. `matlab/src/plotspec.m:223-227`. -/
def windowVar (a : PlotspecArgs) : WindowArg := if a.window.getD .hann ≠ .hann then a.window.getD .hann else a.winType.getD .hann

/-- `maxSignal`; the default NaN of the new name is `none`, `range` is `max(max(sig))-min(min(sig))`. `matlab/src/plotspec.m:148, 216-220`. -/
noncomputable def signalVar (range : ℝ) (a : PlotspecArgs) : ℝ :=
  match a.maxSignal with
  | some x => x
  | none => a.maxCode.getD range

/-- `dispPlot`. `matlab/src/plotspec.m:230-234`. -/
def dispVar (a : PlotspecArgs) : Bool :=
  match a.disp with
  | some b => b
  | none => a.isPlot.getD true

open Classical in
/-- `cutoffFreq`. `matlab/src/plotspec.m:237-241`. -/
noncomputable def cutoffVar (a : PlotspecArgs) : ℝ := if 0 < a.cutoff.getD 0 then a.cutoff.getD 0 else a.noFlicker.getD 0

open Classical in
/-- Parsing and alias handling; `none` is the error of a validator. `matlab/src/plotspec.m:140-241`. -/
noncomputable def plotspecVars (range : ℝ) (a : PlotspecArgs) : Option PlotspecVars :=
  if passesPos a.maxSignal ∧ passesPos a.maxCode ∧ passesPos a.cutoff ∧ passesPos a.noFlicker then
    some ⟨avgVar a, signalVar range a, windowVar a, dispVar a, cutoffVar a⟩
  else none

end Verif.Model
