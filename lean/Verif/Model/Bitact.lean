import Verif.Model.DoutPlots

/-!
# Model of `matlab/src/legacy/bitact.m`

A bit matrix is the list of its rows. The numbers and the texts put into the plot are modelled, the drawing is not.
-/

namespace Verif.Model

open Verif

variable {K : Type} [Field K] [LinearOrder K] [IsStrictOrderedRing K] [FloorRing K]

omit [LinearOrder K] [IsStrictOrderedRing K] [FloorRing K] in
/-- `bit_usage`. `matlab/src/legacy/bitact.m:37-38`. A matrix without rows, for which MATLAB gives NaN in every column, is `none`. -/
def mlBitact : List (List K) → Option (List K)
  | [] => none
  | r :: rows => some ((List.range r.length).map fun j => ((r :: rows).map fun x => x.getD j 0).sum / ((r :: rows).length : K) * 100)

/-- A text of the plot: where it stands and what it says. `matlab/src/legacy/bitact.m:56, 60`. -/
structure BitactText (K : Type) where
  x : ℕ
  y : K
  label : NumText

/-- The text for bit `b`, counted from 1. `matlab/src/legacy/bitact.m:55-63`. -/
def bitactText (b : ℕ) (u : K) : Option (BitactText K) :=
  if 95 < u then some ⟨b, u + 3, fmtFixed u 1 "%"⟩
  else if u < 5 then some ⟨b, u + 3, fmtFixed u 1 "%"⟩
  else none

/-- All texts of the plot. `matlab/src/legacy/bitact.m:53-65`. -/
def bitactTexts (annotate : Bool) (usage : List K) : List (BitactText K) :=
  if annotate then (List.range usage.length).filterMap fun i => bitactText (i + 1) (usage.getD i 0) else []

omit [LinearOrder K] [IsStrictOrderedRing K] [FloorRing K] in
/-- The vertical axis. `matlab/src/legacy/bitact.m:47`. -/
def bitactLimits : K × K := (0, 100)

end Verif.Model
