import Verif.Model.Inl
import Verif.Model.Plots

/-!
# Model of `aout/plot_dnl_inl.py`, `aout/analyze_inl_from_ramp.py` and `aout/analyze_inl_from_sine.py`

A plot is described by the points drawn, the axis limits and the numbers in the title; axes, colours and labels are left out.
-/

namespace Verif.Model

open Verif

variable {K : Type} [Field K] [LinearOrder K] [IsStrictOrderedRing K] [FloorRing K]

/-- One of the two curves. -/
structure Curve (K : Type) where
  points : List (K × K)
  xlim : K × K
  ylim : K × K
  /-- The two numbers of the title, if there is one. -/
  title : Option (NumText × NumText)
deriving DecidableEq

/-- `x_values`. `aout/plot_dnl_inl.py:128-132`. -/
def curveX (numBits : Option ℕ) (code : List ℤ) : List K :=
  match numBits with
  | some b => code.map fun (c : ℤ) => (c : K) / 2 ^ b
  | none => code.map fun (c : ℤ) => (c : K)

/-- Horizontal axis. `aout/plot_dnl_inl.py:146-153`. With a single code matplotlib widens the empty interval; not modelled. -/
def curveXLimits (numBits : Option ℕ) (code : List ℤ) : K × K :=
  match numBits with
  | some _ => (0, 1)
  | none => ((intMin code : K), (intMax code : K))

/-- `_plot_single_curve` and the numbers of its title. `aout/plot_dnl_inl.py:95-106, 108-161`. `ax.plot` refuses different lengths, `np.min` refuses empty
arrays, both with `ValueError`. -/
def plotCurve (code : List ℤ) (data : List K) (numBits : Option ℕ) (showTitle : Bool) : Py (Curve K) :=
  if code.length ≠ data.length then .error .valueError
  else if data = [] then .error .valueError
  else
    let lo := foldMin (data.headD 0) data
    let hi := foldMax (data.headD 0) data
    .ok { points := (curveX numBits code).zip data, xlim := curveXLimits numBits code, ylim := dnlLimits lo hi
          title := if showTitle then some (fmtFixed lo 2 "", fmtFixed hi 2 "") else none }

/-- `plot_dnl_inl`: the DNL curve and the INL curve. `aout/plot_dnl_inl.py:84-106`. -/
def plotDnlInl (code : List ℤ) (dnl inl : List K) (numBits : Option ℕ) (showTitle : Bool) (inlCode : Option (List ℤ)) : Py (Curve K × Curve K) :=
  match plotCurve code dnl numBits showTitle with
  | .error e => .error e
  | .ok a =>
    match plotCurve (inlCode.getD code) inl numBits showTitle with
    | .error e => .error e
    | .ok b => .ok (a, b)

/-- `analyze_inl_from_ramp`; `isCodes` says whether `input_type == 'codes'`. `aout/analyze_inl_from_ramp.py:78-104`. -/
def analyzeInlRamp (codes : List K) (numBits : Option ℤ) (codeMin : ℤ) (codeMax : Option ℤ) (isCodes : Bool) (endpoint : Endpoint)
    (exclude createPlot showTitle : Bool) : Py (RampInl K × Option (Curve K × Curve K)) :=
  if !isCodes then .error .valueError
  else
    match inlFromRamp codes numBits codeMin codeMax endpoint exclude with
    | .error e => .error e
    | .ok r =>
      if createPlot then
        match plotDnlInl r.code r.dnl r.inl (numBits.map Int.toNat) showTitle (some r.transitionCode) with
        | .error e => .error e
        | .ok c => .ok (r, some c)
      else .ok (r, none)

/-- `analyze_inl_from_sine`. `aout/analyze_inl_from_sine.py:51-76`. -/
noncomputable def analyzeInlSine (data : List ℝ) (isFloat : Bool) (numBits : Option ℕ) (fullScale : Option ℝ) (clipPercent : ℝ)
    (createPlot showTitle : Bool) : Py (SineInl × Option (Curve ℝ × Curve ℝ)) :=
  match inlFromSine data isFloat numBits fullScale clipPercent with
  | .error e => .error e
  | .ok r =>
    if createPlot then
      match plotDnlInl r.code r.dnl r.inl numBits showTitle none with
      | .error e => .error e
      | .ok c => .ok (r, some c)
    else .ok (r, none)

end Verif.Model
