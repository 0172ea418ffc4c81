import Verif.Model.Matlab
import Verif.Model.Inl
import Mathlib.Analysis.SpecialFunctions.Log.Base

/-!
# Model of `adcpanel.m`, the MATLAB dashboard

The panel recognises the data, runs the analysis functions one after another, each in its own `try`, and collects a report. The functions themselves are arguments here: what is
stated about the panel holds for every behaviour of theirs, errors included (`none`). Figures, titles and printed text are left out, except the part of the record shown in the
time-domain tile.
-/

namespace Verif.Model

open Verif

/-- The name-value arguments after parsing: names lower-cased, `harmonic` rounded. `matlab/src/adcpanel.m:261-274,279-288`. The validators (positive numbers, `fin` in [0, 0.5]) are
left out; a window function handle is a name here; `verbose` only prints. -/
structure PanelArgs where
  dataType : String := "auto"
  signalType : String := "sinewave"
  osr : ℝ := 1
  fs : ℝ := 1
  maxCode : Option ℝ := none
  harmonic : ℤ := 5
  window : String := "hann"
  fin : ℝ := 0
  disp : Bool := true

/-- The functions called by the panel, with the arguments they get; `R` stands for their reports. `matlab/src/adcpanel.m:416,434,440,490,557,573,588,602,620,635,647,680`. The flag of
`errsin` is true for the phase axis, that of `plotphase` for the FFT mode. `wcalsin` gives weights, offset and frequency; `plotwgt` gives `wgtsca` and `effres`; `tomdec` also its
frequency. The returned weights are taken to have the width of the bit matrix. -/
structure PanelLib (R : Type) where
  bitchk : List (List ℝ) → Option R
  wcalsin : List (List ℝ) → ℝ → ℤ → Option (List ℝ × ℝ × ℝ)
  plotwgt : List ℝ → Option (ℝ × ℝ)
  tomdec : List ℝ → ℝ → ℤ → Option (R × ℝ)
  errsin : List ℝ → ℝ → Bool → ℝ → String → Option R
  plotspec : List (List ℝ) → ℝ → ℝ → ℤ → ℝ → String → Option R
  plotphase : List (List ℝ) → ℤ → ℝ → ℝ → ℝ → String → Bool → Option R
  inlsin : List ℤ → Option R
  perfosr : List ℝ → ℤ → Option R

/-- A field of the report: set to a result, to `struct('error', ...)`, to `struct('skipped', ...)`, to `[]`, or not set at all. -/
inductive PanelField (R : Type) where
  | value (r : R)
  | error
  | skipped
  | empty
  | absent

/-- `try ... catch` around one call. -/
def PanelField.ofTry {R : Type} : Option R → PanelField R
  | some r => .value r
  | none => .error

/-- What a successful calibration adds to `rep.bits`. `matlab/src/adcpanel.m:444,455-462`. -/
structure PanelCal where
  weights : List ℝ
  offset : ℝ
  freqcal : ℝ
  postcal : List ℝ
  effres : ℝ

/-- `rep.bits`; `none` for the calibration part means `weights = []` and an error text. `matlab/src/adcpanel.m:405-475`. -/
structure PanelBits (R : Type) where
  overflow : PanelField R
  cal : Option PanelCal

/-- The report. `fullScale` (the value of `maxCode` handed on) and `fewSamples` (the warning of lines 613-616) are not fields of the MATLAB struct. -/
structure PanelReport (R : Type) where
  dataType : String
  signalType : String
  bits : Option (PanelBits R)
  decomp : PanelField R
  errorPhase : PanelField R
  spectrum : PanelField R
  errorValue : PanelField R
  phaseFFT : PanelField R
  linearity : PanelField R
  phaseLMS : PanelField R
  osr : PanelField R
  fullScale : Option ℝ
  fewSamples : Bool

/-! ## Data type detection -/

/-- One row of `dec2bin(d, n) - '0'` with `w` digits. -/
def dec2binRow (w d : ℕ) : List ℝ := (List.range w).map fun j => ((d / 2 ^ (w - 1 - j) % 2 : ℕ) : ℝ)

/-- `dec2bin(d, n) - '0'`: at least `n` digits, more if the largest number needs them (MATLAB built-in). -/
def dec2bin (n : ℕ) (ds : List ℕ) : List (List ℝ) := ds.map (dec2binRow ((ds.map Nat.size).foldl max n))

/-- `nBits` from the smallest and the largest code. `matlab/src/adcpanel.m:323-339`. -/
noncomputable def codeWidth (lo hi : ℤ) : ℤ :=
  if 0 ≤ lo then
    if hi = 0 then 1 else ⌈Real.logb 2 ((hi : ℝ) + 1)⌉
  else max (⌈Real.logb 2 (-(lo : ℝ))⌉ + 1) (if 0 < hi then ⌈Real.logb 2 ((hi : ℝ) + 1)⌉ + 1 else 1)

/-- The integer codes of a column as a bit matrix. `matlab/src/adcpanel.m:317-347`. Without a negative code the replacement of negative codes changes nothing. -/
noncomputable def panelCodes (codes : List ℤ) : List (List ℝ) :=
  let n := (codeWidth (intMin codes) (intMax codes)).toNat
  dec2bin n (codes.map fun d => (if d < 0 then 2 ^ n + d else d).toNat)

/-- The column as integers; `dec2bin` accepts integers only (an error otherwise). -/
noncomputable def integerColumn (rows : List (List ℝ)) : Option (List ℤ) :=
  open Classical in if ∀ r ∈ rows, r.getD 0 0 = (⌊r.getD 0 0⌋ : ℝ) then some (rows.map fun r => ⌊r.getD 0 0⌋) else none

/-- Detection and orientation of an `N`-by-`M` matrix given by rows: the type, the new number of columns and the rows. `matlab/src/adcpanel.m:291-360`. A `dataType` other than the
three documented ones passes unchanged. -/
noncomputable def panelData (dataType : String) (M : ℕ) (rows : List (List ℝ)) : Option (String × ℕ × List (List ℝ)) :=
  let N := rows.length
  if N = 0 ∨ M = 0 then none
  else if dataType = "auto" then
    if N = 1 ∨ M = 1 then some ("values", if N = 1 then (1, mlTranspose M rows) else (M, rows))
    else some ("bits", if N < M then (N, mlTranspose M rows) else (M, rows))
  else if dataType = "bits" then
    let d := if N < M then (N, mlTranspose M rows) else (M, rows)
    if d.1 = 1 then (integerColumn d.2).map fun codes => ("bits", ((panelCodes codes).headD []).length, panelCodes codes)
    else some ("bits", d)
  else if dataType = "values" then some ("values", if N = 1 ∧ 1 < M then (1, mlTranspose M rows) else (M, rows))
  else some (dataType, M, rows)

/-! ## The pipelines -/

/-- `max(dat(:)) - min(dat(:))`. `matlab/src/adcpanel.m:481`. -/
noncomputable def panelSpan (rows : List (List ℝ)) : ℝ := foldMax (rows.flatten.headD 0) rows.flatten - foldMin (rows.flatten.headD 0) rows.flatten

/-- `bits*weights'`. `matlab/src/adcpanel.m:460`. -/
def panelDot (bits : List (List ℝ)) (w : List ℝ) : List ℝ := bits.map fun b => (List.zipWith (· * ·) b w).sum

section

variable {R : Type} (lib : PanelLib R) (a : PanelArgs)

/-- C2 and C3: calibration and scaling; also the full scale. `matlab/src/adcpanel.m:433-471`. A zero weight sum with a given `maxCode` (MATLAB: Inf) gives 0 here. -/
noncomputable def panelCal (bits : List (List ℝ)) : Option (PanelCal × ℝ) :=
  match lib.wcalsin bits a.fin a.harmonic with
  | none => none
  | some (w, off, f) =>
    match lib.plotwgt w with
    | none => none
    | some (wgtsca, effres) =>
      let mc := match a.maxCode with
        | none => (w.map fun x => |x|).sum * wgtsca
        | some m => m
      let k := match a.maxCode with
        | none => wgtsca
        | some m => m / w.sum
      let ws := w.map fun x => x * k
      some ({ weights := ws, offset := off * k, freqcal := f, postcal := panelDot bits ws, effres := effres }, mc)

/-- Pipeline A. `sig` and `full` are `none` when the calibration left them undefined: every use of them is inside a `try`. `matlab/src/adcpanel.m:484-655`. -/
noncomputable def panelSine (N : ℕ) (mc fin : ℝ) (sig : Option (List ℝ)) (full : Option (List (List ℝ))) (dataType : String) (bits : Option (PanelBits R)) : PanelReport R :=
  let dec := sig.bind fun s => lib.tomdec s fin a.harmonic
  let fin' := match dec with
    | some r => if fin = 0 then r.2 else fin
    | none => fin
  { dataType := dataType, signalType := a.signalType, bits := bits
    decomp := .ofTry (dec.map Prod.fst)
    errorPhase := .ofTry (sig.bind fun s => lib.errsin s fin' true a.osr a.window)
    spectrum := .ofTry (full.bind fun s => lib.plotspec s a.fs mc a.harmonic a.osr a.window)
    errorValue := .ofTry (sig.bind fun s => lib.errsin s fin' false a.osr a.window)
    phaseFFT := if a.disp then .ofTry (full.bind fun s => lib.plotphase s a.harmonic mc a.fs a.osr a.window true) else .absent
    linearity := .ofTry (sig.bind fun s => lib.inlsin (s.map mlRound))
    phaseLMS := if a.disp then .ofTry (full.bind fun s => lib.plotphase s a.harmonic mc a.fs a.osr a.window false) else .absent
    osr := .ofTry (sig.bind fun s => lib.perfosr s a.harmonic)
    fullScale := some mc, fewSamples := decide ((N : ℝ) < mc) }

/-- Pipeline B. `matlab/src/adcpanel.m:657-700`. The numbers of `plotspec` are dropped (`rep.spectrum = []`). -/
noncomputable def panelOther (mc : ℝ) (full : List (List ℝ)) (dataType : String) : PanelReport R :=
  { dataType := dataType, signalType := a.signalType, bits := none
    decomp := .skipped, errorPhase := .skipped
    spectrum := match lib.plotspec full a.fs mc 0 a.osr a.window with
      | some _ => .empty
      | none => .error
    errorValue := .skipped, phaseFFT := .skipped, linearity := .skipped, phaseLMS := .skipped, osr := .skipped
    fullScale := some mc, fewSamples := false }

/-- `adcpanel(dat, ...)`. `matlab/src/adcpanel.m:290-702`; `none` is an error that leaves the function. -/
noncomputable def adcpanel (M : ℕ) (rows : List (List ℝ)) : Option (PanelReport R) :=
  match panelData a.dataType M rows with
  | none => none
  | some (ty, _, d) =>
    if ty = "bits" then
      match panelCal lib a d with
      | some (c, mc) => some (panelSine lib a d.length mc c.freqcal (some c.postcal) (some (c.postcal.map fun v => [v])) ty
          (some { overflow := .ofTry (lib.bitchk d), cal := some c }))
      | none => some (panelSine lib a d.length (a.maxCode.getD (panelSpan d)) a.fin none none ty (some { overflow := .ofTry (lib.bitchk d), cal := none }))
    else if ty = "values" then
      let mc := a.maxCode.getD (panelSpan d)
      if a.signalType = "sinewave" then some (panelSine lib a d.length mc a.fin (some (d.map fun r => r.getD 0 0)) (some d) ty none)
      else some (panelOther lib a mc d ty)
    else some { dataType := ty, signalType := a.signalType, bits := none, decomp := .absent, errorPhase := .absent, spectrum := .absent, errorValue := .absent,
                phaseFFT := .absent, linearity := .absent, phaseLMS := .absent, osr := .absent, fullScale := none, fewSamples := false }

end

/-- The part of the record shown in the time-domain tile, for the one-based position `idx` of the largest error. `matlab/src/adcpanel.m:510-518,541-544`. At `freq = 1/2` MATLAB
divides by zero and shows the whole record. -/
noncomputable def panelWindow (N idx : ℕ) (freq : ℝ) : ℤ × ℤ :=
  if freq = 1 / 2 then (1, N)
  else
    let spc : ℤ := if 1 / 4 < freq then mlRound (1 / (1 / 2 - freq)) else mlRound (1 / freq)
    let half : ℝ := max (3 / 2 * spc) 50
    (max 1 (mlRound ((idx : ℝ) - half)), min N (mlRound ((idx : ℝ) + half)))

end Verif.Model
