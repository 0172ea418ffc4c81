import Verif.Model.Interleave
import Verif.Np.Dft
import Verif.Model.Frequency
import Mathlib.Analysis.SpecialFunctions.Complex.Arg
import Mathlib.Analysis.SpecialFunctions.Log.Base

/-!
# Model of `extract_mismatch_sine.py` and `predict_spurs.py`
-/

namespace Verif.Model

open Verif Finset

/-- Phase step correction of `np.unwrap` (period 2π, default discontinuity π): the wrapped difference
`mod(dd + π, 2π) - π`, with `-π` replaced by `π` for positive `dd`; left alone when `|dd| < π`. -/
noncomputable def unwrapStep (dd : ℝ) : ℝ :=
  let ddmod := pmod (dd + Real.pi) (2 * Real.pi) - Real.pi
  let ddmod := if ddmod = -Real.pi ∧ dd > 0 then Real.pi else ddmod
  if |dd| < Real.pi then 0 else ddmod - dd

/-- `np.unwrap(p)[1:]` given the previous raw phase and the accumulated correction (`cumsum`). -/
noncomputable def unwrapFrom (prev acc : ℝ) : List ℝ → List ℝ
  | [] => []
  | q :: qs =>
    let acc' := acc + unwrapStep (q - prev)
    (q + acc') :: unwrapFrom q acc' qs

/-- `np.unwrap(p)`. -/
noncomputable def unwrap : List ℝ → List ℝ
  | [] => []
  | p :: ps => p :: unwrapFrom p 0 ps

/-- `a.mean()` of a non-empty vector. -/
noncomputable def mean (l : List ℝ) : ℝ := l.sum / l.length

/-- Result dictionary of `extract_mismatch_sine`. -/
structure Mismatch where
  fin : ℝ
  A : ℝ
  gain : List ℝ
  offset : List ℝ
  skew : List ℝ
  phases : List ℝ

/-- Phasor of one channel. `timeinterleave/extract_mismatch_sine.py:77-81`: samples of channel `m` are taken at
`t = (k*M + m)/fs`, the channel mean is removed, the sum is scaled by `2/K`. -/
noncomputable def channelPhasor (y : List ℝ) (M m : ℕ) (fs fin : ℝ) : ℂ :=
  2 / (y.length : ℂ) * ∑ k ∈ range y.length,
    ((y.getD k 0 - mean y : ℝ) : ℂ) * cis (-(fin * ((k * M + m) * (1 / fs))))

/-- `extract_mismatch_sine(x, M, fs, fin)` with `fin` given. `timeinterleave/extract_mismatch_sine.py:56-103`.
`fin=None` first calls the frequency estimator, which is not modelled. `fs = 0` raises `ZeroDivisionError` at `1.0/fs`.
An empty record (K = 0) and `fin = 0` give NaN in numpy; theorems exclude them. -/
noncomputable def extractMismatch (ndim : ℕ) (x : List ℝ) (M : ℤ) (fs fin : ℝ) : Py Mismatch := do
  let ch ← deinterleave ndim x M
  if fs = 0 then .error .zeroDivision
  else
    let phasors := ch.zipIdx.map fun (p : List ℝ × ℕ) => channelPhasor p.1 M.toNat p.2 fs fin
    let amps := phasors.map fun z => ‖z‖
    let phases := phasors.map Complex.arg
    let aMean := mean amps
    let gain := if aMean > 0 then amps.map (· / aMean) else amps.map fun _ => 1
    let pu := unwrap phases
    let skew := pu.map fun p => (p - mean pu) / (2 * Real.pi * fin)
    .ok { fin := fin, A := aMean, gain := gain, offset := ch.map mean, skew := skew, phases := phases }

/-! ### predict_spurs -/

inductive SpurKind where
  | offset
  | gainSkew
deriving DecidableEq

/-- One entry of the list returned by `predict_spurs`; `none` in a dB field is `-inf`. -/
structure Spur where
  freq : ℝ
  kind : SpurKind
  k : ℕ
  amp : ℝ
  dbfs : Option ℝ
  dbc : Option ℝ

/-- `_to_db`. `timeinterleave/predict_spurs.py:74-79`. -/
noncomputable def spurDb (fullScale fundDbfs amp : ℝ) : Option ℝ × Option ℝ :=
  if amp ≤ 0 then (none, none)
  else
    let dbfs := 20 * Real.logb 10 (amp / fullScale)
    (some dbfs, some (dbfs - fundDbfs))

/-- The two append loops, in order, before sorting. `timeinterleave/predict_spurs.py:71-105`. -/
noncomputable def rawSpurs (gain offset skew : List ℝ) (A fs fin fullScale : ℝ) : List Spur :=
  let M := gain.length
  let fundAmp := A * mean gain
  let fundDbfs := 20 * Real.logb 10 (max (fundAmp / fullScale) (1 / 10 ^ 300))
  let off := (List.range (M - 1)).map fun (i : ℕ) =>
    let k := i + 1
    let amp := ‖dft M (fun m => ((offset.getD m 0 : ℝ) : ℂ)) k‖ / M
    let db := spurDb fullScale fundDbfs amp
    ({ freq := foldFrequency (k * fs / M) fs, kind := .offset, k := k, amp := amp, dbfs := db.1, dbc := db.2 } : Spur)
  let alpha : ℕ → ℂ := fun m => (gain.getD m 0 : ℝ) * cis (fin * skew.getD m 0)
  let alphaMean : ℂ := (∑ m ∈ range M, alpha m) / M
  let gs := (List.range (M - 1)).map fun (i : ℕ) =>
    let k := i + 1
    let amp := A * ‖dft M (fun m => alpha m - alphaMean) k‖ / M
    let db := spurDb fullScale fundDbfs amp
    ({ freq := foldFrequency (fin + k * fs / M) fs, kind := .gainSkew, k := k, amp := amp, dbfs := db.1, dbc := db.2 } : Spur)
  off ++ gs

open Classical in
/-- `predict_spurs(params, fs, fin, full_scale)`. `timeinterleave/predict_spurs.py:57-108`. `finArg` is the argument,
`finParam` the value stored under `"fin"`: when both are missing `float(None)` raises `TypeError` (the `ValueError`
branch that follows is unreachable). Python's stable sort by frequency is the stable insertion sort. -/
noncomputable def predictSpurs (gain offset skew : List ℝ) (A : Option ℝ) (finParam : Option ℝ) (fs : ℝ)
    (finArg : Option ℝ) (fullScale : ℝ) : Py (List Spur) :=
  match finArg.orElse fun _ => finParam with
  | none => .error .typeError
  | some fin =>
    if ¬ (offset.length = gain.length ∧ skew.length = gain.length) then .error .valueError
    else .ok ((rawSpurs gain offset skew (A.getD 1) fs fin fullScale).insertionSort fun a b => a.freq ≤ b.freq)

end Verif.Model
