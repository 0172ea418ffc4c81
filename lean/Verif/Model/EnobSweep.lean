import Verif.Model.Calibration
import Verif.Model.Spectrum

/-!
# Model of `dout/analyze_enob_sweep.py`

Without the plot and the progress messages. The bit matrix is the list of its rows (samples).
-/

namespace Verif.Model

open Verif Finset

/-- `bits[:, :n_bits] @ weights_all[:n_bits]` for a matrix with `m` columns. `dout/analyze_enob_sweep.py:75-80`. The product of
shapes that do not fit raises `ValueError`. -/
noncomputable def subsetSignal (rows : List (List ℝ)) (m : ℕ) (w : List ℝ) (n : ℕ) : Py (List ℝ) :=
  if min n m ≠ min n w.length then .error .valueError
  else .ok (rows.map fun r => ((List.range (min n m)).map fun (j : ℕ) => r.getD j 0 * w.getD j 0).sum)

/-- One pass of the sweep. `dout/analyze_enob_sweep.py:74-85`. `analyze_spectrum` without a plot returns the metrics of
`compute_spectrum` (`spectrum/analyze_spectrum.py:74-101`). -/
noncomputable def sweepEntry (lib : WinLib) (rows : List (List ℝ)) (m : ℕ) (w : List ℝ) (osr : ℝ) (win : String) (n : ℕ) : Py EReal :=
  match subsetSignal rows m w n with
  | .error e => .error e
  | .ok s =>
    match computeSpectrum lib [s] { osr := osr, win := win } with
    | .error e => .error e
    | .ok r => .ok r.enob

/-- The loop over bit counts: the first exception ends it. `dout/analyze_enob_sweep.py:70-85`. -/
noncomputable def sweepAll (f : ℕ → Py EReal) : List ℕ → Py (List EReal)
  | [] => .ok []
  | n :: ns =>
    match f n with
    | .error e => .error e
    | .ok v =>
      match sweepAll f ns with
      | .error e => .error e
      | .ok vs => .ok (v :: vs)

/-- `analyze_enob_sweep(bits, freq, harmonic_order, osr, win_type)`. `dout/analyze_enob_sweep.py:62-85,135`: the ENOB values and the
bit counts. The remaining arguments of `calibrate_weight_sine` keep their defaults (`calibration/calibrate_weight_sine.py:28-38`).
An array without rows has no second dimension in this model; it is refused by the calibration. -/
noncomputable def analyzeEnobSweep (lib : WinLib) (solve : Lstsq) (est : List ℝ) (rows : List (List ℝ)) (freq : FreqArg) (H : ℕ) (osr : ℝ)
    (win : String) : Py (List EReal × List ℕ) :=
  let m := (rows.headD []).length
  match calibrate solve est [rows] freq none none H (1 / 2) (1 / 10 ^ 12) 100 with
  | .error e => .error e
  | .ok c =>
    let counts := (List.range m).map fun (i : ℕ) => i + 1
    match sweepAll (sweepEntry lib rows m c.weight osr win) counts with
    | .error e => .error e
    | .ok es => .ok (es, counts)

end Verif.Model
