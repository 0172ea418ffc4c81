import Verif.Model.Dout
import Verif.Model.EnobSweep

/-!
# Model of `toolset/generate_dout_dashboard.py`

The figure is the collection of the results its six panels draw. The drawing itself (see `Model/Plots` and `Model/DoutPlots` for the numbers in the plots), saving
and showing the figure are left out. The bit matrix is the list of its rows (samples).
-/

namespace Verif.Model

open Verif

/-- The results shown in the six panels. `toolset/generate_dout_dashboard.py:57-88`. -/
structure DoutDashboard where
  nominal : SpectrumResult
  calibrated : SpectrumResult
  activity : List ℝ
  overflow : Overflow ℝ
  sweep : List EReal × List ℕ
  radix : RadixReport

/-- `2.0 ** np.arange(n_bits - 1, -1, -1)` or the given weights. `toolset/generate_dout_dashboard.py:42-46`. -/
noncomputable def dashboardWeights (m : ℕ) (weights : Option (List ℝ)) : List ℝ :=
  weights.getD ((List.range m).map fun (i : ℕ) => (2 : ℝ) ^ (m - 1 - i))

/-- `bits @ weights`. `toolset/generate_dout_dashboard.py:59`. Shapes that do not fit raise `ValueError`. -/
noncomputable def weightedRecord (rows : List (List ℝ)) (m : ℕ) (w : List ℝ) : Py (List ℝ) :=
  if w.length ≠ m then .error .valueError
  else .ok (rows.map fun r => ((List.range m).map fun (j : ℕ) => r.getD j 0 * w.getD j 0).sum)

/-- `generate_dout_dashboard(bits, freq, weights)` for a two-dimensional array. `toolset/generate_dout_dashboard.py:39-88`. The calibration runs with its default
arguments (`calibration/calibrate_weight_sine.py:28-38`), the spectra with the default Hann window (`spectrum/analyze_spectrum.py:30`), the sweep with its default
Hamming window (`dout/analyze_enob_sweep.py:11-16`) at the frequency the calibration reports. `est` is the automatic frequency estimate of `calibrate`. -/
noncomputable def doutDashboard (lib : WinLib) (solve : Lstsq) (est : List ℝ) (rows : List (List ℝ)) (freq : FreqArg) (weights : Option (List ℝ)) :
    Py DoutDashboard :=
  let m := (rows.headD []).length
  match calibrate solve est [rows] freq none none 1 (1 / 2) (1 / 10 ^ 12) 100 with
  | .error e => .error e
  | .ok c =>
    match weightedRecord rows m (dashboardWeights m weights) with
    | .error e => .error e
    | .ok x =>
      match computeSpectrum lib [x] {} with
      | .error e => .error e
      | .ok s1 =>
        match computeSpectrum lib [c.signal.getD 0 []] {} with
        | .error e => .error e
        | .ok s2 =>
          match bitActivity rows with
          | .error e => .error e
          | .ok act =>
            match analyzeOverflow m rows c.weight none with
            | .error e => .error e
            | .ok ov =>
              match analyzeEnobSweep lib solve est rows (.scalar (c.freq.getD 0 0)) 1 1 "hamming" with
              | .error e => .error e
              | .ok sw =>
                match analyzeWeightRadix c.weight with
                | .error e => .error e
                | .ok rad => .ok { nominal := s1, calibrated := s2, activity := act, overflow := ov, sweep := sw, radix := rad }

end Verif.Model
