import Verif.Model.Spectrum

/-!
# Model of the plot arrays of `compute_spectrum` and of the figure drawn from them by `plot_spectrum`

`r` is the modelled result of `compute_spectrum` for the arguments `a`. Axis floor, harmonic markers and the spur label are in `Model/Plots.lean`. Texts, colours and
line styles are left out.
-/

namespace Verif.Model

open Verif

/-- `plot_data["freq"]`. `spectrum/compute_spectrum.py:84`. -/
noncomputable def plotFreq (a : SpectrumArgs) (r : SpectrumResult) : List ℝ := (List.range r.power.length).map fun (k : ℕ) => k * (a.fs / r.N)

/-- `plot_data["power_spectrum_db_plot"]`. `spectrum/compute_spectrum.py:83,95,185`: `1e-20` is added without a cutoff only. -/
noncomputable def plotDb (a : SpectrumArgs) (r : SpectrumResult) : List EReal :=
  r.power.map fun p => if 0 < a.cutoff then dB p else dB (p + 1 / 10 ^ 20)

/-- `plot_data["v_offset"]`. `spectrum/compute_spectrum.py:184`. -/
noncomputable def vOffset (a : SpectrumArgs) (r : SpectrumResult) : EReal := (r.sigPwr : EReal) - (plotDb a r).getD r.fundamentalBin 0

/-- `nf_line_level`, the dashed noise line. `spectrum/plot_spectrum.py:141`. -/
noncomputable def noiseLine (a : SpectrumArgs) (r : SpectrumResult) : Option EReal :=
  r.noiseFloor.map fun f => f - ((10 * Real.logb 10 (r.N / (2 * a.osr)) : ℝ) : EReal)

/-- Horizontal limits of the axis. `spectrum/plot_spectrum.py:221-223`. -/
noncomputable def freqLimits (a : SpectrumArgs) (r : SpectrumResult) : ℝ × ℝ := (a.fs / r.N, a.fs / 2)

/-- Upper limit of the level axis. `spectrum/plot_spectrum.py:224`. -/
noncomputable def levelTop : EReal := 0

/-- Position of the vertical line at the band edge. `spectrum/plot_spectrum.py:231`. -/
noncomputable def bandLine (a : SpectrumArgs) : ℝ := a.fs / 2 / a.osr

/-- Position of the spur marker. `spectrum/plot_spectrum.py:204`. -/
noncomputable def spurMarkX (a : SpectrumArgs) (r : SpectrumResult) : ℝ := (r.spurBin : ℝ) / r.N * a.fs

open Classical in
/-- Number of lines in the metric block. `spectrum/plot_spectrum.py:259-287`. -/
noncomputable def legendRows (a : SpectrumArgs) (r : SpectrumResult) : ℕ :=
  8 + (if (∃ l : ℝ, noiseLine a r = some (l : EReal)) ∧ 1 < a.osr then 1 else 0) + (if a.coherent = true ∧ 1 < r.M then 1 else 0)
    + (if r.collided ≠ [] then 1 else 0)

/-- Height of one line of the block, in axis units. `spectrum/plot_spectrum.py:236-237,292`. -/
def legendY (row : ℕ) : ℚ := 94 / 100 - 6 / 100 * row

open Classical in
/-- Left edge of the block, in axis units. `spectrum/plot_spectrum.py:235`. -/
noncomputable def legendX (a : SpectrumArgs) (r : SpectrumResult) : ℚ := if 1 < a.osr ∨ 2 / 10 ≤ (r.fundamentalBin : ℝ) / r.N then 2 / 100 else 60 / 100

open Classical in
/-- Frequency at which the signal text starts (left-aligned, `false`) or ends (right-aligned, `true`). `spectrum/plot_spectrum.py:305-325`. -/
noncomputable def signalTextX (a : SpectrumArgs) (r : SpectrumResult) : ℝ × Bool :=
  if 1 < a.osr then ((plotFreq a r).getD r.fundamentalBin 0, false)
  else if 4 / 10 < (r.fundamentalBin : ℝ) / r.N then (((r.fundamentalBin : ℝ) / r.N + -(1 / 100)) * a.fs, true)
  else (((r.fundamentalBin : ℝ) / r.N + 1 / 100) * a.fs, false)

/-- The coherent-gain note, in dB. `spectrum/plot_spectrum.py:280-282`. -/
noncomputable def coherentNote (a : SpectrumArgs) (r : SpectrumResult) : Option ℝ :=
  if a.coherent = true ∧ 1 < r.M then some (10 * Real.logb 10 r.M) else none

end Verif.Model
