import Verif.Model.MatlabFit

/-!
# Model of MATLAB `plotphase.m`, LMS mode (its default mode)

`/repo/python/docs/source/python_matlab_parity.rst:28-30` calls `plotphase` matched; the Python function that does what the LMS mode does is `analyze_decomposition_polar`.
Samples are numbered from zero, entry `h` of the harmonic arrays is harmonic `h + 1`, `none` is an error or NaN. `linsolve` is the parameter `solve`.
Left out: `OSR > 1` (filtering of the residual) and the drawing; the values are those handed to `polarplot`.
-/

namespace Verif.Model

open Verif Finset

/-- `[SI,SQ]`: all cosines, then all sines, no constant. `matlab/src/plotphase.m:300-306, 309`. -/
noncomputable def mlLmsCols (f : ℝ) (H : ℕ) : List (ℕ → ℝ) :=
  ((List.range H).map fun (h : ℕ) => fun (t : ℕ) => Real.cos (t * f * ((h : ℝ) + 1) * 2 * Real.pi)) ++
    ((List.range H).map fun (h : ℕ) => fun (t : ℕ) => Real.sin (t * f * ((h : ℝ) + 1) * 2 * Real.pi))

/-- The quantities behind the drawing: `harm_mag`, `harm_phase`, `residual`, `noise_power`, `freq`, `maxSignal`. `matlab/src/plotphase.m:286-376`. -/
structure MlLms where
  mags : ℕ → ℝ
  phases : ℕ → ℝ
  residual : ℕ → ℝ
  noise : ℝ
  freq : ℝ
  scale : ℝ

/-- The part after the frequency is known, on the averaged record `y`. `matlab/src/plotphase.m:293-294, 300-315, 353-376`. -/
noncomputable def mlLmsSplit (solve : Lstsq) (n : ℕ) (y : ℕ → ℝ) (maxSignal f : ℝ) (H : ℕ) : MlLms :=
  let s := fun t => (y t - colMean n y) / maxSignal
  let W := solve n (mlLmsCols f H) s
  let residual := fun t => s t - matVec (mlLmsCols f H) W t
  let arg := fun (h : ℕ) => Complex.arg ⟨W.getD h 0, W.getD (h + H) 0⟩
  { mags := fun h => Real.sqrt (W.getD h 0 ^ 2 + W.getD (h + H) 0 ^ 2) * 2,
    phases := fun h => pmod (arg h - arg 0 * ((h : ℝ) + 1) + Real.pi) (2 * Real.pi) - Real.pi,
    residual := residual, noise := Real.sqrt ((∑ t ∈ range n, residual t ^ 2) / n) * 2 * Real.sqrt 2, freq := f, scale := maxSignal }

/-- Default of `maxSignal`: the range over all samples of all runs. `matlab/src/plotphase.m:112`. -/
noncomputable def mlLmsScale (runs n : ℕ) (x : ℕ → ℕ → ℝ) : ℝ := recMax runs (fun i => recMax n (x i)) - recMin runs fun i => recMin n (x i)

/-- `plotphase(sig, harmonic, maxSignal, 'mode', 'LMS')` for `runs` rows of `n` samples; `none` for `maxSignal` is the default, which is not checked. A zero range gives NaN.
Simplifications: at least two samples, and the number of harmonics is a natural number (the code does not check it); without harmonics `harm_phase(1)` fails.
`matlab/src/plotphase.m:106-138, 286-376`. -/
noncomputable def mlPlotphaseLms (solve : Lstsq) (runs n : ℕ) (x : ℕ → ℕ → ℝ) (maxSignal : Option ℝ) (H : ℕ) : Option MlLms :=
  if ∃ c ∈ maxSignal, c ≤ 0 then none
  else
    let scale := maxSignal.getD (mlLmsScale runs n x)
    let y := fun t => (∑ i ∈ range runs, x i t) / runs
    if scale = 0 ∨ H = 0 then none
    else (mlSinfitDefault solve n (fun t => (y t - colMean n y) / scale) 0).map fun m => mlLmsSplit solve n y scale m.freq H

end Verif.Model
