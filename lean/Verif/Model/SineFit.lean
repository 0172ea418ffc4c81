import Verif.Model.Calibration
import Verif.Np.Dft

/-!
# Model of `fundamentals/fit_sine_4param.py`

A record of `n` samples is a function on `ℕ` read at `0 .. n-1`. `np.linalg.lstsq` is the parameter `solve` (see `Lstsq`, `IsLstsq`).
-/

namespace Verif.Model

open Verif Finset

/-- `cos_vec`. `fundamentals/fit_sine_4param.py:61-62`. -/
noncomputable def fitCos (f : ℝ) (t : ℕ) : ℝ := Real.cos (2 * Real.pi * f * t)

/-- `sin_vec`. `fundamentals/fit_sine_4param.py:61-63`. -/
noncomputable def fitSin (f : ℝ) (t : ℕ) : ℝ := Real.sin (2 * Real.pi * f * t)

/-- Loop variables of `_fit_core`. `fundamentals/fit_sine_4param.py:53-58`. -/
structure FitState where
  freq : ℝ
  a : ℝ
  b : ℝ
  c : ℝ
  converged : Bool
  nIterations : ℕ
  lastDelta : ℝ

/-- Pass 0 of the loop: three columns, no frequency update. `fundamentals/fit_sine_4param.py:66-73`. -/
noncomputable def fitFirst (solve : Lstsq) (n : ℕ) (y : ℕ → ℝ) (s : FitState) : FitState :=
  let x := solve n [fitCos s.freq, fitSin s.freq, fun _ => 1] y
  { s with a := x.getD 0 0, b := x.getD 1 0, c := x.getD 2 0 }

/-- A later pass: four columns, frequency update and clamp. `fundamentals/fit_sine_4param.py:69-81`. -/
noncomputable def fitRefine (solve : Lstsq) (n : ℕ) (y : ℕ → ℝ) (s : FitState) : FitState :=
  let corr := fun (t : ℕ) => (t : ℝ) * (-s.a * fitSin s.freq t + s.b * fitCos s.freq t)
  let x := solve n [fitCos s.freq, fitSin s.freq, fun _ => 1, corr] y
  let delta := x.getD 3 0 / (2 * Real.pi)
  { freq := clip (s.freq + delta) (1 / 10 ^ 10) (1 / 2 - 1 / 10 ^ 10), a := x.getD 0 0, b := x.getD 1 0, c := x.getD 2 0,
    converged := s.converged, nIterations := s.nIterations + 1, lastDelta := delta }

/-- Passes `1, 2, …` with the `break`. `fundamentals/fit_sine_4param.py:60-89`. -/
noncomputable def fitLoop (solve : Lstsq) (n : ℕ) (y : ℕ → ℝ) (tol : ℝ) : ℕ → FitState → FitState
  | 0, s => s
  | k + 1, s =>
    let s' := fitRefine solve n y s
    if |s'.lastDelta| < tol then { s' with converged := true } else fitLoop solve n y tol k s'

/-- `np.abs(np.fft.fft(y))` with `spec[0] = 0`, first half. `fundamentals/fit_sine_4param.py:130-133`. -/
noncomputable def fitSpec (n : ℕ) (y : ℕ → ℝ) (k : ℕ) : ℝ := if k = 0 then 0 else ‖dft n (fun t => (y t : ℂ)) k‖

/-- `_estimate_frequency_fft`. `fundamentals/fit_sine_4param.py:128-142`. With fewer than two samples `np.fft.fft` or `np.argmax` raises
`ValueError`. -/
noncomputable def estimateFreq (n : ℕ) (y : ℕ → ℝ) : Py ℝ :=
  if n < 2 then .error .valueError
  else
    let k := argmax ((List.range (n / 2)).map (fitSpec n y))
    if 0 < k ∧ k + 1 < n / 2 then
      let delta := if fitSpec n y (k - 1) < fitSpec n y (k + 1) then fitSpec n y (k + 1) / (fitSpec n y k + fitSpec n y (k + 1))
        else -(fitSpec n y (k - 1) / (fitSpec n y k + fitSpec n y (k - 1)))
      .ok (((k : ℝ) + delta) / n)
    else .ok ((k : ℝ) / n)

/-- The returned dictionary, plus whether the `RuntimeWarning` was issued. `fundamentals/fit_sine_4param.py:99-115`. -/
structure SineFit where
  fitted : ℕ → ℝ
  residuals : ℕ → ℝ
  frequency : ℝ
  amplitude : ℝ
  phase : ℝ
  dcOffset : ℝ
  rmse : ℝ
  converged : Bool
  nIterations : ℕ
  initialFrequency : ℝ
  lastDelta : ℝ
  warned : Bool

/-- The dictionary built from the final loop variables; `np.arctan2(-b, a)` is the argument of `a - b i`.
`fundamentals/fit_sine_4param.py:99-115`. -/
noncomputable def fitResult (n : ℕ) (y : ℕ → ℝ) (f0 : ℝ) (maxIter : ℤ) (s : FitState) : SineFit :=
  let fitted := fun t => s.a * fitCos s.freq t + s.b * fitSin s.freq t + s.c
  { fitted := fitted, residuals := fun t => y t - fitted t, frequency := s.freq, amplitude := Real.sqrt (s.a ^ 2 + s.b ^ 2),
    phase := Complex.arg ⟨s.a, -s.b⟩, dcOffset := s.c, rmse := Real.sqrt ((∑ t ∈ range n, (y t - fitted t) ^ 2) / n),
    converged := s.converged, nIterations := s.nIterations, initialFrequency := f0, lastDelta := s.lastDelta,
    warned := decide (0 < maxIter) && !s.converged }

/-- `_fit_core`. `fundamentals/fit_sine_4param.py:49-115`. -/
noncomputable def fitCore (solve : Lstsq) (n : ℕ) (y : ℕ → ℝ) (freqInit : Option ℝ) (maxIter : ℤ) (tol : ℝ) : Py SineFit :=
  match (match freqInit with
    | some f => Except.ok f
    | none => estimateFreq n y) with
  | .error e => .error e
  | .ok f0 =>
    let s0 : FitState := { freq := f0, a := 0, b := 0, c := 0, converged := decide (maxIter = 0), nIterations := 0, lastDelta := 0 }
    let s := if maxIter < 0 then s0 else fitLoop solve n y tol maxIter.toNat (fitFirst solve n y s0)
    .ok (fitResult n y f0 maxIter s)

/-- `fit_sine_4param` on two-dimensional input: one fit per column, the first error is raised; no column is an `IndexError` in
`_merge_results`. `fundamentals/fit_sine_4param.py:43-45, 117-126`. -/
noncomputable def fitColumns (solve : Lstsq) (n : ℕ) (cols : List (ℕ → ℝ)) (freqInit : Option ℝ) (maxIter : ℤ) (tol : ℝ) : Py (List SineFit) :=
  if cols = [] then .error .indexError else cols.mapM fun y => fitCore solve n y freqInit maxIter tol

/-- `estimate_frequency`. `fundamentals/frequency.py:201-207`. -/
noncomputable def estimateFrequency (solve : Lstsq) (n : ℕ) (y : ℕ → ℝ) (freqInit : Option ℝ) (fs : ℝ) : Py ℝ :=
  match fitCore solve n y freqInit 1 (1 / 10 ^ 9) with
  | .error e => .error e
  | .ok r => .ok (r.frequency * fs)

end Verif.Model
