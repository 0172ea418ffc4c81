import Verif.Model.ErrorDecomp
import Verif.Model.ErrorEnvelope
import Verif.Model.ErrorPdf
import Verif.Model.ErrorPhasePlane
import Verif.Model.PhasePlane

/-!
# Model of `toolset/generate_aout_dashboard.py` and `toolset/generate_aout_dashboard_3x4.py`

The figure is the collection of the results its panels draw. The drawing itself (see `Model/Plots`, `Model/Polar` and `Model/ErrorPlots` for the numbers in the
plots) and saving the figure are left out. The record of `N` samples is a function on `ℕ` read at `0 .. N-1`; a two-dimensional signal has been flattened
(`toolset/generate_aout_dashboard.py:42`).
-/

namespace Verif.Model

open Verif

/-- `analyze_error_by_value(signal)` with its defaults: 100 bins, one per cent clipped. `aout/analyze_error_by_value.py:8-77`. -/
noncomputable def errorByValue (solve : Lstsq) (N : ℕ) (y : ℕ → ℝ) : Py ValueBins := rearrangeByValue solve N y none 100 (1 / 100) none 1 (1 / 10 ^ 9)

/-- `analyze_error_by_phase(signal)` with its defaults: 100 bins, with base noise. `aout/analyze_error_by_phase.py:8-75`. -/
noncomputable def errorByPhase (solve : Lstsq) (N : ℕ) (y : ℕ → ℝ) : Py PhaseBins := rearrangeByPhase solve N y none 100 true 1 (1 / 10 ^ 9)

/-- `analyze_decomposition_time(signal)` with its defaults: five harmonics. `aout/analyze_decomposition_time.py:8-68`. -/
noncomputable def decompositionTime (solve : Lstsq) (N : ℕ) (y : ℕ → ℝ) : Py HarmonicSplit := decomposeHarmonic solve 1 N (fun _ => y) 5 none 1 (1 / 10 ^ 9)

/-- `analyze_decomposition_polar(signal)` with its defaults: five harmonics. `aout/analyze_decomposition_polar.py:8-64`. -/
noncomputable def decompositionPolar (solve : Lstsq) (N : ℕ) (y : ℕ → ℝ) : Py HarmonicSplit := decomposeHarmonic solve 1 N (fun _ => y) 5 none 1 (1 / 10 ^ 9)

/-- `norm_freq`. `toolset/generate_aout_dashboard.py:45`. -/
noncomputable def dashboardFreq (fs : ℝ) (freq : Option ℝ) : Py (Option ℝ) :=
  match freq with
  | none => .ok none
  | some f => if fs = 0 then .error .zeroDivision else .ok (some (f / fs))

/-- The results shown in the eight panels. `toolset/generate_aout_dashboard.py:57-87`. -/
structure AoutDashboard where
  spectrum : SpectrumResult
  polar : SpectrumResult
  byValue : ValueBins
  byPhase : PhaseBins
  splitTime : HarmonicSplit
  splitPolar : HarmonicSplit
  pdf : ErrorPdf
  acf : ErrorAcf

/-- `generate_aout_dashboard(signal, fs, freq, resolution=resolution)`. `toolset/generate_aout_dashboard.py:42-87`. The spectrum runs with its default Hann window
(`spectrum/analyze_spectrum.py:30`), the polar one with its default rectangular window (`spectrum/analyze_spectrum_polar.py:16-26,52-61`), the density and the
autocorrelation with their defaults (`aout/analyze_error_pdf.py:11-13`, `aout/analyze_error_autocorr.py:15-17`). -/
noncomputable def aoutDashboard (lib : WinLib) (solve : Lstsq) (N : ℕ) (y : ℕ → ℝ) (fs : ℝ) (freq : Option ℝ) (resolution : ℕ) : Py AoutDashboard :=
  match dashboardFreq fs freq with
  | .error e => .error e
  | .ok nf =>
    match computeSpectrum lib [recordList N y] { fs := fs } with
    | .error e => .error e
    | .ok s =>
      match computeSpectrum lib [recordList N y] { fs := fs, win := "boxcar", coherent := true, maxHarmonic := max 3 5 } with
      | .error e => .error e
      | .ok p =>
        match errorByValue solve N y with
        | .error e => .error e
        | .ok v =>
          match errorByPhase solve N y with
          | .error e => .error e
          | .ok ph =>
            match decompositionTime solve N y with
            | .error e => .error e
            | .ok dt =>
              match decompositionPolar solve N y with
              | .error e => .error e
              | .ok dp =>
                match analyzeErrorPdf solve N y resolution none none 1 (1 / 10 ^ 9) with
                | .error e => .error e
                | .ok pdf =>
                  match errorAutocorr solve N y nf 50 true 1 (1 / 10 ^ 9) with
                  | .error e => .error e
                  | .ok acf => .ok { spectrum := s, polar := p, byValue := v, byPhase := ph, splitTime := dt, splitPolar := dp, pdf := pdf, acf := acf }

/-- The results shown in the twelve panels. `toolset/generate_aout_dashboard_3x4.py:63-122`. -/
structure AoutDashboard12 extends AoutDashboard where
  errSpectrum : SpectrumResult × (ℕ → ℝ)
  errEnvelope : SpectrumResult × (ℕ → ℝ) × (ℕ → ℝ)
  phasePlane : ℤ × List ℕ
  errPhasePlane : ErrorPhasePlane

/-- `generate_aout_dashboard(signal, fs, freq, resolution=resolution)` of the 3x4 module: the eight panels with the same calls and four more.
`toolset/generate_aout_dashboard_3x4.py:48-122`. The phase plane looks for outliers at four sigma with an automatic lag (`aout/analyze_phase_plane.py:6`), the error
phase plane fits a cubic (`aout/analyze_error_phase_plane.py:7-9`); the sampling rate is used in their texts only. -/
noncomputable def aoutDashboard12 (lib : WinLib) (solve : Lstsq) (N : ℕ) (y : ℕ → ℝ) (fs : ℝ) (freq : Option ℝ) (resolution : ℕ) : Py AoutDashboard12 :=
  match aoutDashboard lib solve N y fs freq resolution with
  | .error e => .error e
  | .ok d =>
    match analyzeErrorSpectrum lib solve N y fs none 1 (1 / 10 ^ 9) with
    | .error e => .error e
    | .ok es =>
      match analyzeErrorEnvelope lib solve N y fs none 1 (1 / 10 ^ 9) with
      | .error e => .error e
      | .ok ee =>
        match analyzePhasePlane (recordList N y) .auto true 4 with
        | .error e => .error e
        | .ok pp =>
          match analyzeErrorPhasePlane solve N y 3 true "auto" with
          | .error e => .error e
          | .ok ep => .ok { d with errSpectrum := es, errEnvelope := ee, phasePlane := pp, errPhasePlane := ep }

end Verif.Model
