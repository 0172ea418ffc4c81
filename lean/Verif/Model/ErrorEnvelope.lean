import Verif.Model.SineFit
import Verif.Model.Spectrum

/-!
# Model of `aout/analyze_error_spectrum.py` and `aout/analyze_error_envelope_spectrum.py`

Without the plot. A record of `N` samples is a function on `ℕ` read at `0 .. N-1`.
-/

namespace Verif.Model

open Verif Finset

/-- The multiplier of `scipy.signal.hilbert` at bin `k`: one at DC and (even length) at the Nyquist bin, two at the positive frequencies, zero at the negative
ones. -/
def hilbertMult (N k : ℕ) : ℂ := if k = 0 ∨ 2 * k = N then 1 else if 2 * k < N then 2 else 0

/-- `scipy.signal.hilbert(x)[n]`: the analytic signal. -/
noncomputable def hilbert (N : ℕ) (x : ℕ → ℂ) (n : ℕ) : ℂ := idft N (fun k => dft N x k * hilbertMult N k) n

/-- `np.abs(hilbert(e))`. `aout/analyze_error_envelope_spectrum.py:85`. -/
noncomputable def envelope (N : ℕ) (e : ℕ → ℝ) (n : ℕ) : ℝ := ‖hilbert N (fun t => (e t : ℂ)) n‖

/-- A record as the list that `analyze_spectrum` receives. -/
def recordList (N : ℕ) (e : ℕ → ℝ) : List ℝ := (List.range N).map e

/-- `analyze_error_spectrum(signal, fs, frequency, max_iterations, tolerance)`: the metrics and the error signal.
`aout/analyze_error_spectrum.py:64-106`; `analyze_spectrum` returns the metrics of `compute_spectrum` with its defaults
(`spectrum/analyze_spectrum.py:30-104`). -/
noncomputable def analyzeErrorSpectrum (lib : WinLib) (solve : Lstsq) (N : ℕ) (y : ℕ → ℝ) (fs : ℝ) (freq : Option ℝ) (maxIter : ℤ) (tol : ℝ) :
    Py (SpectrumResult × (ℕ → ℝ)) :=
  match fitCore solve N y freq maxIter tol with
  | .error e => .error e
  | .ok fit =>
    let err := fun t => y t - fit.fitted t
    match computeSpectrum lib [recordList N err] { fs := fs, maxHarmonic := 5 } with
    | .error e => .error e
    | .ok r => .ok (r, err)

/-- `analyze_error_envelope_spectrum(signal, fs, frequency, max_iterations, tolerance)`: the metrics, the error signal and the envelope.
`aout/analyze_error_envelope_spectrum.py:69-118`. `hilbert` of an empty record raises `ValueError`. -/
noncomputable def analyzeErrorEnvelope (lib : WinLib) (solve : Lstsq) (N : ℕ) (y : ℕ → ℝ) (fs : ℝ) (freq : Option ℝ) (maxIter : ℤ) (tol : ℝ) :
    Py (SpectrumResult × (ℕ → ℝ) × (ℕ → ℝ)) :=
  match fitCore solve N y freq maxIter tol with
  | .error e => .error e
  | .ok fit =>
    let err := fun t => y t - fit.fitted t
    if N = 0 then .error .valueError
    else
      match computeSpectrum lib [recordList N (envelope N err)] { fs := fs, maxHarmonic := 5 } with
      | .error e => .error e
      | .ok r => .ok (r, err, envelope N err)

end Verif.Model
