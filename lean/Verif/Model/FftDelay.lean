import Verif.Np.Basic
import Verif.Np.Dft

/-!
# Model of `fractional_delay_fft`
-/

namespace Verif.Model

open Verif

/-- A real record as a complex sequence (zero outside the record, never read there). -/
noncomputable def sig (x : List ℝ) (n : ℕ) : ℂ := ((x.getD n 0 : ℝ) : ℂ)

/-- The rotated half spectrum. `timeinterleave/fractional_delay.py:48-53`: `rfft`, `rfftfreq(N, d=1/fs)` = `k*fs/N`,
multiplication by `exp(-2πj f delay)`, and for even `N` the Nyquist bin reduced to its real part. -/
noncomputable def delaySpectrum (x : List ℝ) (delay fs : ℝ) (k : ℕ) : ℂ :=
  let N := x.length
  let X := dft N (sig x) k * cis (-((k * fs / N) * delay))
  if N % 2 = 0 ∧ k = N / 2 then (X.re : ℂ) else X

/-- `fractional_delay_fft(x, delay_sec, fs)`. `timeinterleave/fractional_delay.py:44-54`. `rfft` of an empty array raises
`ValueError`; `1.0 / fs` raises `ZeroDivisionError` for `fs = 0`. -/
noncomputable def fftDelay (ndim : ℕ) (x : List ℝ) (delay fs : ℝ) : Py (List ℝ) :=
  if ndim ≠ 1 then .error .valueError
  else if x.length = 0 then .error .valueError
  else if fs = 0 then .error .zeroDivision
  else .ok ((List.range x.length).map fun n => irfft x.length (delaySpectrum x delay fs) n)

end Verif.Model
