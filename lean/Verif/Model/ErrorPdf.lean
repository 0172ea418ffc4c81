import Verif.Model.ErrorBins
import Mathlib.Analysis.SpecialFunctions.Log.Basic
import Mathlib.Analysis.SpecialFunctions.Pow.Real

/-!
# Model of `aout/analyze_error_pdf.py`

Without the plot. A record of `n` samples is a function on `ℕ` read at `0 .. n-1`.
-/

namespace Verif.Model

open Verif Finset

/-- `np.std(e, ddof=1)`. For one sample numpy gives NaN, here 0. -/
noncomputable def sampleStd (n : ℕ) (e : ℕ → ℝ) : ℝ := Real.sqrt ((∑ t ∈ range n, (e t - colMean n e) ^ 2) / ((n : ℝ) - 1))

/-- Silverman's bandwidth `h`. `aout/analyze_error_pdf.py:84-85`. -/
noncomputable def silverman (n : ℕ) (e : ℕ → ℝ) : ℝ := 106 / 100 * sampleStd n e * (n : ℝ) ^ (-(1 : ℝ) / 5)

/-- `fx[i]` for the abscissa `v`. `aout/analyze_error_pdf.py:93-96`. -/
noncomputable def kdeAt (n : ℕ) (e : ℕ → ℝ) (h v : ℝ) : ℝ :=
  (∑ t ∈ range n, Real.exp (-(1 / 2) * ((v - e t) / h) ^ 2)) / n / (h * Real.sqrt (2 * Real.pi))

/-- `gauss_pdf` at `v`. `aout/analyze_error_pdf.py:98-101`. -/
noncomputable def gaussAt (mu sigma v : ℝ) : ℝ := 1 / (sigma * Real.sqrt (2 * Real.pi)) * Real.exp (-(v - mu) ^ 2 / (2 * sigma ^ 2))

/-- The returned dictionary; `none` stands for NaN. -/
structure ErrorPdf where
  errLsb : ℕ → ℝ
  mu : ℝ
  sigma : ℝ
  x : ℕ → ℝ
  pdf : ℕ → Option ℝ
  gauss : ℕ → Option ℝ
  kl : Option ℝ

/-- The part after the sine fit, on the error in LSB. `aout/analyze_error_pdf.py:82-107`. With zero spread numpy divides by zero and the densities are NaN
(or inf), here `none`. -/
noncomputable def errorPdfCore (n : ℕ) (e : ℕ → ℝ) : ErrorPdf :=
  let sigma := sampleStd n e
  let mu := colMean n e
  let h := silverman n e
  let lim := max (1 / 2) (maxOf |e 0| ((List.range n).map fun (t : ℕ) => |e t|))
  let x := fun (i : ℕ) => -lim + (i : ℝ) * ((lim - -lim) / 199)
  let p := fun i => kdeAt n e h (x i) + 1 / 2 ^ 52
  let q := fun i => gaussAt mu sigma (x i) + 1 / 2 ^ 52
  { errLsb := e, mu := mu, sigma := sigma, x := x,
    pdf := fun i => if sigma = 0 then none else some (kdeAt n e h (x i)),
    gauss := fun i => if sigma = 0 then none else some (gaussAt mu sigma (x i)),
    kl := if sigma = 0 then none else some ((∑ i ∈ range 200, p i * Real.log (p i / q i)) * (x 1 - x 0)) }

/-- `analyze_error_pdf`. `aout/analyze_error_pdf.py:63-107, 133-145`. A zero full scale (numpy: division by zero) gives error 0 here. -/
noncomputable def analyzeErrorPdf (solve : Lstsq) (n : ℕ) (y : ℕ → ℝ) (resolution : ℕ) (fullScale : Option ℝ) (freq : Option ℝ) (maxIter : ℤ) (tol : ℝ) : Py ErrorPdf :=
  match fitCore solve n y freq maxIter tol with
  | .error e => .error e
  | .ok fit =>
    let fs := fullScale.getD (recMax n y - recMin n y)
    let lsb := fs / 2 ^ resolution
    .ok (errorPdfCore n fun t => (y t - fit.fitted t) / lsb)

end Verif.Model
