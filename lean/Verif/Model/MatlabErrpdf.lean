import Verif.Np.Vec
import Mathlib.Analysis.SpecialFunctions.Log.Basic
import Mathlib.Analysis.SpecialFunctions.Pow.Real

/-!
# Model of `matlab/src/dumped/errpdf.m`

Without the plot. A record of `n` samples is a function on `ℕ` read at `0 .. n-1`.
-/

namespace Verif.Model

open Verif Finset

/-- `mean(n)`. -/
noncomputable def mlMean (n : ℕ) (v : ℕ → ℝ) : ℝ := (∑ t ∈ range n, v t) / n

/-- `std(n)`, normalised by `N - 1`. MATLAB normalises a single sample by 1; here 0 as well. -/
noncomputable def mlStd (n : ℕ) (v : ℕ → ℝ) : ℝ := Real.sqrt ((∑ t ∈ range n, (v t - mlMean n v) ^ 2) / ((n : ℝ) - 1))

/-- The outputs `noise_lsb, mu, sigma, KL_divergence, x, fx, gauss_pdf`; `none` stands for NaN. -/
structure MlErrpdf where
  noiseLsb : ℕ → ℝ
  mu : ℝ
  sigma : ℝ
  kl : Option ℝ
  x : ℕ → ℝ
  fx : ℕ → Option ℝ
  gauss : ℕ → Option ℝ

/-- `errpdf(err_data, "Resolution", resolution, "FullScale", fullscale)`. `matlab/src/dumped/errpdf.m:10-34`; `eps` is `2^-52`. With zero spread the densities are NaN (or Inf), here
`none`. -/
noncomputable def mlErrpdf (n : ℕ) (err : ℕ → ℝ) (resolution : ℕ) (fullscale : ℝ) : MlErrpdf :=
  let lsb := fullscale / 2 ^ resolution
  let v := fun t => err t / lsb
  let h := 106 / 100 * mlStd n v * (n : ℝ) ^ (-(1 : ℝ) / 5)
  let lim := max (1 / 2) (maxOf |v 0| ((List.range n).map fun t => |v t|))
  let x := fun i : ℕ => -lim + i * (lim - -lim) / 199
  let fx := fun i => (∑ t ∈ range n, Real.exp (-(1 / 2) * ((x i - v t) / h) ^ 2)) / n / (h * Real.sqrt (2 * Real.pi))
  let mu := mlMean n v
  let sigma := mlStd n v
  let gauss := fun i => 1 / (sigma * Real.sqrt (2 * Real.pi)) * Real.exp (-(x i - mu) ^ 2 / (2 * sigma ^ 2))
  let p := fun i => fx i + 1 / 2 ^ 52
  let q := fun i => gauss i + 1 / 2 ^ 52
  { noiseLsb := v, mu := mu, sigma := sigma, x := x
    kl := if sigma = 0 then none else some ((∑ i ∈ range 200, p i * Real.log (p i / q i)) * (x 1 - x 0))
    fx := fun i => if sigma = 0 then none else some (fx i)
    gauss := fun i => if sigma = 0 then none else some (gauss i) }

/-- The default `FullScale`. `matlab/src/dumped/errpdf.m:5`. -/
def mlErrpdfFullScale : ℝ := 1

end Verif.Model
