import Mathlib.Analysis.SpecialFunctions.Trigonometric.Basic
import Mathlib.Analysis.SpecialFunctions.Complex.Circle
import Mathlib.Analysis.SpecialFunctions.Log.Base
import Mathlib.Data.EReal.Operations

/-!
# Model of `oversampling/ntf_analyzer.py` and `oversampling/ntfperf.py`

The transfer function is given by its numerator and denominator coefficients, highest power of `z` first. Real arithmetic replaces floating point.
-/

namespace Verif.Model

open Finset

/-- Number of points of the frequency grid. `oversampling/ntf_analyzer.py:19`. -/
@[irreducible] def ntfPoints : ℕ := 2 ^ 16

/-- `np.linspace(0, 0.5, 2**16)[i]`. `oversampling/ntf_analyzer.py:19`. -/
noncomputable def ntfGrid (i : ℕ) : ℝ := i * (1 / 2 / ((ntfPoints : ℝ) - 1))

/-- `np.polyval(c, z)`, used inside `scipy.signal.dfreqresp`. -/
noncomputable def cpolyval (c : List ℝ) (z : ℂ) : ℂ := c.foldl (fun acc a => acc * z + a) 0

/-- `np.abs(signal.dfreqresp(tf, 2 pi w))` at one frequency. `oversampling/ntf_analyzer.py:30-32`. A zero of the denominator (numpy: inf or NaN)
gives 0 here. -/
noncomputable def ntfMag (num den : List ℝ) (w : ℝ) : ℝ :=
  ‖cpolyval num (Complex.exp ((w * 2 * Real.pi : ℝ) * Complex.I)) / cpolyval den (Complex.exp ((w * 2 * Real.pi : ℝ) * Complex.I))‖

/-- The grid points strictly inside the band. `oversampling/ntf_analyzer.py:35`. -/
noncomputable def ntfBand (flow fhigh : ℝ) : Finset ℕ := (range ntfPoints).filter fun i => flow < ntfGrid i ∧ ntfGrid i < fhigh

/-- `np_val`. `oversampling/ntf_analyzer.py:36`. -/
noncomputable def ntfPower (num den : List ℝ) (flow fhigh : ℝ) : ℝ := (∑ i ∈ ntfBand flow fhigh, ntfMag num den (ntfGrid i) ^ 2) / ntfPoints

/-- `ntf_analyzer` and `ntfperf`. `oversampling/ntf_analyzer.py:6-53`, `oversampling/ntfperf.py:8-15`; `-10 * log10(0)` is plus infinity. The plot is
left out. -/
noncomputable def ntfAnalyzer (num den : List ℝ) (flow fhigh : ℝ) : EReal :=
  if ntfPower num den flow fhigh = 0 then ⊤ else ((-10 * Real.logb 10 (ntfPower num den flow fhigh) : ℝ) : EReal)

end Verif.Model
