import Verif.Model.Units
import Mathlib.Analysis.SpecialFunctions.Trigonometric.Basic

/-!
# Model of `fundamentals/metrics.py`

Real arithmetic; a zero divisor or a non-positive logarithm argument (Python: exception, inf or NaN) is excluded by the hypotheses of the theorems.
-/

namespace Verif.Model

noncomputable section

/-- `calculate_walden_fom`. `fundamentals/metrics.py:15-32`. -/
def waldenFom (power fs enob : ℝ) : ℝ := power / ((2 : ℝ) ^ enob * fs)

/-- `calculate_schreier_fom`. `fundamentals/metrics.py:34-51`. -/
def schreierFom (power sndr bw : ℝ) : ℝ := sndr + 10 * log10 (bw / power)

/-- Noise power `k * T / C` with the constants of the code. `fundamentals/metrics.py:74-79`. -/
def thermalNoisePower (capPf : ℝ) : ℝ := 1.38e-23 * 300 / (capPf * 1e-12)

/-- `calculate_thermal_noise_limit`. `fundamentals/metrics.py:55-84`. -/
def thermalNoiseLimit (capPf vfs : ℝ) : ℝ := 10 * log10 (vfs ^ 2 / 8 / thermalNoisePower capPf)

/-- `calculate_jitter_limit`. `fundamentals/metrics.py:86-102`. -/
def jitterLimit (freq jitter : ℝ) : ℝ := -20 * log10 (2 * Real.pi * freq * jitter)

end

end Verif.Model
