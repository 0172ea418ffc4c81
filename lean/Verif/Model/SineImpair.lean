import Mathlib.Analysis.SpecialFunctions.Trigonometric.Basic
import Mathlib.Analysis.SpecialFunctions.Exp
import Mathlib.Algebra.Order.Round

/-! # Sine data generators of the MATLAB library: the sample formulas

`matlab/data_generation/gen_sinewave_*.m`. The white noise `randn(N, 1) * Noise_rms` that every script adds is left out where it is added last; where it is part of the signal an
impairment acts on, the signal is a free variable. -/

namespace Verif.Model

/-- `tau_dynamic`. `gen_sinewave_nonlin_dynamic.m:45`. -/
noncomputable def tauDynamic (tau k v : ℝ) : ℝ := tau * (1 + k * v ^ 2)

/-- The loop over the samples: `vout(n) = v_target + (v_prev - v_target) * exp(-T_track/tau_dynamic)`, `v_prev = vout(n)`. `gen_sinewave_nonlin_dynamic.m:40-53`; the script starts
from `v_prev = 0` (line 38). -/
noncomputable def settle (tTrack tau k : ℝ) : ℝ → List ℝ → List ℝ
  | _, [] => []
  | prev, v :: vs =>
    let out := v + (prev - v) * Real.exp (-tTrack / tauDynamic tau k v)
    out :: settle tTrack tau k out vs

/-- `y_output`. `gen_sinewave_nonlin_static.m:40-44`. -/
def staticNonlin (k1 k2 k3 k4 k5 x : ℝ) : ℝ := k1 * x + k2 * x ^ 2 + k3 * x ^ 3 + k4 * x ^ 4 + k5 * x ^ 5

/-- `drift` at sample `i` of `N`. `gen_sinewave_drift.m:13`. -/
noncomputable def driftSample (n : ℕ) (amp : ℝ) (i : ℕ) : ℝ := (1 - Real.exp (-(i : ℝ) / n * 10)) * amp

/-- `sine_zero_mean .* am_factor` at the sample where the carrier has phase `a` and the modulation phase `b`. `gen_sinewave_am_tone.m:13-17`. -/
noncomputable def amToneSample (A m a b : ℝ) : ℝ := A * Real.sin a * (1 + m * Real.sin b)

/-- `min(max(sig, clip_th), 1-clip_th)`. `gen_sinewave_clipping.m:12`. -/
noncomputable def clipSample (th sig : ℝ) : ℝ := min (max sig th) (1 - th)

/-- `(rand(N, 1) < gprob) * 0.1` added to the signal; `u` is the number `rand` gave. `gen_sinewave_glitch.m:13-14`. -/
noncomputable def glitchSample (p u sig : ℝ) : ℝ := sig + (if u < p then 1 else 0) * (1 / 10)

/-- The number in a file name, `sprintf("%.pf", x)` of a non-negative number. `gen_sinewave_am_noise.m:19` and `gen_sinewave_ref_error.m:17` (`p = 3`),
`gen_sinewave_gain_error.m:17` and `gen_sinewave_am_tone.m:19` (`p = 4`), `gen_sinewave_glitch.m:16` (`p = 6`). Ties go up, as for the double next to 0.0005. -/
def nameValue (p : ℕ) (x : ℚ) : ℚ := (round (x * 10 ^ p) : ℚ) / 10 ^ p

end Verif.Model
