import Mathlib.Analysis.SpecialFunctions.Trigonometric.Basic

/-! # The three noise files of the MATLAB library

`matlab/data_generation/gen_sinewave_am_pm_noise.m`, one sample with phase `φ`; `w` is what `randn` gave for it and `v` is `target_v_rms`. -/

namespace Verif.Model

/-- `ideal_phase` at sample `i` for bin `k`: `2 * pi * Fin * i / Fs` with `Fin = J / N * Fs`. `common_gen_sinewave.m:19-21`. -/
noncomputable def idealPhase (fs : ℝ) (n k i : ℕ) : ℝ := 2 * Real.pi * ((k : ℝ) / n * fs) * i * 1 / fs

/-- `data_thermal`. `gen_sinewave_am_pm_noise.m:9`; also `gen_sinewave_noise.m:12`. -/
noncomputable def noiseThermal (A dc v φ w : ℝ) : ℝ := A * Real.sin φ + dc + w * v

/-- `data_phase_noise` with `pm_rad = target_v_rms / A`. `gen_sinewave_am_pm_noise.m:21-27`. -/
noncomputable def noisePhase (A dc v φ w : ℝ) : ℝ := A * Real.sin (φ + w * (v / A)) + dc

/-- `data_am_noise`. `gen_sinewave_am_pm_noise.m:37-38`. -/
noncomputable def noiseAmplitude (A dc v φ w : ℝ) : ℝ := (A + w * v) * Real.sin φ + dc

end Verif.Model
