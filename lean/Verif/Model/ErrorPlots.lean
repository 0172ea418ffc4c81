import Verif.Model.ErrorBins
import Verif.Model.Plots

/-!
# Model of the error-by-phase and error-by-value plots

Positions, curves, limits and texts; drawing itself is left out. Bins without samples are NaN (`none`) and draw no bar.
-/

namespace Verif.Model

open Verif

/-! ## By phase -/

/-- `phase_deg`. `aout/plot_rearranged_error_by_phase.py:68`. -/
noncomputable def phaseDeg (phi : ℝ) : ℝ := pmod (phi * 180 / Real.pi) 360

/-- `phase_bins_deg`. `aout/plot_rearranged_error_by_phase.py:67`. -/
noncomputable def binDeg (center : ℝ) : ℝ := center * 180 / Real.pi

/-- Width of a bar. `aout/plot_rearranged_error_by_phase.py:137-140`. -/
noncomputable def phaseBarWidth (nb : ℕ) : ℝ := 360 / (nb : ℝ) * (8 / 10)

/-- `am_curve`; `v` is `_coeffs_plot`. `aout/plot_rearranged_error_by_phase.py:145, 149`. -/
noncomputable def amCurve (v : ℝ × ℝ × ℝ) (phi : ℝ) : ℝ := Real.sqrt (v.1 * Real.cos phi ^ 2 + v.2.2)

/-- `pm_curve`. `aout/plot_rearranged_error_by_phase.py:146, 150`. -/
noncomputable def pmCurve (v : ℝ × ℝ × ℝ) (phi : ℝ) : ℝ := Real.sqrt (v.2.1 * Real.sin phi ^ 2 + v.2.2)

/-- `total_curve`. `aout/plot_rearranged_error_by_phase.py:151`. -/
noncomputable def totalCurve (v : ℝ × ℝ × ℝ) (phi : ℝ) : ℝ := Real.sqrt (v.1 * Real.cos phi ^ 2 + v.2.1 * Real.sin phi ^ 2 + v.2.2)

/-- `base_noise_curve`, drawn only with base noise. `aout/plot_rearranged_error_by_phase.py:163-165`. -/
noncomputable def baseCurve (base : Bool) (v : ℝ × ℝ × ℝ) : Option ℝ := if base then some (Real.sqrt v.2.2) else none

/-- `np.nanmax` of the bars; 0 when all are NaN (numpy: NaN). `aout/plot_rearranged_error_by_phase.py:169`, `aout/plot_rearranged_error_by_value.py:119`. -/
noncomputable def nanMax (nb : ℕ) (v : ℕ → Option ℝ) : ℝ :=
  match (List.range nb).filterMap v with
  | [] => 0
  | a :: l => maxOf a l

/-- Vertical axis of the bars by phase. `aout/plot_rearranged_error_by_phase.py:169-170`. -/
noncomputable def phaseBarLimits (nb : ℕ) (rms : ℕ → Option ℝ) : ℝ × ℝ := (0, nanMax nb rms * (3 / 2))

/-- Vertical axis of the error dots. `aout/plot_rearranged_error_by_phase.py:118-121`, `aout/plot_rearranged_error_by_value.py:86-89`. -/
noncomputable def errorLimits (n : ℕ) (e : ℕ → ℝ) : ℝ × ℝ :=
  let range := recMax n e - recMin n e
  let margin := if range ≠ 0 then range * (1 / 10) else 1
  (recMin n e - margin, recMax n e + margin)

/-- Vertical axis of the signal. `aout/plot_rearranged_error_by_phase.py:101-103`. -/
noncomputable def signalLimits (n : ℕ) (s : ℕ → ℝ) : ℝ × ℝ :=
  (recMin n s - (recMax n s - recMin n s) * (1 / 10), recMax n s + (recMax n s - recMin n s) * (1 / 10))

/-- `pm_rad_str` without its unit. `aout/plot_rearranged_error_by_phase.py:156`. -/
noncomputable def pmRadText (rad : ℝ) : NumText := if rad < 1 / 10 ^ 12 then ⟨0, 2, " urad"⟩ else fmtFixed (rad * 10 ^ 6) 2 " urad"

/-! ## By value -/

/-- `bar_width`. `aout/plot_rearranged_error_by_value.py:106-109`. -/
noncomputable def valueBarWidth (nb : ℕ) (centers : ℕ → ℝ) : ℝ :=
  if 1 < nb then 9 / 10 * median ((List.range (nb - 1)).map fun i => centers (i + 1) - centers i) else 9 / 10

/-- Horizontal axis. `aout/plot_rearranged_error_by_value.py:79-83, 114-118`. -/
noncomputable def valueXLimits (nb : ℕ) (centers : ℕ → ℝ) : ℝ × ℝ :=
  let lo := recMin nb centers
  let hi := recMax nb centers
  let margin := if lo < hi then 2 / 100 * (hi - lo) else 1 / 2
  (lo - margin, hi + margin)

/-- Vertical axis of the bars by value. `aout/plot_rearranged_error_by_value.py:119`. -/
noncomputable def valueBarLimits (nb : ℕ) (rms : ℕ → Option ℝ) : ℝ × ℝ := (0, nanMax nb rms * (115 / 100))

/-- Horizontal position of a sample's dot. `aout/plot_rearranged_error_by_value.py:36`. -/
def valueDot (r : ValueBins) (t : ℕ) : ℝ := r.centers (r.index t)

end Verif.Model
