import Verif.Np.Dft
import Verif.Np.Vec
import Mathlib.Analysis.SpecialFunctions.Trigonometric.Basic

/-!
# Model of `aout/analyze_phase_plane.py`

A record is a list of real numbers. The plot is left out.
-/

namespace Verif.Model

open Verif

/-- `np.hanning(N)[n]`. -/
noncomputable def hanning (N n : ℕ) : ℝ := if N = 1 then 1 else 1 / 2 - 1 / 2 * Real.cos (2 * Real.pi * n / ((N : ℝ) - 1))

/-- `np.mean`. -/
noncomputable def meanL (l : List ℝ) : ℝ := l.sum / l.length

/-- `peak_idx`: strongest bin of the windowed record, DC left out. `aout/analyze_phase_plane.py:45-50`. -/
noncomputable def phasePeak (data : List ℝ) : ℕ :=
  let N := data.length
  let mag := fun (k : ℕ) => ‖dft N (fun n => (((data.getD n 0 - meanL data) * hanning N n : ℝ) : ℂ)) k‖
  argmax ((List.range (N / 2)).map fun k => mag (k + 1)) + 1

/-- `score`. `aout/analyze_phase_plane.py:71-78`. -/
noncomputable def lagScore (f : ℝ) (k : ℕ) : ℝ := |Real.sin (2 * Real.pi * f * k)| - k * (1 / 10000)

/-- One pass of the search loop; the state is `(best_metric, best_k)`. `aout/analyze_phase_plane.py:80-82`. -/
noncomputable def lagStep (f : ℝ) (s : ℝ × ℕ) (k : ℕ) : ℝ × ℕ := if s.1 < lagScore f k then (lagScore f k, k) else s

/-- `search_limit`. `aout/analyze_phase_plane.py:65-66`. -/
noncomputable def lagLimit (N : ℕ) (f : ℝ) : ℕ := min (N / 2) (⌊1 / f * (6 / 10)⌋₊ + 20)

/-- The automatic lag. `aout/analyze_phase_plane.py:43-84`. With fewer than two samples `np.fft.rfft` or `np.argmax` raises `ValueError`; `norm_freq`
is positive because `peak_idx ≥ 1`, so the branch for `norm_freq <= 0` is never taken. -/
noncomputable def autoLag (data : List ℝ) : Py ℕ :=
  if data.length < 2 then .error .valueError
  else
    let f : ℝ := phasePeak data / data.length
    .ok ((List.range' 1 (lagLimit data.length f - 1)).foldl (lagStep f) (-1, 1)).2

/-- `deviation`. `aout/analyze_phase_plane.py:104-113`, for the lag `k`. -/
noncomputable def ringDeviation (data : List ℝ) (k : ℕ) : List ℝ :=
  let x := data.take (data.length - k)
  let y := data.drop k
  let radius := List.zipWith (fun a b => Real.sqrt ((a - meanL x) ^ 2 + (b - meanL y) ^ 2)) x y
  radius.map fun r => |r - median radius|

/-- `r_sigma_robust`. `aout/analyze_phase_plane.py:114-121`. -/
noncomputable def ringSigma (dev : List ℝ) : ℝ :=
  if median dev * (14826 / 10000) < 1 / 10 ^ 12 then 1 / 10 ^ 12 else median dev * (14826 / 10000)

/-- `outlier_indices` for a lag between 1 and `N - 1`. `aout/analyze_phase_plane.py:93-126`. -/
noncomputable def ringOutliers (data : List ℝ) (k : ℕ) (threshold : ℝ) : List ℕ :=
  let dev := ringDeviation data k
  ((List.range dev.length).filter fun i => decide (threshold * ringSigma dev < dev.getD i 0)).map fun i => k + i

/-- The `lag` argument. -/
inductive LagArg where
  | auto
  | fixed (k : ℤ)

/-- `analyze_phase_plane`. `aout/analyze_phase_plane.py:39-126, 172-175`. A lag of zero makes `data[:-0]` empty: the radii of at least two samples then
fail to broadcast (`ValueError`), and otherwise the mask does not fit the indices (`IndexError`). A negative lag gives more indices than mask entries
(`IndexError`). -/
noncomputable def analyzePhasePlane (data : List ℝ) (lag : LagArg) (detect : Bool) (threshold : ℝ) : Py (ℤ × List ℕ) :=
  match (match lag with
    | .auto => Except.map (fun (k : ℕ) => (k : ℤ)) (autoLag data)
    | .fixed k => Except.ok k) with
  | .error e => .error e
  | .ok k =>
    if (data.length : ℤ) ≤ k then .error .valueError
    else if k = 0 ∧ detect = true ∧ 2 ≤ data.length then .error .valueError
    else if k ≤ 0 then .error .indexError
    else .ok (k, if detect then ringOutliers data k.toNat threshold else [])

end Verif.Model
