import Verif.Model.StaticNonlin
import Verif.Model.SigGen

/-!
# Model of `aout/analyze_error_phase_plane.py`

Without the plot. A record of `N` samples is a function on `ℕ` read at `0 .. N-1`.
-/

namespace Verif.Model

open Verif Finset

/-- `np.gradient(y)` at `t`: central difference, one-sided at the ends. -/
noncomputable def gradientAt (N : ℕ) (y : ℕ → ℝ) (t : ℕ) : ℝ :=
  if t = 0 then y 1 - y 0 else if t + 1 = N then y t - y (t - 1) else (y (t + 1) - y (t - 1)) / 2

/-- `np.polyfit(x[mask], r[mask], d)` for the mask with the given positions. -/
noncomputable def polyfitAt (solve : Lstsq) (idx : List ℕ) (x r : ℕ → ℝ) (d : ℕ) : List ℝ :=
  polyfit solve idx.length (fun i => x (idx.getD i 0)) (fun i => r (idx.getD i 0)) d

/-- The returned dictionary without the fit parameters. -/
structure ErrorPhasePlane where
  residual : ℕ → ℝ
  fitted : ℕ → ℝ
  trend : List ℝ
  gap : ℝ

/-- The hysteresis gap for the positions `valid`. The mean over the sorted record is written as the mean over the record.
`aout/analyze_error_phase_plane.py:107-134`. -/
noncomputable def hysteresisGap (solve : Lstsq) (N : ℕ) (y r : ℕ → ℝ) (valid : List ℕ) (d : ℕ) : ℝ :=
  let rise := (List.range N).filter fun (t : ℕ) => decide (0 < gradientAt N y t)
  let fall := (List.range N).filter fun (t : ℕ) => decide (gradientAt N y t < 0)
  if 100 < rise.length ∧ 100 < fall.length then
    let vr := valid.filter fun (t : ℕ) => decide (0 < gradientAt N y t)
    let vf := valid.filter fun (t : ℕ) => decide (gradientAt N y t < 0)
    if 50 < vr.length ∧ 50 < vf.length then
      let cr := polyfitAt solve vr y r d
      let cf := polyfitAt solve vf y r d
      colMean N fun t => |polyval cr (y t) - polyval cf (y t)|
    else 0
  else 0

/-- `analyze_error_phase_plane`. `aout/analyze_error_phase_plane.py:62-134, 182-188`. `np.polyfit` refuses a negative degree (`ValueError`) and an empty
selection (`TypeError`). -/
noncomputable def analyzeErrorPhasePlane (solve : Lstsq) (N : ℕ) (y : ℕ → ℝ) (order : ℤ) (detect : Bool) (unitMode : String) : Py ErrorPhasePlane :=
  if unitMode ∉ ["auto", "normalized_fs", "voltage", "code"] then .error .valueError
  else if unitMode = "auto" ∧ N = 0 then .error .valueError
  else
    match fitCore solve N y none 3 (1 / 10 ^ 9) with
    | .error e => .error e
    | .ok fit =>
      match percentile ((List.range N).map y) 2, percentile ((List.range N).map y) 98 with
      | .ok lo, .ok hi =>
        let valid := (List.range N).filter fun (t : ℕ) => decide (lo < y t) && decide (y t < hi)
        if order < 0 then .error .valueError
        else if valid = [] then .error .typeError
        else
          .ok { residual := fit.residuals, fitted := fit.fitted, trend := polyfitAt solve valid y fit.residuals order.toNat,
                gap := if detect then hysteresisGap solve N y fit.residuals valid order.toNat else 0 }
      | .error e, _ => .error e
      | _, .error e => .error e

end Verif.Model
