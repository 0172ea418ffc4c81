import Verif.Model.Osr
import Verif.Model.Frequency
import Verif.Model.SineFit

/-!
# Model of `sweep_performance_vs_osr` as a whole and of the numbers in its plot

`spectrum/sweep_performance_vs_osr.py`. The loop over the OSR values is `sweep` (`Model/Osr.lean`). Decibel values are real numbers: the noise and spur
powers are taken as positive (numpy gives `inf` for a zero power and then refuses it as an axis limit). Drawing itself is left out.
-/

namespace Verif.Model

open Verif

/-- The returned dictionary. `spectrum/sweep_performance_vs_osr.py:182`. -/
structure OsrCurves where
  osr : List ℝ
  sndr : List ℝ
  sfdr : List ℝ
  enob : List ℝ

/-- The three curves for the error spectrum `e` of an `n`-sample record. `spectrum/sweep_performance_vs_osr.py:79-104`. The loop writes every index once,
so the zeros that the arrays are initialised with do not remain. -/
noncomputable def sweepCurves (amp : ℝ) (e : List ℝ) (n : ℕ) (osr : List ℝ) (order : List ℕ) : Py OsrCurves :=
  match sweep e (n : ℤ) osr order with
  | .error err => .error err
  | .ok out =>
    let sndr := (List.range osr.length).map fun (i : ℕ) => sweepSndr amp ((out i).getD (0, 0)).1
    .ok { osr := osr, sndr := sndr, sfdr := (List.range osr.length).map fun (i : ℕ) => sweepSfdr amp ((out i).getD (0, 0)).2,
          enob := sndr.map fun v => (v - 176 / 100) / (602 / 100) }

/-- The OSR values in use. `spectrum/sweep_performance_vs_osr.py:57-61`; without samples `rfft_inband_bin_count` raises `ValueError`. -/
noncomputable def sweepOsr (n : ℕ) (osr : Option (List ℝ)) : Py (List ℝ) :=
  match osr with
  | some l => .ok l
  | none => match rfftInbandBinCount (n : ℤ) (1 : ℝ) with
    | .error err => .error err
    | .ok _ => .ok (defaultOsr n)

/-- `sweep_performance_vs_osr(data, osr, create_plot=False)` with the fitted frequency, which the plot uses. `argsort` is
`np.argsort(osr)[::-1]`. `spectrum/sweep_performance_vs_osr.py:53-104, 182`. -/
noncomputable def sweepRun (solve : Lstsq) (argsort : List ℝ → List ℕ) (n : ℕ) (x : ℕ → ℝ) (osr : Option (List ℝ)) : Py (OsrCurves × ℝ) :=
  match sweepOsr n osr with
  | .error err => .error err
  | .ok l => match fitCore solve n x none 1 (1 / 10 ^ 9) with
    | .error err => .error err
    | .ok fit => match sweepCurves fit.amplitude (sweepSpectrum (fun t => x t - fit.fitted t) n) n l (argsort l) with
      | .error err => .error err
      | .ok c => .ok (c, fit.frequency)

/-- `sndr_lim` and `enob_lim`. `spectrum/sweep_performance_vs_osr.py:129-131`; `np.min` of an empty array raises `ValueError`. -/
noncomputable def sweepLimits (c : OsrCurves) : Py ((ℝ × ℝ) × (ℝ × ℝ)) :=
  match c.sndr, c.sfdr with
  | a :: l, b :: m =>
    let lo := min (minOf a l) (minOf b m) - 5
    let hi := max (maxOf a l) (maxOf b m) + 5
    .ok ((lo, hi), ((lo - 176 / 100) / (602 / 100), (hi - 176 / 100) / (602 / 100)))
  | _, _ => .error .valueError

/-- A vertical line is drawn only inside the swept range. `spectrum/sweep_performance_vs_osr.py:139, 147`. -/
def markShown (osr : List ℝ) (v : ℝ) : Prop := (∃ o ∈ osr, o ≤ v) ∧ ∃ o ∈ osr, v ≤ o

open Classical in
/-- The line of harmonic `h`, when drawn. The folded frequency is a Python `float`, so a harmonic that folds to DC raises `ZeroDivisionError`.
`spectrum/sweep_performance_vs_osr.py:145-150`. -/
noncomputable def harmonicMark (osr : List ℝ) (freq : ℝ) (h : ℕ) : Py (Option (ℕ × ℝ)) :=
  let fh := foldFrequency (freq * h) 1
  if 2 * fh = 0 then .error .zeroDivision
  else .ok (if markShown osr (1 / (2 * fh)) then some (h, 1 / (2 * fh)) else none)

open Classical in
/-- All vertical lines, as (harmonic order, OSR); order 1 is `Fund`. The fitted frequency is positive. `spectrum/sweep_performance_vs_osr.py:137-150`. -/
noncomputable def sweepMarks (osr : List ℝ) (freq : ℝ) (harmonic : ℕ) : Py (List (ℕ × ℝ)) :=
  match ((List.range (harmonic + 1)).drop 2).mapM (harmonicMark osr freq) with
  | .error err => .error err
  | .ok l => .ok ((if markShown osr (1 / (2 * freq)) then [(1, 1 / (2 * freq))] else []) ++ l.filterMap id)

/-- `smooth_win`. `spectrum/sweep_performance_vs_osr.py:156-157`; a negative `smooth` is outside the model. -/
noncomputable def smoothWin (nPts : ℕ) (smooth : Option ℕ) : ℕ :=
  min (match smooth with | none => max 5 (rint ((nPts : ℝ) / 10)).toNat | some w => w) ((nPts - 1) / 2)

/-- `local_slope[i]`. `spectrum/sweep_performance_vs_osr.py:160-165`. -/
noncomputable def localSlope (osr sndr : List ℝ) (w i : ℕ) : ℝ :=
  let lo := i - w
  let hi := min (osr.length - 1) (i + w)
  let denom := Real.logb 10 (osr.getD hi 0) - Real.logb 10 (osr.getD lo 0)
  if 1 / 10 ^ 15 < |denom| then (sndr.getD hi 0 - sndr.getD lo 0) / denom else 0

/-- The slope curve; without it (own axes given, or fewer than three points) `none`. `spectrum/sweep_performance_vs_osr.py:153-165`. -/
noncomputable def slopeCurve (ownAxes : Bool) (osr sndr : List ℝ) (smooth : Option ℕ) : Option (List ℝ) :=
  if ownAxes = false ∧ 3 ≤ osr.length then
    some ((List.range osr.length).map fun (i : ℕ) => localSlope osr sndr (smoothWin osr.length smooth) i)
  else none

/-- Limits of the slope axis. `spectrum/sweep_performance_vs_osr.py:176-178`. -/
noncomputable def slopeLimits (a : ℝ) (l : List ℝ) : ℝ × ℝ :=
  let r := maxOf a l - minOf a l
  (minOf a l - 1 / 10 * r - 5, maxOf a l + 1 / 10 * r + 5)

end Verif.Model
