import Verif.Np.PyList
import Mathlib.Data.List.Sort
import Mathlib.Data.Real.Sqrt
import Mathlib.Analysis.SpecialFunctions.Log.Base

/-!
# Model of `dout/`

A bit matrix is the list of its rows (samples); plotting is left out.
-/

namespace Verif.Model

open Verif

variable {K : Type} [Field K] [LinearOrder K]

/-- Column `j` of a matrix given by rows. -/
def column (rows : List (List K)) (j : ℕ) : List K := rows.map fun r => r.getD j 0

/-- `analyze_bit_activity`. `dout/analyze_bit_activity.py:37-39`. A matrix without rows has no second dimension (`IndexError`);
the `0 x B` array, which numpy would answer with NaN, is not distinguished from it. -/
def bitActivity (rows : List (List K)) : Py (List K) :=
  match rows with
  | [] => .error .indexError
  | r :: _ => .ok ((List.range r.length).map fun j => (column rows j).sum / rows.length * 100)

/-! ## Overflow check -/

/-- `raw_code[:, ii:] @ weight[ii:]` for one row. `dout/analyze_overflow.py:80`. -/
def tailDot (row weight : List K) (i : ℕ) : K := ((row.drop i).zipWith (· * ·) (weight.drop i)).sum

/-- `data_decom[:, ii]`. `dout/analyze_overflow.py:80-84`. A zero weight sum (numpy: inf/NaN) gives 0 here. -/
def residues (rows : List (List K)) (weight : List K) (i : ℕ) : List K :=
  rows.map fun r => tailDot r weight i / (weight.drop i).sum

/-- `np.min` of a list with its first element given. -/
def foldMin (a : K) (l : List K) : K := l.foldl min a

/-- `np.max` of a list with its first element given. -/
def foldMax (a : K) (l : List K) : K := l.foldl max a

/-- Percentage of the samples satisfying a test. `dout/analyze_overflow.py:89-90`: `np.sum(mask) / N * 100`. -/
def percentOf (p : K → Bool) (l : List K) : K := ((l.filter p).length : K) / l.length * 100

/-- What `analyze_overflow` returns, plus the sample masks at the checked bit, which only the plot uses
(`dout/analyze_overflow.py:95-96`). -/
structure Overflow (K : Type) where
  rangeMin : List K
  rangeMax : List K
  percentZero : List K
  percentOne : List K
  ovfZero : List Bool
  ovfOne : List Bool

/-- `analyze_overflow` for a two-dimensional code array with `M` columns. `dout/analyze_overflow.py:56-97, 171`.
`np.min` of no samples raises `ValueError`; `data_decom[:, M - ofb]` raises `IndexError` outside `-M .. M-1`. -/
def analyzeOverflow (M : ℕ) (rows : List (List K)) (weight : List K) (ofb : Option ℤ) : Py (Overflow K) :=
  if weight.length ≠ M then .error .valueError
  else if M ≠ 0 ∧ rows = [] then .error .valueError
  else
    let idx : ℤ := M - ofb.getD M
    if idx < -M ∨ (M : ℤ) ≤ idx then .error .indexError
    else
      let checked := residues rows weight (if idx < 0 then idx + M else idx).toNat
      let sums := fun i => rows.map fun r => tailDot r weight i
      let total := fun i => (weight.drop i).sum
      .ok {
        rangeMin := (List.range M).map fun i => foldMin ((sums i).headD 0) (sums i) / total i
        rangeMax := (List.range M).map fun i => foldMax ((sums i).headD 0) (sums i) / total i
        percentZero := (List.range M).map fun i => percentOf (fun d => decide (d ≤ 0)) (residues rows weight i)
        percentOne := (List.range M).map fun i => percentOf (fun d => decide (1 ≤ d)) (residues rows weight i)
        ovfZero := checked.map fun d => decide (d ≤ 0)
        ovfOne := checked.map fun d => decide (1 ≤ d) }

/-! ## Weight radix -/

/-- One radix entry: `none` stands for a value that is not a finite number (`inf` or `NaN`). -/
def ratioEntry (a b : K) : Option K := if b = 0 then none else some (a / b)

/-- `radix`. `dout/analyze_weight_radix.py:72-75`; the first entry is NaN. -/
def radixList (weights : List K) : List (Option K) :=
  let a := weights.map fun w => |w|
  (List.range weights.length).map fun i => if i = 0 then none else ratioEntry (a.getD (i - 1) 0) (a.getD i 0)

/-- Weights sorted by descending magnitude. `dout/analyze_weight_radix.py:79-80` (values only, so the order of ties is irrelevant). -/
def sortedWeights (weights : List K) : List K := (weights.map fun w => |w|).insertionSort (· ≥ ·)

/-- `ratio >= 3.0` with numpy division: `x/0` is `inf` for `x > 0` and `0/0` is NaN. `dout/analyze_weight_radix.py:83-86`. -/
def bigRatio (a b : K) : Bool := if b = 0 then decide (0 < a) else decide (3 ≤ a / b)

/-- `k`. `dout/analyze_weight_radix.py:86-90`: first position of a big ratio, or the number of ratios. -/
def sigBreak (s : List K) : ℕ := (List.zipWith bigRatio s s.tail).findIdx id

/-- `abs_w_sig`. `dout/analyze_weight_radix.py:97`. -/
def significant (weights : List K) : List K := (sortedWeights weights).take (sigBreak (sortedWeights weights) + 1)

/-- `w_err` for a given scale. `dout/analyze_weight_radix.py:103, 109`. -/
noncomputable def scaleError (sig : List ℝ) (scale : ℝ) : ℝ :=
  Real.sqrt ((sig.map fun w => (w * scale - (rint (w * scale) : ℝ)) ^ 2).sum / sig.length)

open Classical in
/-- One candidate MSB value. `dout/analyze_weight_radix.py:107-112`. State: best error and best scale. -/
noncomputable def scaleStep (sig : List ℝ) (top : ℝ) (s : ℝ × ℝ) (wmsb : ℤ) : ℝ × ℝ :=
  let refine := (wmsb : ℝ) / top
  if scaleError sig refine < s.1 then (scaleError sig refine, refine) else s

/-- The candidates `range(wmsb_min, wmsb_max + 1)`. `dout/analyze_weight_radix.py:104-107`. -/
noncomputable def scaleCandidates (top scale : ℝ) : List ℤ :=
  let init : ℤ := rint (top * scale)
  let lo := max 1 (rint ((init : ℝ) * (1 / 2)))
  let hi := max lo (rint ((init : ℝ) * (3 / 2)))
  (List.range (hi + 1 - lo).toNat).map fun (i : ℕ) => lo + (i : ℤ)

/-- What `analyze_weight_radix` returns. -/
structure RadixReport where
  radix : List (Option ℝ)
  wgtsca : ℝ
  effres : ℝ

open Classical in
/-- `analyze_weight_radix`. `dout/analyze_weight_radix.py:66-115, 184`. No weights: `radix[0] = nan` raises `IndexError`; only zero
weights: the scale is infinite and `round(nan)` raises `ValueError`. -/
noncomputable def analyzeWeightRadix (weights : List ℝ) : Py RadixReport :=
  if weights = [] then .error .indexError
  else
    let sig := significant weights
    let last := sig.getLastD 0
    if last = 0 then .error .valueError
    else
      let top := (sortedWeights weights).headD 0
      let start := 1 / last
      .ok { radix := radixList weights
            wgtsca := ((scaleCandidates top start).foldl (scaleStep sig top) (scaleError sig start, start)).2
            effres := Real.logb 2 (sig.sum / last + 1) }

/-! ## Residual scatter -/

/-- Number of entries kept by `l[:k]` for a list of length `n` (a negative `k` counts from the end). -/
def sliceEnd (k : ℤ) (n : ℕ) : ℕ := if k < 0 then (k + n).toNat else min k.toNat n

/-- `bits[:, :k] @ weights[:k]` for one row. `dout/plot_residual_scatter.py:80, 85`. -/
def headDot (row weights : List K) (k : ℤ) : K :=
  ((row.take (sliceEnd k row.length)).zipWith (· * ·) (weights.take (sliceEnd k weights.length))).sum

/-- Residual after the first `k` bits. `dout/plot_residual_scatter.py:77-85`. -/
def residualAt (signal : List K) (rows : List (List K)) (weights : List K) (k : ℤ) : List K :=
  if k = 0 then signal else signal.zipWith (fun s r => s - headDot r weights k) rows

/-- The matrix product has matching dimensions. -/
def sliceFits (m : ℕ) (weights : List K) (k : ℤ) : Bool := decide (k = 0) || decide (sliceEnd k m = sliceEnd k weights.length)

/-- `plot_residual_scatter` (returned values) for an array with `m` columns and automatic transparency.
`dout/plot_residual_scatter.py:50-88, 112-116`. No samples: `1000.0 / n` raises `ZeroDivisionError`; slices of different lengths
raise `ValueError` in the matrix product. -/
def residualScatter (m : ℕ) (signal : List K) (rows : List (List K)) (weights : Option (List K)) (pairs : Option (List (ℤ × ℤ))) :
    Py (List (ℤ × ℤ) × List (List K) × List (List K)) :=
  if signal.length ≠ rows.length then .error .valueError
  else if rows = [] then .error .zeroDivision
  else
    let w := weights.getD ((List.range m).map fun i => 2 ^ (m - 1 - i))
    let ps := pairs.getD ((List.range m).map fun (i : ℕ) => ((i : ℤ), (m : ℤ)))
    if ps.all (fun p => sliceFits m w p.1 && sliceFits m w p.2) then
      .ok (ps, ps.map fun p => residualAt signal rows w p.1, ps.map fun p => residualAt signal rows w p.2)
    else .error .valueError

end Verif.Model
