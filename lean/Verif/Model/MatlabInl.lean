import Verif.Model.Matlab
import Verif.Model.Inl

/-!
# Model of MATLAB `inlsin.m`, the counterpart named by `aout/compute_inl_from_sine.py:6`
-/

namespace Verif.Model

open Verif

/-- `histcounts(data, [code-0.5, code(end)+0.5])` for `n` consecutive codes from `lo`: half-open bins, the last one closed. `matlab/src/inlsin.m:106`. -/
noncomputable def mlHistcounts (data : List ℤ) (lo : ℤ) (n : ℕ) : List ℕ :=
  (List.range n).map fun (i : ℕ) => data.countP fun (d : ℤ) =>
    decide (((lo + (i : ℤ) : ℤ) : ℝ) - 1 / 2 ≤ (d : ℝ)) &&
      (if i + 1 = n then decide ((d : ℝ) ≤ ((lo + (i : ℤ) : ℤ) : ℝ) + 1 / 2) else decide ((d : ℝ) < ((lo + (i : ℤ) : ℤ) : ℝ) + 1 / 2))

/-- From the histogram to DNL, with `range = max_data - min_data + 1`. `matlab/src/inlsin.m:107-122`. A zero `sum(dnl)` (MATLAB: NaN) gives `x / 0 = 0`. -/
noncomputable def inlsinDnl (counts : List ℕ) (range : ℝ) : List ℝ :=
  let cumulative : List ℝ := (List.range counts.length).map fun (i : ℕ) =>
    -Real.cos (Real.pi * ((counts.take (i + 1)).sum : ℕ) / (counts.sum : ℕ))
  let d := (List.range (counts.length - 2)).map fun i => cumulative.getD (i + 1) 0 - cumulative.getD i 0
  let p := d.map fun x => x / d.sum * range - 1
  p.map fun x => max (x - p.sum / p.length) (-1)

/-- `inlsin(data, excl)` for a real vector. `matlab/src/inlsin.m:66-125`. Records whose entries are all within `2*eps` of integers are not rounded by the code; rounding
them as well changes nothing for integers, and exact numbers have no such near-integers to speak of. An empty vector fails at `code(end)`. -/
noncomputable def inlsin (data : List ℝ) (excl : ℝ) : Option SineInl :=
  if ¬ (0 ≤ excl ∧ excl < 1 / 2) then none
  else
    let ints := data.map mlRound
    match ints.min?, ints.max? with
    | some lo, some hi =>
      let exclusion : ℤ := mlRound (excl * ((hi - lo : ℤ) : ℝ))
      let maxData := hi - exclusion
      let minData := min (lo + exclusion) maxData
      let n := (maxData + 1 - minData).toNat
      let dnl := inlsinDnl (mlHistcounts (ints.map fun d => min (max d minData) maxData) minData n) ((maxData - minData + 1 : ℤ) : ℝ)
      some { inl := (List.range dnl.length).map fun i => (dnl.take (i + 1)).sum
             dnl := dnl
             code := (List.range (n - 2)).map fun (i : ℕ) => minData + (i : ℤ) }
    | _, _ => none

end Verif.Model
