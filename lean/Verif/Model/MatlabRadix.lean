import Verif.Model.Dout
import Verif.Model.Matlab

/-!
# Model of `matlab/src/plotwgt.m` (the returned values)
-/

namespace Verif.Model

open Verif

/-- `radix`. `matlab/src/plotwgt.m:84-87`: one entry fewer than there are weights; `none` is an infinite or NaN entry. -/
noncomputable def mlRadixList (weights : List ℝ) : List (Option ℝ) :=
  (List.range (weights.length - 1)).map fun (i : ℕ) => ratioEntry |weights.getD i 0| |weights.getD (i + 1) 0|

/-- `K`. `matlab/src/plotwgt.m:102-111`: `find(ratios >= 3, 1, 'first') - 1`, or the number of ratios. Division by zero gives
`Inf` or `NaN`, as in numpy. -/
noncomputable def mlSigK (s : List ℝ) : ℕ :=
  match (List.range (s.length - 1)).find? fun i => bigRatio (s.getD i 0) (s.getD (i + 1) 0) with
  | none => s.length - 1
  | some i => i

/-- `rms(absW_sig*c - round(absW_sig*c))`. `matlab/src/plotwgt.m:124, 130`. -/
noncomputable def mlScaleError (sig : List ℝ) (c : ℝ) : ℝ :=
  Real.sqrt ((sig.map fun w => (w * c - (mlRound (w * c) : ℝ)) ^ 2).sum / sig.length)

/-- `WMSB_min:WMSB_max`. `matlab/src/plotwgt.m:125-128`. -/
noncomputable def mlScaleCandidates (top scale : ℝ) : List ℤ :=
  let init : ℤ := mlRound (top * scale)
  let lo := max 1 (mlRound ((init : ℝ) * (1 / 2)))
  let hi := max lo (mlRound ((init : ℝ) * (3 / 2)))
  (List.range (hi + 1 - lo).toNat).map fun (i : ℕ) => lo + (i : ℤ)

open Classical in
/-- One pass of the refinement. `matlab/src/plotwgt.m:128-135`. State: `w_err` and `wgtsca`. -/
noncomputable def mlScaleStep (sig : List ℝ) (top : ℝ) (s : ℝ × ℝ) (wmsb : ℤ) : ℝ × ℝ :=
  let c := (wmsb : ℝ) / top
  if s.1 > mlScaleError sig c then (mlScaleError sig c, c) else s

open Classical in
/-- `plotwgt(weights, 0)`. `matlab/src/plotwgt.m:78-138`. `none` where `absW(K+1)` does not exist (no weights) or is zero
(only zero weights: `wgtsca` is `Inf`, `effres` is `NaN`). Simplification: the marker positions are left out. -/
noncomputable def mlPlotWgt (weights : List ℝ) : Option RadixReport :=
  if weights = [] then none
  else
    let s := sortedWeights weights
    let sig := s.take (mlSigK s + 1)
    let last := s.getD (mlSigK s) 0
    if last = 0 then none
    else
      let top := s.getD 0 0
      some { radix := mlRadixList weights
             wgtsca := ((mlScaleCandidates top (1 / last)).foldl (mlScaleStep sig top) (mlScaleError sig (1 / last), 1 / last)).2
             effres := Real.logb 2 (sig.sum / sig.getLastD 0 + 1) }

end Verif.Model
