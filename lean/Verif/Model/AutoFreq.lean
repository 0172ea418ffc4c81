import Verif.Model.EnobSweep
import Verif.Model.SineFit

/-!
# Model of the automatic frequency estimate in `calibration/_estimate_frequencies.py`

Without the progress messages. A dataset is the list of its rows. `np.argsort` is the parameter `argsort`: numpy's default sort is not
stable, so any function that returns a sorting permutation (`IsArgsort`) is allowed.
-/

namespace Verif.Model

open Verif Finset

/-- What `np.argsort` guarantees: a permutation of the indices along which the values do not decrease. -/
def IsArgsort (argsort : List ℕ → List ℕ) : Prop :=
  ∀ l, (argsort l).Perm (List.range l.length) ∧ (argsort l).Pairwise fun i j => l.getD i 0 ≤ l.getD j 0

open Classical in
/-- `toggles[j]`. `calibration/_estimate_frequencies.py:52`. -/
noncomputable def toggleCount (seg : List (List ℝ)) (j : ℕ) : ℕ :=
  ((List.range (seg.length - 1)).filter fun (i : ℕ) => decide ((seg.getD (i + 1) []).getD j 0 - (seg.getD i []).getD j 0 ≠ 0)).length

/-- `(current_segment[:, indices] @ assumed_weights)`, the first index having the largest weight. `calibration/_estimate_frequencies.py:56,63-67`. -/
noncomputable def assumedSignal (seg : List (List ℝ)) (idx : List ℕ) : List ℝ :=
  seg.map fun r => ((List.range idx.length).map fun (i : ℕ) => r.getD (idx.getD i 0) 0 * (2 : ℝ) ^ (idx.length - 1 - i)).sum

/-- The estimate of one dataset with `width` columns. `calibration/_estimate_frequencies.py:49-92`. The anchor frequency (lines 72-78) is
computed but not used; without columns `most_common(1)[0]` raises `IndexError`. The remaining arguments of `compute_spectrum` and
`estimate_frequency` keep their defaults. -/
noncomputable def segmentEstimate (lib : WinLib) (solve : Lstsq) (argsort : List ℕ → List ℕ) (width : ℕ) (seg : List (List ℝ)) : Py ℝ :=
  let sorted := argsort ((List.range width).map (toggleCount seg))
  let use := min 6 width
  let sigA := assumedSignal seg (sorted.take use)
  let sigB := assumedSignal seg (sorted.reverse.take use)
  match computeSpectrum lib [sigA] {} with
  | .error e => .error e
  | .ok rA =>
    match computeSpectrum lib [sigB] {} with
    | .error e => .error e
    | .ok rB =>
      if width = 0 then .error .indexError
      else
        let winner := if rB.sndr ≤ rA.sndr then sigA else sigB
        estimateFrequency solve winner.length (fun t => winner.getD t 0) none 1

/-- The loop over the datasets. `calibration/_estimate_frequencies.py:45-50,102`; the first exception ends it. -/
noncomputable def autoFrequencies (lib : WinLib) (solve : Lstsq) (argsort : List ℕ → List ℕ) (width : ℕ) : List (List (List ℝ)) → Py (List ℝ)
  | [] => .ok []
  | seg :: rest =>
    match segmentEstimate lib solve argsort width seg with
    | .error e => .error e
    | .ok f =>
      match autoFrequencies lib solve argsort width rest with
      | .error e => .error e
      | .ok fs => .ok (f :: fs)

open Classical in
/-- `_estimate_frequencies`, both parts. `calibration/_estimate_frequencies.py:29-102`. -/
noncomputable def frequenciesInUse (lib : WinLib) (solve : Lstsq) (argsort : List ℕ → List ℕ) (width : ℕ) (segs : List (List (List ℝ)))
    (freq : FreqArg) : Py (List ℝ) :=
  if ∀ f ∈ freq.values, f = 0 then autoFrequencies lib solve argsort width segs
  else estimateFrequencies segs.length [] freq

open Classical in
/-- `calibrate_weight_sine` with its automatic frequency estimate. `calibration/calibrate_weight_sine.py:94-182`. The part after the
estimate is that of `calibrate`. -/
noncomputable def calibrateAuto (lib : WinLib) (solve : Lstsq) (argsort : List ℕ → List ℕ) (segs : List (List (List ℝ))) (freq : FreqArg)
    (force : Option Bool) (given : Option (List ℝ)) (H : ℕ) (lr reltol : ℝ) (maxIter : ℕ) : Py CalResult :=
  if ∃ f ∈ freq.values, 1 / 2 < f then .error .valueError
  else
    match prepareInput segs given with
    | .error e => .error e
    | .ok (segs', width, _) =>
      match frequenciesInUse lib solve argsort width segs' freq with
      | .error e => .error e
      | .ok fa => calibrate solve fa segs freq force given H lr reltol maxIter

end Verif.Model
