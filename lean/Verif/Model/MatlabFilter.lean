import Verif.Model.Matlab
import Verif.Model.BandFilter

/-!
# Model of MATLAB `ifilter.m`, which `oversampling/ifilter.py:13` says it is the counterpart of
-/

namespace Verif.Model

open Verif

section

variable {K : Type} [Field K] [LinearOrder K] [FloorRing K]

/-- `binIndices` of one band `(min, max)`. `matlab/src/ifilter.m:74-78`. `alias` is given `fs = N > 0`. -/
def mlBandIds (N : ℕ) (b : K × K) : List K :=
  let binStart := mlRound (b.1 * (N : K))
  let binEnd := mlRound (b.2 * (N : K))
  (List.range (binEnd + 1 - binStart).toNat).map fun (i : ℕ) => (mlAlias ((binStart + (i : ℤ) : ℤ) : K) (N : K)).getD 0

/-- `mask(k+1) == 1`. `matlab/src/ifilter.m:69, 81-87`. -/
def mlBandMask (N : ℕ) (bands : List (K × K)) (k : ℕ) : Bool :=
  bands.any fun b => (mlBandIds N b).any fun v =>
    decide (v = (k : K)) || (decide (0 < v) && decide (v < (N : K) / 2) && decide ((N : K) - v = (k : K)))

end

/-- `ifilter(sigin, passband)` for a real matrix; result column by column. `matlab/src/ifilter.m:49-95`. The empty matrix `[]` has no two columns; on
an empty signal `alias` is called with `fs = 0` and fails. -/
noncomputable def mlIfilter (rows : List (List ℝ)) (passband : List (List ℝ)) : Option (List (List ℝ)) :=
  let M := (rows.headD []).length
  let cols := if rows.length < M then rows else mlTranspose M rows
  let N := if rows.length < M then M else rows.length
  if passband = [] ∨ ∃ r ∈ passband, r.length ≠ 2 then none
  else if ∃ r ∈ passband, ∃ v ∈ r, v < 0 ∨ 1 / 2 < v then none
  else if N = 0 then none
  else
    let bands := passband.map fun r => (min (r.getD 0 0) (r.getD 1 0), max (r.getD 0 0) (r.getD 1 0))
    some (cols.map fun c => (List.range N).map fun (n : ℕ) => maskFilter N (mlBandMask N bands) (fun i => c.getD i 0) n)

end Verif.Model
