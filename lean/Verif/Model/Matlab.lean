import Verif.Model.Dout

/-!
# Model of the MATLAB functions the Python code says it follows (basic helpers)

The repository keeps its MATLAB toolbox under `matlab/src`, and several Python docstrings promise to follow it: `fundamentals/convert_cap_to_weight.py:8`
("Ported from MATLAB cap2weight.m"), `dout/analyze_overflow.py:54` ("Matches MATLAB ovfchk.m behavior exactly"), `oversampling/ifilter.py:13`,
`oversampling/perfosr.py:23`, `oversampling/ntfperf.py:11`. The MATLAB text is modelled here so that the promise can be stated.
`none` stands for a MATLAB `error(...)`; messages are dropped. Exact numbers replace doubles.
-/

namespace Verif.Model

open Verif

section

variable {K : Type} [Field K] [LinearOrder K]

/-- MATLAB `round`: nearest integer, ties away from zero (a MATLAB built-in; numpy rounds ties to even). -/
def mlRound [FloorRing K] (x : K) : ℤ := if 0 ≤ x then ⌊x + 1 / 2⌋ else ⌈x - 1 / 2⌉

/-- `alias(fin, fs)` for one frequency. `matlab/src/alias.m:40-59`. The checks for complex arguments are in the types. -/
def mlAlias [FloorRing K] (fin fs : K) : Option K :=
  if fs ≤ 0 then none
  else
    let nyquistZone : ℤ := ⌊fin / fs * 2⌋
    let baseOffset := fin - (⌊fin / fs⌋ : K) * fs
    some (if nyquistZone % 2 = 0 then baseOffset else fs - baseOffset)

/-- One pass of the loop of `cdacwgt` (LSB first). State: weights of the bits already met, `Cl`. `matlab/src/cdacwgt.m:121-139`. The entries of
`weight` not yet reached are 0 in the code and stay 0 under the scaling; they are left out here. -/
def cdacwgtStep (st : List K × K) (x : K × K × K) : List K × K :=
  let Ct := x.2.2 + x.1 + st.2
  (st.1.map (fun w => w * st.2 / Ct) ++ [x.1 / Ct], if x.2.1 = 0 then Ct else 1 / (1 / x.2.1 + 1 / Ct))

/-- `cdacwgt(cd, cb, cp)`, vectors MSB first. `matlab/src/cdacwgt.m:76-145`. An empty array is not a vector (line 82). -/
def cdacwgt (cd cb cp : List K) : Option (List K × K) :=
  if cd = [] ∨ cb = [] ∨ cp = [] then none
  else if cb.length ≠ cd.length ∨ cp.length ≠ cd.length then none
  else if ∃ c ∈ cd, c ≤ 0 then none
  else if (∃ c ∈ cb, c < 0) ∨ ∃ c ∈ cp, c < 0 then none
  else
    let r := (cd.reverse.zip (cb.reverse.zip cp.reverse)).foldl cdacwgtStep ([], 0)
    some (r.1.reverse, r.2)

/-- `cap2weight(Cd, Cb, Cp)`, vectors LSB first. `matlab/src/legacy/cap2weight.m:21-29`. -/
def cap2weight (Cd Cb Cp : List K) : Option (List K × K) :=
  (cdacwgt Cd.reverse Cb.reverse Cp.reverse).map fun r => (r.1.reverse, r.2)

/-- MATLAB `A'` of an `N`-by-`M` matrix given by rows. -/
def mlTranspose (M : ℕ) (rows : List (List K)) : List (List K) := (List.range M).map fun j => rows.map fun r => r.getD j 0

/-- `bits(:,ii:end)*wgt(ii:end)'` for one-based `ii`. `matlab/src/bitchk.m:119`. -/
def bitchkSum (bits : List (List K)) (wgt : List K) (ii : ℕ) : List K :=
  bits.map fun b => (List.zipWith (· * ·) (b.drop (ii - 1)) (wgt.drop (ii - 1))).sum

/-- `bitchk` after the orientation of `bits` (`N` rows, `M` columns). `matlab/src/bitchk.m:97-133`. The result lists `range_min`, `range_max`,
`ovf_percent_zero`, `ovf_percent_one`, and the masks `ovf_zero`, `ovf_one` used by the plot. Division by a zero weight sum (MATLAB: Inf or NaN) gives
0 here. A matrix without columns fails at `data_decom(:,1)`. -/
def bitchkCore (N M : ℕ) (bits : List (List K)) (wgt : Option (List K)) (chkpos : Option ℤ) : Option (Overflow K) :=
  let w := wgt.getD ((List.range M).map fun i => 2 ^ (M - 1 - i))
  if ∃ c ∈ chkpos, c < 1 ∨ (M : ℤ) < c then none
  else if w.length ≠ M then none
  else if M = 0 then none
  else
    let pos := (chkpos.getD M).toNat
    let decom := fun ii => (bitchkSum bits w ii).map fun t => t / (w.drop (ii - 1)).sum
    some
      { rangeMin := (List.range' 1 M).map fun ii => ((bitchkSum bits w ii).min?.getD 0) / (w.drop (ii - 1)).sum
        rangeMax := (List.range' 1 M).map fun ii => ((bitchkSum bits w ii).max?.getD 0) / (w.drop (ii - 1)).sum
        percentZero := (List.range' 1 M).map fun ii => ((decom ii).countP fun d => decide (d ≤ 0) : ℕ) / (N : K) * 100
        percentOne := (List.range' 1 M).map fun ii => ((decom ii).countP fun d => decide (1 ≤ d) : ℕ) / (N : K) * 100
        ovfZero := (decom (M - pos + 1)).map fun d => decide (d ≤ 0)
        ovfOne := (decom (M - pos + 1)).map fun d => decide (1 ≤ d) }

/-- `bitchk(bits, wgt, chkpos)` (and `ovfchk`, `overflowChk`, which only call it) for a matrix of `M` columns. `matlab/src/bitchk.m:90-133`,
`matlab/src/legacy/ovfchk.m:8-12`, `matlab/src/legacy/overflowChk.m:27-31`. A matrix wider than tall is transposed. -/
def bitchk (M : ℕ) (bits : List (List K)) (wgt : Option (List K)) (chkpos : Option ℤ) : Option (Overflow K) :=
  if bits.length < M then bitchkCore M bits.length (mlTranspose M bits) wgt chkpos
  else bitchkCore bits.length M bits wgt chkpos

end

end Verif.Model
