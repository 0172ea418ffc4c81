import Verif.Model.Inl

/-!
# Model of the ramp generator of `examples/04_debug_analog/exp_a33_inl_from_ramp.py`
-/

namespace Verif.Model

open Verif

variable {K : Type} [Field K] [LinearOrder K]

/-- `np.searchsorted(a, x, side="right")` for a sorted array: the number of entries not above `x`. -/
def searchsortedRight (a : List K) (x : K) : ℕ := (a.filter fun e => decide (e ≤ x)).length

/-- `np.concatenate(([0.0], np.cumsum(code_widths)))`. `exp_a33_inl_from_ramp.py:21`. -/
def rampEdges (widths : List K) : List K := (List.range (widths.length + 1)).map fun k => (widths.take k).sum

/-- `simulate_ramp_codes(code_widths, samples_per_code)`; `np.nextafter(1.0, 0.0)` is `1 - 2^-53`, `transition_edges[1:-1]` drops the first and the last edge. With all widths zero numpy
divides by zero and returns codes of NaN edges; here the edges are then zero. `exp_a33_inl_from_ramp.py:15-25`. -/
def simulateRampCodes (widths : List K) (samplesPerCode : ℕ) : Py (List ℕ) :=
  if ∃ w ∈ widths, w < 0 then .error .valueError
  else
    let edges := (rampEdges widths).map (· / widths.sum)
    let n := widths.length * samplesPerCode
    let ramp := (List.range n).map fun j => linspaceAt (0 : K) (1 - 1 / 2 ^ 53) n j
    .ok (ramp.map (searchsortedRight (edges.drop 1).dropLast))

end Verif.Model
