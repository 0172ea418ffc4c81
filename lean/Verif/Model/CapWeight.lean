import Verif.Np.Basic

/-!
# Model of `fundamentals/convert_cap_to_weight.py`
-/

namespace Verif.Model

open Verif

variable {K : Type} [Field K] [LinearOrder K]

/-- One iteration of the LSB→MSB loop. State: weights of the bits processed so far (`weights[:i]`) and
`c_load`.  `fundamentals/convert_cap_to_weight.py:57-85`. A skipped iteration (`continue`) leaves
`weights[i]` at its initial 0 and `c_load` unchanged. -/
def capStep (st : List K × K) (x : K × K × K) : List K × K :=
  let (weights, cLoad) := st
  let (cd, cb, cp) := x
  let cNode := cd + cp + cLoad
  if cNode = 0 then (weights ++ [0], cLoad)
  else
    let att := cLoad / cNode
    let weights' := weights.map (· * att) ++ [cd / cNode]
    let cLoad' := if cb > 0 then cb * cNode / (cb + cNode) else cNode
    (weights', cLoad')

/-- `convert_cap_to_weight(caps_bit, caps_bridge, caps_parasitic)`: returns `(weights, c_total)`.
`fundamentals/convert_cap_to_weight.py:39-87`. -/
def convertCapToWeight (cd cb cp : List K) : Py (List K × K) :=
  if ¬ (cd.length = cb.length ∧ cb.length = cp.length) then .error .valueError
  else .ok ((cd.zip (cb.zip cp)).foldl capStep ([], 0))

end Verif.Model
