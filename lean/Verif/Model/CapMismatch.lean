import Verif.Model.Sar
import Verif.Np.Vec
import Mathlib.Analysis.Real.Sqrt

/-!
# Model of the weight mismatch helpers of `models/sar.py`

Weights are one-dimensional and finite (exact numbers), so the dimension and finiteness checks are vacuous. The normal draws are a parameter `z`.
-/

namespace Verif.Model

open Verif

/-- `weights / np.min(weights)`. `models/sar.py:141`. -/
noncomputable def inferCapUnits (ws : List ℝ) : List ℝ :=
  match ws with
  | [] => []
  | a :: l => (a :: l).map (· / minOf a l)

/-- `weights * (1.0 + sigma / np.sqrt(cap_units) * rng.standard_normal(len(weights)))`. `models/sar.py:156-157`. -/
noncomputable def perturbWeights (ws units : List ℝ) (sigma : ℝ) (z : ℕ → ℝ) : List ℝ :=
  (List.range ws.length).map fun i => ws.getD i 0 * (1 + sigma / Real.sqrt (units.getD i 0) * z i)

/-- `sar_apply_cap_mismatch(weights, sigma, rng, cap_units)`. `models/sar.py:86-157`. -/
noncomputable def sarApplyCapMismatch (ws : List ℝ) (sigma : ℝ) (z : ℕ → ℝ) (capUnits : Option (List ℝ)) : Py (List ℝ) :=
  if ws.length = 0 then .error .valueError
  else if ∃ w ∈ ws, w ≤ 0 then .error .valueError
  else if sigma < 0 then .error .valueError
  else match capUnits with
    | none => .ok (perturbWeights ws (inferCapUnits ws) sigma z)
    | some c =>
      if c.length ≠ ws.length then .error .valueError
      else if ∃ u ∈ c, u ≤ 0 then .error .valueError
      else .ok (perturbWeights ws c sigma z)

/-- `sar_apply_mismatch(weights, sigma, rng)`, the older helper. `models/sar.py:160-173`. -/
noncomputable def sarApplyMismatch (ws : List ℝ) (sigma : ℝ) (z : ℕ → ℝ) : List ℝ :=
  (List.range ws.length).map fun i => ws.getD i 0 * (1 + sigma * z i)

end Verif.Model
