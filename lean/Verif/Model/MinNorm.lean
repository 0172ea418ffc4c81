import Verif.Model.Calibration

/-!
# The documented choice among least-squares solutions
-/

namespace Verif.Model

open Verif

/-- `np.linalg.lstsq` is external. What numpy documents, in exact arithmetic: a minimiser, and among several minimisers the one of smallest norm. It is called in
`fundamentals/fit_sine_4param.py:72`. -/
structure IsMinNormLstsq (solve : Lstsq) : Prop extends IsLstsq solve where
  least : ∀ N A b (x : List ℝ), x.length = A.length → residNorm N A x b ≤ residNorm N A (solve N A b) b →
    ((solve N A b).map (· ^ 2)).sum ≤ (x.map (· ^ 2)).sum

end Verif.Model
