import Mathlib.Algebra.BigOperators.Intervals
import Mathlib.Algebra.Order.Field.Basic

/-!
# Specifications for spectrum accounting
-/

namespace Verif.Spec

open Finset

variable {K : Type} [Field K]

/-- Bins of the DC lobe. -/
def dcLobe (sideBin : ℕ) : Finset ℕ := range (sideBin + 1)

/-- Bins `c - sideBin .. c + sideBin` (clipped at zero). -/
def lobe (c sideBin : ℕ) : Finset ℕ := Icc (c - sideBin) (c + sideBin)

/-- Total power of a set of bins. -/
def power (p : ℕ → K) (s : Finset ℕ) : K := ∑ i ∈ s, p i

/-- Bins that count as noise and distortion: in band, outside the DC lobe and outside the signal lobe. -/
def nadBins (nInband sideBin fund : ℕ) : Finset ℕ := (range nInband \ dcLobe sideBin) \ lobe fund sideBin

end Verif.Spec
