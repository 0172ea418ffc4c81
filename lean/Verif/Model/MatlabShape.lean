import Verif.Model.SigGen
import Mathlib.Data.Nat.Choose.Basic

/-!
# Model of MATLAB `noiseshape.m`

Its help text says that the default noise transfer function matches the Python `ADC_Signal_Generator`. Samples are numbered from zero, `none` is `error(...)`. NTFs given as
struct or system object are left out: they are read into a numerator and a denominator.
-/

namespace Verif.Model

open Verif Finset

/-- State of MATLAB's built-in `filter` (transposed direct form II with coefficients divided by `a(1)`, zero initial state) after `n` samples: register
`i`. External function, used at `matlab/src/noiseshape.m:104`. -/
def mlFilterState {K : Type} [Field K] (b a : List K) (x : ℕ → K) : ℕ → ℕ → K
  | 0 => fun _ => 0
  | n + 1 =>
    let z := mlFilterState b a x n
    let y := b.getD 0 0 / a.getD 0 0 * x n + z 0
    fun i => b.getD (i + 1) 0 / a.getD 0 0 * x n + z (i + 1) - a.getD (i + 1) 0 / a.getD 0 0 * y

/-- `filter(b, a, x)`, sample `n`. -/
def mlFilter {K : Type} [Field K] (b a : List K) (x : ℕ → K) (n : ℕ) : K := b.getD 0 0 / a.getD 0 0 * x n + mlFilterState b a x n 0

/-- `resolveNtf`. An empty numerator vector is the default. `matlab/src/noiseshape.m:121-169`. -/
def mlNtf (ntf : NtfArg) (order : ℤ) : List ℝ × List ℝ :=
  let dflt := ((List.range (order.toNat + 1)).map fun (k : ℕ) => (-1 : ℝ) ^ k * (order.toNat.choose k : ℝ))
  match ntf with
  | .default => (dflt, [1])
  | .fir num => if num = [] then (dflt, [1]) else (num, [1])
  | .iir num den => (num, den)

/-- `noiseshape(sigin, 'bits', bits, 'range', [vmin vmax], 'order', order, 'ntf', ntf)`. The arguments are checked whether they are used or not.
`matlab/src/noiseshape.m:65-105`. -/
noncomputable def mlNoiseShape (sigin : ℕ → ℝ) (bits : ℤ) (vmin vmax : ℝ) (order : ℤ) (ntf : NtfArg) : Option (ℕ → ℝ) :=
  if ¬ (0 < bits ∧ vmin < vmax ∧ 1 ≤ order ∧ order ≤ 5) then none
  else
    let c := mlNtf ntf order
    let lsb := (vmax - vmin) / 2 ^ bits.toNat
    let maxCode : ℤ := 2 ^ bits.toNat - 1
    let codes := fun i => min (max ⌊(sigin i - vmin) / lsb⌋ 0) maxCode
    let sigq := fun i => (codes i : ℝ) * lsb + vmin
    let qerr := fun i => sigq i - sigin i
    if c.1 = [] ∨ c.2.getD 0 0 = 0 then none
    else some fun i => sigin i + mlFilter c.1 c.2 qerr i

/-- The sine generated when no signal is given. `matlab/src/noiseshape.m:77-80`. -/
noncomputable def mlShapeSine (fs fin a dc : ℝ) (i : ℕ) : ℝ := a * Real.sin (2 * Real.pi * fin * (i / fs)) + dc

end Verif.Model
