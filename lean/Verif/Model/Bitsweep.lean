import Mathlib.Data.EReal.Basic

/-!
# Model of `matlab/src/legacy/bitsweep.m`

The calibration `wcalsin` and the spectrum `plotspec` are parameters, each of which may fail (`none`); what `bitsweep` does with them is modelled. A bit matrix is a function of sample and
column, zero outside its size. The options `order`, `harmonic`, `OSR` and `winType` are passed on unchanged and are part of the two parameters. The plot is left out.
-/

namespace Verif.Model

/-- `wcalsin(bits, 'freq', freq, …)`: number of samples, number of bits, matrix, frequency; the calibrated record and the frequency. `matlab/src/legacy/bitsweep.m:23, 33`. -/
abbrev SweepCal := ℕ → ℕ → (ℕ → ℕ → ℝ) → ℝ → Option ((ℕ → ℝ) × ℝ)

/-- `plotspec(postCal, …)`: number of samples and record; the ENOB. `matlab/src/legacy/bitsweep.m:34-35`. -/
abbrev SweepSpec := ℕ → (ℕ → ℝ) → Option EReal

/-- `bits(:, 1:n)` of a matrix with `N` rows. `matlab/src/legacy/bitsweep.m:30`. -/
def firstCols (N n : ℕ) (bits : ℕ → ℕ → ℝ) : ℕ → ℕ → ℝ := fun t j => if t < N ∧ j < n then bits t j else 0

/-- The matrix after the transposition of a wide one, with its size. `matlab/src/legacy/bitsweep.m:3-4`. -/
def tallened (N M : ℕ) (bits : ℕ → ℕ → ℝ) : ℕ × ℕ × (ℕ → ℕ → ℝ) := if N < M then (M, N, fun t j => bits j t) else (N, M, bits)

/-- One pass of the loop; `none` is the NaN of the `catch`. `matlab/src/legacy/bitsweep.m:30-40`. -/
def mlSweepEntry (cal : SweepCal) (spec : SweepSpec) (N n : ℕ) (bits : ℕ → ℕ → ℝ) (freq : ℝ) : Option EReal :=
  (cal N n (firstCols N n bits) freq).bind fun p => spec N p.1

open Classical in
/-- `bitsweep(bits, freq)`; the outer `none` is a negative frequency, which the parser refuses, or an error of the first calibration, which is outside the `try`. `matlab/src/legacy/bitsweep.m:3-41`. -/
noncomputable def mlBitsweep (cal : SweepCal) (spec : SweepSpec) (N M : ℕ) (bits : ℕ → ℕ → ℝ) (freq : ℝ) : Option (List (Option EReal)) :=
  let a := tallened N M bits
  if freq < 0 then none
  else (if freq = 0 then (cal a.1 a.2.1 (firstCols a.1 a.2.1 a.2.2) 0).map Prod.snd else some freq).map fun f =>
    (List.range a.2.1).map fun i => mlSweepEntry cal spec a.1 (i + 1) a.2.2 f

end Verif.Model
