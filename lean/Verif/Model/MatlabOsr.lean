import Verif.Model.Osr
import Verif.Model.Ntf

/-!
# Model of MATLAB `perfosr.m` and `ntfperf.m`, the counterparts named by `oversampling/perfosr.py:23` and `oversampling/ntfperf.py:11`

The sine fit of `perfosr.m` is outside this file, as it is in `Model/Osr.lean`; the error spectrum of `perfosr.m:100-104` is the one of
`spectrum/sweep_performance_vs_osr.py:70-74` line by line (same periodic Hann window, same scaling by 4). Plots are left out.
-/

namespace Verif.Model

open Verif

section

variable {K : Type} [Field K] [LinearOrder K] [FloorRing K]

/-- `n_inband` for one OSR; `len` is the length of the one-sided error spectrum. `matlab/src/perfosr.m:125-126`. -/
def mlInband (N len : ℕ) (osr : K) : ℕ := (max 1 (min ⌊(N : K) / 2 / osr⌋ (len : ℤ))).toNat

/-- One pass of the sweep. `matlab/src/perfosr.m:125-140`; the stored pair is (noise power, spur power). -/
def mlSweepStep (e : List K) (N : ℕ) (osr : List K) (s : SweepState K) (i : ℕ) : SweepState K :=
  let nb := mlInband N e.length (osr.getD i 0)
  if s.prev < nb then
    let inc := slice e s.prev nb
    ⟨nb, s.noise + inc.sum, max s.spur (inc.max?.getD 0), Function.update s.out i (some (s.noise + inc.sum, max s.spur (inc.max?.getD 0)))⟩
  else ⟨nb, s.noise, s.spur, Function.update s.out i (some (s.noise, s.spur))⟩

/-- The sweep over the indices sorted by decreasing OSR. `matlab/src/perfosr.m:115-141`. -/
def mlSweep (e : List K) (N : ℕ) (osr : List K) (order : List ℕ) : ℕ → Option (K × K) :=
  (order.foldl (mlSweepStep e N osr) ⟨0, 0, 0, fun _ => none⟩).out

end

/-- Number of grid points of `ntfperf.m`. `matlab/src/ntfperf.m:63`. -/
@[irreducible] def mlNtfPoints : ℕ := 10 ^ 6

/-- `w(i+1)`. `matlab/src/ntfperf.m:64`. -/
noncomputable def mlNtfGrid (i : ℕ) : ℝ := ((i : ℝ) + 1) / (mlNtfPoints : ℝ) / 2

/-- The grid points strictly inside the band. `matlab/src/ntfperf.m:71`. -/
noncomputable def mlNtfBand (fl fh : ℝ) : Finset ℕ := (Finset.range mlNtfPoints).filter fun i => fl < mlNtfGrid i ∧ mlNtfGrid i < fh

/-- `np`. `matlab/src/ntfperf.m:67-72`. `bode` is read as the modulus of the transfer function on the unit circle. -/
noncomputable def mlNtfPower (num den : List ℝ) (fl fh : ℝ) : ℝ := (∑ i ∈ mlNtfBand fl fh, ntfMag num den (mlNtfGrid i) ^ 2) / mlNtfPoints

open Classical in
/-- `ntfperf(ntf, fl, fh)`. `matlab/src/ntfperf.m:52-75`. -/
noncomputable def mlNtfperf (num den : List ℝ) (fl fh : ℝ) : Option EReal :=
  if fl < 0 ∨ 1 / 2 ≤ fl then none
  else if fh ≤ fl ∨ 1 / 2 < fh then none
  else some (if mlNtfPower num den fl fh = 0 then ⊤ else ((-10 * Real.logb 10 (mlNtfPower num den fl fh) : ℝ) : EReal))

end Verif.Model
