import Verif.Model.SpectrumBins
import Verif.Np.Dft
import Mathlib.Analysis.SpecialFunctions.Log.Base

/-!
# Model of `spectrum/sweep_performance_vs_osr.py` and `oversampling/perfosr.py`

The sine fit (`fit_sine_4param`) is outside this file: its fitted signal and amplitude are parameters. Plots are left out.
-/

namespace Verif.Model

open Verif

section

variable {K : Type} [Field K] [LinearOrder K] [FloorRing K]

/-- Accumulators of the sweep and the values stored per requested OSR (noise power, spur power). -/
structure SweepState (K : Type) where
  prev : ℕ
  noise : K
  spur : K
  out : ℕ → Option (K × K)

/-- One pass of the sweep for the OSR stored at index `i`. `spectrum/sweep_performance_vs_osr.py:93-104`; the decibel values
are computed from the stored pair by `sweepSndr`, `sweepSfdr`. `np.max` of an empty slice raises `ValueError`. -/
def sweepStep (e : List K) (N : ℤ) (osr : List K) (s : SweepState K) (i : ℕ) : Py (SweepState K) :=
  match rfftInbandBinCount N (osr.getD i 0) with
  | .error err => .error err
  | .ok nb =>
    if s.prev < nb then
      match slice e s.prev nb with
      | [] => .error .valueError
      | a :: l =>
        .ok ⟨nb, s.noise + (a :: l).sum, max s.spur (maxOf a l),
          Function.update s.out i (some (s.noise + (a :: l).sum, max s.spur (maxOf a l)))⟩
    else .ok ⟨nb, s.noise, s.spur, Function.update s.out i (some (s.noise, s.spur))⟩

/-- The loop over the sorted indices. `spectrum/sweep_performance_vs_osr.py:92`. -/
def sweepLoop (e : List K) (N : ℤ) (osr : List K) : List ℕ → SweepState K → Py (SweepState K)
  | [], s => .ok s
  | i :: rest, s => match sweepStep e N osr s i with
    | .error err => .error err
    | .ok s' => sweepLoop e N osr rest s'

/-- `sort_idx = np.argsort(osr)[::-1]`: any permutation of the indices along which the OSR does not increase (numpy's default
sort is not stable, so ties may come in any order). `spectrum/sweep_performance_vs_osr.py:85-86`. -/
def IsSweepOrder (osr : List K) (order : List ℕ) : Prop :=
  order.Perm (List.range osr.length) ∧ order.Pairwise fun i j => osr.getD j 0 ≤ osr.getD i 0

/-- The sweep. `spectrum/sweep_performance_vs_osr.py:79-104`. -/
def sweep (e : List K) (N : ℤ) (osr : List K) (order : List ℕ) : Py (ℕ → Option (K × K)) :=
  match sweepLoop e N osr order ⟨0, 0, 0, fun _ => none⟩ with
  | .error err => .error err
  | .ok s => .ok s.out

/-- `perfosr` argument checks. `oversampling/perfosr.py:31-40`; `harmonic` may be any number. -/
def perfosrCheck (harmonic : K) (smooth : Option K) (osr : Option (List K)) : Py Unit :=
  if harmonic < 1 ∨ (⌊harmonic⌋ : K) ≠ harmonic then .error .valueError
  else if (match smooth with | some v => decide (v < 1) | none => false) then .error .valueError
  else if (match osr with | some l => l.any fun v => decide (v ≤ 0) | none => false) then .error .valueError
  else .ok ()

/-- Default OSR list `(n / 2) / np.arange(n_bins, 0, -1)`, `n_bins = n // 2`. `spectrum/sweep_performance_vs_osr.py:57-59`. -/
def defaultOsr (n : ℕ) : List K := (List.range (n / 2)).map fun (i : ℕ) => ((n : K) / 2) / ((n / 2 - i : ℕ) : K)

end

/-- The Hann window of the sweep. `spectrum/sweep_performance_vs_osr.py:71`. -/
noncomputable def sweepWindow (N n : ℕ) : ℝ := (1 - Real.cos (2 * Real.pi * n / N)) / 2

/-- Windowed error. `spectrum/sweep_performance_vs_osr.py:70-72`. -/
noncomputable def sweepError (err : ℕ → ℝ) (N n : ℕ) : ℝ :=
  err n * sweepWindow N n / √((∑ i ∈ Finset.range N, sweepWindow N i ^ 2) / N)

/-- Error spectrum with "one-sided scaling" by 4. `spectrum/sweep_performance_vs_osr.py:73-74`. -/
noncomputable def sweepSpectrum (err : ℕ → ℝ) (N : ℕ) : List ℝ :=
  (List.range (N / 2 + 1)).map fun (k : ℕ) => ‖dft N (fun n => (sweepError err N n : ℂ)) k‖ ^ 2 / (N : ℝ) ^ 2 * 4

/-- Signal power `amplitude ** 2 / 2` and SNDR for a positive noise power. `spectrum/sweep_performance_vs_osr.py:77, 102`. -/
noncomputable def sweepSndr (amplitude noise : ℝ) : ℝ := 10 * Real.logb 10 (amplitude ^ 2 / 2 / noise)

/-- SFDR for a positive spur power. `spectrum/sweep_performance_vs_osr.py:103`. -/
noncomputable def sweepSfdr (amplitude spur : ℝ) : ℝ := 10 * Real.logb 10 (amplitude ^ 2 / 2 / spur)

end Verif.Model
