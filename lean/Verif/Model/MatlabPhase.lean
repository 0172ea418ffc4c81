import Verif.Model.MatlabSpectrum
import Verif.Model.Polar

/-!
# Model of MATLAB `plotphase.m`, FFT mode

`spectrum/analyze_spectrum_polar.py:7` says that it matches this mode. Bins are zero-based. The built-in windows of `plotphase.m:146-155, 430-440` are those of `plotspec.m`
(`mlWindow`), the normalization of a run (`plotphase.m:177-179`) is `mlRun`. Drawing is left out: the values are the points handed to `polarplot`.
-/

namespace Verif.Model

open Verif Finset

/-- `bin`: strongest of the first `nd2` bins, DC cleared. `matlab/src/plotphase.m:181-183`. -/
noncomputable def mlPhaseBin (X : ℕ → ℂ) (nd2 : ℕ) : ℕ := argmax ((List.range nd2).map fun (k : ℕ) => if k = 0 then 0 else ‖X k‖)

/-- `bin_r`: parabola through the logarithms of three magnitudes, the neighbours kept within the band. A zero neighbour (`-Inf`) or three equal magnitudes make it NaN, which
is replaced by `bin`. `matlab/src/plotphase.m:190-198`. -/
noncomputable def mlPhaseRefine (X : ℕ → ℂ) (b nd2 : ℕ) : ℝ :=
  let mag := fun k => if k = 0 then 0 else ‖X k‖
  let l := mag (b - 1)
  let r := mag (min (b + 1) (nd2 - 1))
  if l = 0 ∨ r = 0 then b
  else
    let sl := Real.logb 10 l
    let sr := Real.logb 10 r
    let se := Real.logb 10 (mag b)
    if 2 * se - sl - sr = 0 then b else b + (sr - sl) / (2 * se - sl - sr) / 2

/-- The rotated spectrum of one run: the harmonic loop of `plotspec.m`, the other bins turned by `bin / bin_r`. `matlab/src/plotphase.m:182, 200-226`. -/
noncomputable def mlPhaseAlign (X : ℕ → ℂ) (b : ℕ) (bR : ℝ) (N : ℕ) : ℕ → ℂ :=
  let X0 := Function.update X 0 0
  let cphi := (starRingEnd ℂ) (X0 b / (‖X0 b‖ : ℂ))
  let s := (List.range N).foldl (fun (s : AlignState) (i : ℕ) => mlAlignStep b N cphi s (i + 1)) ⟨X0, ∅, cphi⟩
  fun k => if k ∈ s.done then s.X k else s.X k * cphi ^ (((k : ℝ) / bR : ℝ) : ℂ)

/-- One run: `none` if it is skipped because its strongest bin is DC. `matlab/src/plotphase.m:177-228`. -/
noncomputable def mlPhaseRun (r : List ℝ) (maxSignal : ℝ) (w : ℕ → ℝ) (N nd2 : ℕ) : Option (ℕ → ℂ) :=
  let X : ℕ → ℂ := fun k => dft N (fun n => (mlRun r maxSignal w N n : ℂ)) k
  let b := mlPhaseBin X nd2
  if b = 0 then none else some (mlPhaseAlign X b (mlPhaseRefine X b nd2) N)

/-- `floor(N_fft/2/OSR)`. `matlab/src/plotphase.m:143`. -/
noncomputable def mlPhaseHalf (N : ℕ) (osr : ℝ) : ℕ := ⌊(N : ℝ) / 2 / osr⌋.toNat

/-- `spec` summed over the runs, restricted to the band and without the bins below the cutoff, and the number of runs `ME`.
`matlab/src/plotphase.m:170-238`. -/
noncomputable def mlPhaseSum (d : List (List ℝ)) (maxSignal : ℝ) (w : ℕ → ℝ) (N : ℕ) (osr cutoff fs : ℝ) : (ℕ → ℂ) × ℕ :=
  let nd2 := mlPhaseHalf N osr
  let ok := (mlLive d).filterMap fun r => mlPhaseRun r maxSignal w N nd2
  (fun k => if nd2 ≤ k ∨ (0 < cutoff ∧ k < ⌈cutoff / fs * N⌉.toNat) then 0 else (ok.map fun S => S k).sum, ok.length)

/-- Level of bin `k` before the floor is subtracted: `10*log10(abs(spec).^2/(N_fft^2)*16/ME^2)`. `matlab/src/plotphase.m:241`. -/
noncomputable def mlPhaseLevel (S : ℕ → ℂ) (N ME k : ℕ) : EReal := dB (‖S k‖ ^ 2 / (N : ℝ) ^ 2 * 16 / (ME : ℝ) ^ 2)

/-- Angle of the point drawn for bin `k`: that of `phi = spec./abs(spec)`. `matlab/src/plotphase.m:240, 260-263`. -/
noncomputable def mlPhaseAngle (S : ℕ → ℂ) (k : ℕ) : ℝ := Complex.arg (S k)

end Verif.Model
