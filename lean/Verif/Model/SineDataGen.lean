import Verif.Model.MatlabFind
import Verif.Model.DoutGen
import Mathlib.Analysis.SpecialFunctions.Trigonometric.Basic
import Mathlib.Algebra.Order.Round

/-! # Sine data generators of the MATLAB library

`matlab/data_generation/gen_sinewave_*.m`, the parts that decide what a file holds and what it is called. In the two-step generators `sig` is any sample, its noise
included; in `hdSample` the noise and `0.5` that line 25 adds afterwards are left out, and so is the phase jitter of the zone files. -/

namespace Verif.Model

/-- `msb` and `lsb` of the two-step quantizer; 4 and 12 bits in the scripts. `gen_sinewave_gain_error.m:12-13`, `gen_sinewave_kickback.m:12-13`, `gen_sinewave_ref_error.m:12-13`. -/
noncomputable def twoStepCodes (n1 n2 : ℕ) (sig : ℝ) : ℝ × ℝ :=
  let msb := stageOut sig n1
  (msb, stageOut (sig - msb) n2)

/-- `data = msb * g_err + lsb`. `gen_sinewave_gain_error.m:15`. -/
noncomputable def gainErrorSample (n1 n2 : ℕ) (g sig : ℝ) : ℝ := (twoStepCodes n1 n2 sig).1 * g + (twoStepCodes n1 n2 sig).2

/-- `data = msb + lsb + kb * msb_shifted` with `msb_shifted = [msb(1); msb(1:end-1)]`. `gen_sinewave_kickback.m:16-17`, sample `i` from 0. -/
noncomputable def kickbackSample (n1 n2 : ℕ) (kb : ℝ) (sig : ℕ → ℝ) (i : ℕ) : ℝ :=
  (twoStepCodes n1 n2 (sig i)).1 + (twoStepCodes n1 n2 (sig i)).2 + kb * (twoStepCodes n1 n2 (sig (i - 1))).1

/-- `data = msb + lsb + (msb - 0.5) .* ((-1).^(0:N - 1)') * ref_amp`. `gen_sinewave_ref_error.m:15`. -/
noncomputable def refErrorSample (n1 n2 : ℕ) (amp : ℝ) (sig : ℕ → ℝ) (i : ℕ) : ℝ :=
  (twoStepCodes n1 n2 (sig i)).1 + (twoStepCodes n1 n2 (sig i)).2 + ((twoStepCodes n1 n2 (sig i)).1 - 1 / 2) * (-1) ^ i * amp

/-- `coef2`, `coef3` and the distorted waveform. `gen_sinewave_nonlin_hd.m:13-24`, `gen_sinewave_multirun.m:8-15`; `x` is a sample of the sine of amplitude `A`. -/
noncomputable def hdSample (hd2 hd3 A x : ℝ) : ℝ :=
  let coef2 := (10 : ℝ) ^ (hd2 / 20) / (A / 2)
  let coef3 := (10 : ℝ) ^ (hd3 / 20) / (A ^ 2 / 4)
  x + coef2 * x ^ 2 + coef3 * x ^ 3

section Names

variable {K : Type} [Field K] [LinearOrder K] [IsStrictOrderedRing K] [FloorRing K]

/-- The two numbers in the name `sinewave_Zone%d_Tj_%dfs.csv`: `Zone = ceil(Fin/(Fs / 2))` and `round(Tj*1e15)`. `gen_sinewave_nyquist_zones.m:16-30`. MATLAB's `round` and
Mathlib's agree on non-negative numbers. -/
def zoneName (fs : K) (n : ℕ) (tj target : K) : Option (ℤ × ℤ) :=
  (mlFindBin fs target n).map fun j : ℤ =>
    let fin := (j : K) / n * fs
    (⌈fin / (fs / 2)⌉, round (tj * 10 ^ 15))

/-- Files left after the loop of the script: each pass writes one record under its name, over an older one. `gen_sinewave_nyquist_zones.m:13-34`; a record is named by its target
frequency. `none` if `findbin` refuses. -/
def zoneFiles (fs : K) (n : ℕ) (tj : K) : List K → Option (List ((ℤ × ℤ) × K))
  | [] => some []
  | t :: ts =>
    match zoneName fs n tj t, zoneFiles fs n tj ts with
    | some name, some files => some (if name ∈ files.map Prod.fst then files else (name, t) :: files)
    | _, _ => none

/-- `fin` in the name of the dynamic-nonlinearity file, in MHz: `J = round(Fin_Target/Fs*N)`, made odd, `round(J * Fs / N / 1e6)`. `gen_sinewave_nonlin_dynamic.m:24-26, 61`. -/
def dynamicLabel (fs : K) (n : ℕ) (target : K) : ℤ :=
  let j := round (target / fs * n)
  let j := if j % 2 = 0 then j + 1 else j
  round ((j : K) * fs / n / 10 ^ 6)

/-- Frequency of the sine in that file, in MHz rounded as in the name: `ideal_phase` is the one of `common_gen_sinewave.m:19-21`, computed from `Fin_want` before the loop.
`gen_sinewave_nonlin_dynamic.m:28`. -/
def dynamicData (fs : K) (n : ℕ) (want : K) : Option ℤ :=
  (mlFindBin fs want n).map fun j : ℤ => round ((j : K) / n * fs / 10 ^ 6)

end Names

end Verif.Model
