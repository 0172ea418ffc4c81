import Verif.Model.Sar
import Verif.Np.Vec
import Mathlib.Analysis.SpecialFunctions.Trigonometric.Basic
import Mathlib.Analysis.SpecialFunctions.Pow.Real

/-!
# Model of `ADC_Signal_Generator` (`siggen/nonidealities.py`)

A record is a function of the sample index; only the first `N` samples exist. Random draws are parameters. `apply_jitter` on a given
record is in `Model/JitterChain.lean`. `Gen.drift` takes an arbitrary matrix for the filter inside `apply_drift`; the filter itself is in `Model/Drift.lean`.
-/

namespace Verif.Model

open Verif Finset

/-- The constructor's parameters. `siggen/nonidealities.py:33-40`. -/
structure Gen where
  n : ℕ
  fs : ℝ
  fin : ℝ
  a : ℝ
  dc : ℝ

/-- `self.t = np.arange(N) / Fs`. `siggen/nonidealities.py:40`. -/
noncomputable def Gen.t (g : Gen) (i : ℕ) : ℝ := i / g.fs

/-- `_get_base_signal` and `get_clean_signal`. `siggen/nonidealities.py:42-54`. -/
noncomputable def Gen.base (g : Gen) (i : ℕ) : ℝ := g.a * Real.sin (2 * Real.pi * g.fin * g.t i) + g.dc

/-- `_resolve_signal`. `siggen/nonidealities.py:46-50`. -/
noncomputable def Gen.resolve (g : Gen) (input : Option (ℕ → ℝ)) : ℕ → ℝ :=
  match input with
  | none => g.base
  | some s => s

/-- `apply_thermal_noise` with standard normal draws `z`. `siggen/nonidealities.py:56-60`. -/
noncomputable def Gen.thermal (g : Gen) (input : Option (ℕ → ℝ)) (rms : ℝ) (z : ℕ → ℝ) (i : ℕ) : ℝ := g.resolve input i + z i * rms

/-- `apply_drift` with standard normal draws `z`; `h` is the matrix of `filtfilt` for records of length `N` (`Model/Drift.lean`, C145).
`siggen/nonidealities.py:311-318`. -/
noncomputable def Gen.drift (g : Gen) (input : Option (ℕ → ℝ)) (scale : ℝ) (h : ℕ → ℕ → ℝ) (z : ℕ → ℝ) (i : ℕ) : ℝ :=
  let walk : ℕ → ℝ := fun j => ∑ k ∈ range (j + 1), z k * scale
  g.resolve input i + ∑ j ∈ range g.n, h i j * walk j

/-- `apply_quantization_noise` on a record. `siggen/nonidealities.py:62-77`. -/
noncomputable def Gen.quantization (g : Gen) (input : Option (ℕ → ℝ)) (nBits : ℕ) (vmin vmax : ℝ) (i : ℕ) : ℝ :=
  quantize (g.resolve input i) nBits vmin vmax

/-- `apply_jitter` without input: the sine is evaluated at the displaced instants. `tj` are the drawn time errors (`randn * jitter_rms`).
`siggen/nonidealities.py:88-93`. -/
noncomputable def Gen.jitter (g : Gen) (tj : ℕ → ℝ) (i : ℕ) : ℝ := g.a * Real.sin (2 * Real.pi * g.fin * (g.t i + tj i)) + g.dc

/-- `apply_static_nonlinearity`. A term is added only when its coefficient is non-zero. `siggen/nonidealities.py:102-120`. -/
noncomputable def Gen.staticNonlin (g : Gen) (input : Option (ℕ → ℝ)) (k2 k3 k4 k5 : ℝ) (i : ℕ) : ℝ :=
  let x := g.resolve input i - g.dc
  let d : ℝ := 0
  let d := if k2 ≠ 0 then d + k2 * x ^ 2 else d
  let d := if k3 ≠ 0 then d + k3 * x ^ 3 else d
  let d := if k4 ≠ 0 then d + k4 * x ^ 4 else d
  let d := if k5 ≠ 0 then d + k5 * x ^ 5 else d
  x + d + g.dc

/-- `db_to_k`. `siggen/nonidealities.py:124-129`. The amplitude is a Python number, so zero raises `ZeroDivisionError`. -/
noncomputable def Gen.dbToK (g : Gen) (db : Option ℝ) (order : ℕ) : Py ℝ :=
  match db with
  | none => .ok 0
  | some v => if g.a ^ (order - 1) = 0 then .error .zeroDivision else .ok (2 ^ (order - 1) * (10 : ℝ) ^ (v / 20) / g.a ^ (order - 1))

/-- `apply_static_nonlinearity_hd`. `siggen/nonidealities.py:122-136`. -/
noncomputable def Gen.staticNonlinHd (g : Gen) (input : Option (ℕ → ℝ)) (hd2 hd3 hd4 hd5 : Option ℝ) : Py (ℕ → ℝ) := do
  let k2 ← g.dbToK hd2 2
  let k3 ← g.dbToK hd3 3
  let k4 ← g.dbToK hd4 4
  let k5 ← g.dbToK hd5 5
  return g.staticNonlin input k2 k3 k4 k5

/-- The coarse stage: `np.floor(s * 2**bits) / 2**bits`. `siggen/nonidealities.py:143, 191, 232`. -/
noncomputable def stageFloor (s : ℝ) (bits : ℕ) : ℝ := ⌊s * 2 ^ bits⌋ / 2 ^ bits

/-- `apply_memory_effect`. `np.roll(msb, 1)[i]` is `msb[i-1]`, and `msb[N-1]` for `i = 0`. `siggen/nonidealities.py:138-149`. -/
noncomputable def Gen.memoryEffect (g : Gen) (input : Option (ℕ → ℝ)) (strength : ℝ) (i : ℕ) : ℝ :=
  let s := g.resolve input
  let msb := fun j => stageFloor (s j) 4
  let lsb := fun j => stageFloor (s j - msb j) 12
  msb i + lsb i + strength * msb (if i = 0 then g.n - 1 else i - 1)

/-- One step of the settling loop. `siggen/nonidealities.py:163-167`. A zero time constant (numpy: exponent minus infinity) is outside the model. -/
noncomputable def settleStep (tTrack tauNom coeffK vPrev vTarget : ℝ) : ℝ :=
  let tau := tauNom * (1 + coeffK * vTarget ^ 2)
  vTarget + (vPrev - vTarget) * Real.exp (-tTrack / tau)

/-- State after `n` samples of the settling loop: `v_prev`, initially 0. `siggen/nonidealities.py:160-167`. -/
noncomputable def settleState (tTrack tauNom coeffK : ℝ) (x : ℕ → ℝ) : ℕ → ℝ
  | 0 => 0
  | n + 1 => settleStep tTrack tauNom coeffK (settleState tTrack tauNom coeffK x n) (x n)

/-- `apply_incomplete_sampling`. `siggen/nonidealities.py:151-169`. -/
noncomputable def Gen.incompleteSampling (g : Gen) (input : Option (ℕ → ℝ)) (tTrack : Option ℝ) (tauNom coeffK : ℝ) (i : ℕ) : ℝ :=
  let s := g.resolve input
  let tt := match tTrack with
    | none => 1 / g.fs * (1 / 5)
    | some v => v
  settleState tt tauNom coeffK (fun j => s j - g.dc) (i + 1) + g.dc

/-- The `mode` argument of the gain-error models; any other string is `other`. -/
inductive GainMode where
  | coarsePath
  | residuePath
  | other
  deriving DecidableEq

/-- `apply_ra_gain_error`. `siggen/nonidealities.py:171-198`. -/
noncomputable def Gen.raGainError (g : Gen) (input : Option (ℕ → ℝ)) (gain : ℝ) (msbBits lsbBits : ℕ) (mode : GainMode) : Py (ℕ → ℝ) :=
  let x := fun i => g.resolve input i - g.dc
  let msb := fun i => stageFloor (x i) msbBits
  let lsb := fun i => stageFloor (x i - msb i) lsbBits
  match mode with
  | .coarsePath => .ok fun i => msb i * gain + lsb i + g.dc
  | .residuePath => .ok fun i => msb i + lsb i * gain + g.dc
  | .other => .error .valueError

/-- One step of the dynamic gain loop: output sample and next state. `siggen/nonidealities.py:229-243`. -/
noncomputable def gainStep (gain c3 : ℝ) (msbBits lsbBits : ℕ) (coarse : Bool) (prev v : ℝ) : ℝ × ℝ :=
  let msb := stageFloor v msbBits
  let lsb := stageFloor (v - msb) lsbBits
  let gd := gain + c3 * prev ^ 2
  if coarse then
    let path := msb * gd
    (path + lsb, path + lsb)
  else
    let path := lsb * gd
    (msb + path, path)

/-- State of the dynamic gain loop before sample `n`. `siggen/nonidealities.py:226-243`. -/
noncomputable def gainState (gain c3 : ℝ) (msbBits lsbBits : ℕ) (coarse : Bool) (x : ℕ → ℝ) : ℕ → ℝ
  | 0 => 0
  | n + 1 => (gainStep gain c3 msbBits lsbBits coarse (gainState gain c3 msbBits lsbBits coarse x n) (x n)).2

/-- `apply_ra_gain_error_dynamic`. `siggen/nonidealities.py:200-245`. -/
noncomputable def Gen.raGainErrorDynamic (g : Gen) (input : Option (ℕ → ℝ)) (gain c3 : ℝ) (msbBits lsbBits : ℕ) (mode : GainMode) : Py (ℕ → ℝ) :=
  if mode = .other then .error .valueError
  else
    let x := fun i => g.resolve input i - g.dc
    let coarse := decide (mode = .coarsePath)
    .ok fun i => (gainStep gain c3 msbBits lsbBits coarse (gainState gain c3 msbBits lsbBits coarse x i) (x i)).1 + g.dc

/-- `scipy.signal.lfilter(b, a, x)` with zero initial conditions: the outputs of the first `n` samples, latest first. Coefficients beyond the
lists are zero and samples before the record are zero. External function, used at `siggen/nonidealities.py:266, 397`. -/
def lfilterOut {K : Type} [Field K] (b a : List K) (x : ℕ → K) : ℕ → List K
  | 0 => []
  | n + 1 =>
    let ys := lfilterOut b a x n
    ((∑ i ∈ range (n + 1), b.getD i 0 * x (n - i)) - ∑ j ∈ range n, a.getD (j + 1) 0 * ys.getD j 0) / a.getD 0 0 :: ys

/-- Output sample `n` of the filter. -/
def lfilter {K : Type} [Field K] (b a : List K) (x : ℕ → K) (n : ℕ) : K := (lfilterOut b a x (n + 1)).getD 0 0

/-- `apply_reference_error`. `siggen/nonidealities.py:247-269`. -/
noncomputable def Gen.referenceError (g : Gen) (input : Option (ℕ → ℝ)) (tau droop : ℝ) (i : ℕ) : ℝ :=
  let x := fun j => g.resolve input j - g.dc
  let kick := fun j => droop * |x j|
  let decay := Real.exp (-1 / tau)
  x i * (1 - lfilter [1] [1, -decay] kick i) + g.dc

/-- `apply_am_noise` with standard normal draws `z`. `siggen/nonidealities.py:271-287`. -/
noncomputable def Gen.amNoise (g : Gen) (input : Option (ℕ → ℝ)) (strength : ℝ) (z : ℕ → ℝ) (i : ℕ) : ℝ :=
  (g.resolve input i - g.dc) * (1 + strength * z i) + g.dc

/-- `apply_am_tone`. `siggen/nonidealities.py:289-295`. -/
noncomputable def Gen.amTone (g : Gen) (input : Option (ℕ → ℝ)) (freq depth : ℝ) (i : ℕ) : ℝ :=
  (g.resolve input i - g.dc) * (1 + depth * Real.sin (2 * Real.pi * freq * g.t i)) + g.dc

/-- `apply_glitch` with uniform draws `u`. `siggen/nonidealities.py:320-325`. -/
noncomputable def Gen.glitch (g : Gen) (input : Option (ℕ → ℝ)) (prob amp : ℝ) (u : ℕ → ℝ) (i : ℕ) : ℝ :=
  g.resolve input i + (if u i < prob then 1 else 0) * amp

/-- The `ntf` argument of `apply_noise_shaping`: absent, a numerator sequence, or a `(num, den)` tuple. -/
inductive NtfArg where
  | default
  | fir (num : List ℝ)
  | iir (num den : List ℝ)

/-- The coefficient table. `siggen/nonidealities.py:380-386`. -/
def ntfTable (order : ℤ) : List ℝ :=
  if order = 1 then [1, -1]
  else if order = 2 then [1, -2, 1]
  else if order = 3 then [1, -3, 3, -1]
  else if order = 4 then [1, -4, 6, -4, 1]
  else [1, -5, 10, -10, 5, -1]

/-- Numerator and denominator chosen. `siggen/nonidealities.py:378-393`. -/
def ntfCoeffs (order : ℤ) (ntf : NtfArg) : List ℝ × List ℝ :=
  match ntf with
  | .default => (ntfTable order, [1])
  | .fir num => (num, [1])
  | .iir num den => (num, den)

/-- `apply_noise_shaping`. `siggen/nonidealities.py:327-398`. An empty coefficient list or a zero leading denominator coefficient is rejected by
`lfilter`; simplified to `ValueError` in both cases (with a one-element zero denominator scipy returns infinities instead). -/
noncomputable def Gen.noiseShaping (g : Gen) (input : Option (ℕ → ℝ)) (nBits : ℕ) (vmin vmax : ℝ) (order : ℤ) (ntf : NtfArg) : Py (ℕ → ℝ) :=
  match ntf, decide (order ∈ [(1 : ℤ), 2, 3, 4, 5]) with
  | .default, false => .error .valueError
  | _, _ =>
    let s := g.resolve input
    let err := fun i => quantize (s i) nBits vmin vmax - s i
    let c := ntfCoeffs order ntf
    if c.1 = [] ∨ c.2.getD 0 0 = 0 then .error .valueError
    else .ok fun i => s i + lfilter c.1 c.2 err i

/-- `np.percentile(a, q)` with linear interpolation on the sorted record. External function, used at `siggen/nonidealities.py:303-304`. -/
noncomputable def percentile (s : List ℝ) (q : ℝ) : Py ℝ :=
  if q < 0 ∨ 100 < q then .error .valueError
  else if s = [] then .error .indexError
  else
    let v := q / 100 * (s.length - 1)
    let l := sortAsc s
    let lo := l.getD ⌊v⌋.toNat 0
    let hi := l.getD (min (⌊v⌋.toNat + 1) (s.length - 1)) 0
    .ok (lo + (hi - lo) * (v - ⌊v⌋))

/-- `apply_clipping`. `siggen/nonidealities.py:297-309`. `np.clip(x, lo, hi)` is `minimum(maximum(x, lo), hi)`. -/
noncomputable def Gen.clipping (g : Gen) (input : Option (ℕ → ℝ)) (pct : ℝ) : Py (ℕ → ℝ) := do
  let s := g.resolve input
  let rec' := (List.range g.n).map s
  let lo ← percentile rec' pct
  let hi ← percentile rec' (100 - pct)
  return fun i => clip (s i) lo hi

end Verif.Model
