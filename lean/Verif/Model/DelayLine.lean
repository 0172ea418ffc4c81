import Verif.Np.Basic
import Verif.Np.Vec
import Verif.Model.Interleave
import Mathlib.Analysis.SpecialFunctions.Trigonometric.Basic
import Mathlib.Analysis.SpecialFunctions.Pow.Real

/-!
# Model of the time-interleave calibration example

`examples/08_time_interleave/variable_delay_line.py` and the calibration loop of `exp_ti02_autocorr_background_skew_calibration.py` (both shipped with
the package, paths below `python/src/adctoolbox`). Random draws are arbitrary sequences.
-/

namespace Verif.Model

section Line
variable {K : Type} [Field K] [LinearOrder K]

/-- One step of the delay line for the standard-normal draw `z`. `variable_delay_line.py:62-65`. -/
def vdlStep (lsb cv z : K) : K := lsb * max (1 + cv * z) (5 / 100)

/-- `np.concatenate(([0.0], np.cumsum(steps)))`. `variable_delay_line.py:66`. -/
def vdlRaw (lsb cv : K) (z : ℕ → K) : ℕ → K
  | 0 => 0
  | k + 1 => vdlRaw lsb cv z k + vdlStep lsb cv (z k)

/-- `VariableDelayLine(n_codes, lsb_mean_sec, step_cv, offset_sec).delays` for the draws `z`. `variable_delay_line.py:59-77`; fewer than one code is a
negative array dimension (`ValueError`). -/
def vdlDelays (n : ℤ) (lsb cv offset : K) (z : ℕ → K) : Py (List K) :=
  if n < 1 then .error .valueError
  else .ok ((List.range n.toNat).map fun (k : ℕ) => vdlRaw lsb cv z k - vdlRaw lsb cv z (n.toNat / 2) + offset)

/-- `VariableDelayLine.__call__(code)` for one integer code. `variable_delay_line.py:79-82`. -/
def vdlCall (delays : List K) (code : ℤ) : K := delays.getD (clip code 0 ((delays.length : ℤ) - 1)).toNat 0

/-- `total_range_sec`. `variable_delay_line.py:84-86`. -/
def vdlRange (delays : List K) : K := delays.getD (delays.length - 1) 0 - delays.getD 0 0

/-- `nearest_code(target_delay_sec)`: `argmin` is the first largest negated distance. `variable_delay_line.py:88-90`. -/
def nearestCode (delays : List K) (t : K) : ℕ := argmax (delays.map fun d => -|d - t|)

/-- `TIMultiSampler.effective_skew()[m]`. `variable_delay_line.py:132-135`. -/
def effectiveSkew (intrinsic : ℕ → K) (lines : ℕ → List K) (codes : ℕ → ℤ) (m : ℕ) : K := intrinsic m + vdlCall (lines m) (codes m)

end Line

/-! ## Capture -/

/-- The clean sample of `TIMultiSampler.capture` at index `n`, start phase `φ`. `variable_delay_line.py:164-171`. -/
noncomputable def captureTone (M : ℕ) (fs fin amp φ : ℝ) (skew : ℕ → ℝ) (n : ℕ) : ℝ :=
  amp * Real.cos (2 * Real.pi * fin * (n * (1 / fs) + skew (n % M)) + φ)

/-- The cubic term. `variable_delay_line.py:172-177`. -/
noncomputable def addHd3 (amp : ℝ) : Option ℝ → ℝ → ℝ
  | none, x => x
  | some db, x => x + 4 * (10 : ℝ) ^ (db / 20) / amp ^ 2 * x ^ 3

/-- `TIMultiSampler.capture(...)[n]` for the noise draws `z`. `variable_delay_line.py:164-180`. -/
noncomputable def captureAt (M : ℕ) (fs fin amp φ : ℝ) (skew : ℕ → ℝ) (hd3 : Option ℝ) (noise : ℝ) (z : ℕ → ℝ) (n : ℕ) : ℝ :=
  let x := addHd3 amp hd3 (captureTone M fs fin amp φ skew n)
  if 0 < noise then x + z n * noise else x

/-! ## Background calibration -/

section Loop
variable {K : Type} [Field K] [LinearOrder K]

/-- `rows` of the loop: the `M` channels without their last sample and channel 0 without its first. `exp_ti02_...py:137-138`. -/
def madRows (ch : List (List K)) : List (List K) := ch.map (fun r => r.dropLast) ++ [(ch.headD []).drop 1]

/-- `np.sum(np.abs(np.diff(rows, axis=0)), axis=1)`. `exp_ti02_...py:139`. -/
def madOf (rows : List (List K)) : List K :=
  (List.range (rows.length - 1)).map fun i => (((rows.getD (i + 1) []).zipWith (fun a b => |a - b|) (rows.getD i [])).sum)

/-- `k[i]`: the cumulative difference of the first `i+1` intervals lies above the fair line. `exp_ti02_...py:142-144`. -/
def madAbove (mad : List K) (i : ℕ) : Bool := decide (((i + 1 : ℕ) : K) * (mad.sum / mad.length) < (mad.take (i + 1)).sum)

/-- New trim code of channel `m` for a line of `n` codes, `DIRECTION = -1`. `exp_ti02_...py:147-152`. -/
def trimStep (n : ℕ) (above : Bool) (code : ℤ) : ℤ := clip (code + -1 * (2 * (if above then 1 else 0) - 1)) 0 ((n : ℤ) - 1)

/-- One pass of the loop over the channels: channel 0 is the reference. `exp_ti02_...py:147-152`. -/
def madUpdate (mad : List K) (n : ℕ → ℕ) (codes : ℕ → ℤ) (m : ℕ) : ℤ :=
  if m = 0 then codes 0 else trimStep (n m) (madAbove mad (m - 1)) (codes m)

end Loop

end Verif.Model
