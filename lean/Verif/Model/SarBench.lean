import Verif.Model.Sar

/-!
# Model of the SAR benches of the example scripts

Paths below `python/src/adctoolbox/examples`.
-/

namespace Verif.Model

open Verif

section

variable {K : Type} [Field K]

/-- `strict_binary_raw_weights(num_bits)`: `2.0 ** np.arange(num_bits - 1, -1, -1)`. `05_debug_digital/exp_d17_sar_msb_error_binary_vs_repeat_calibration.py:43-45`. -/
def strictBinaryRaw (n : ℕ) : List K := (List.range n).map fun i => (2 : K) ^ (n - 1 - i)

/-- `third_weight_repeat_raw_weights(num_bits)`: `np.insert(raw, 3, raw[2])`; fewer than three bits raise `IndexError` at `raw[2]`.
`exp_d17_sar_msb_error_binary_vs_repeat_calibration.py:48-51`. -/
def thirdRepeatRaw (n : ℕ) : Py (List K) := do
  let raw : List K := strictBinaryRaw n
  let x ← pyGet raw 2
  return pyInsert raw 3 x

/-- `normalize_sar_weights(raw_weights)`; an empty array fails at `raw_weights[-1]`. A zero denominator gives zeros here and infinities in numpy.
`exp_d17_sar_msb_error_binary_vs_repeat_calibration.py:54-56`. -/
def normalizeSarWeights (raw : List K) : Py (List K) := do
  let last ← pyGet raw (-1)
  return raw.map (· / (raw.sum + last))

/-- `first_decision_margin_lsb(raw_weights, msb_delta)`. `exp_d17_sar_msb_error_binary_vs_repeat_calibration.py:59-62`. -/
def firstDecisionMargin (raw : List K) (delta : K) : Py K := do
  let w0 ← pyGet raw 0
  let last ← pyGet raw (-1)
  return (raw.drop 1).sum + last - w0 * (1 + delta)

/-- `actual_weights = nominal_weights.copy(); actual_weights[0] *= 1.0 + MSB_DELTA`. `exp_d17_sar_msb_error_binary_vs_repeat_calibration.py:127-128`. -/
def withMsbError (ws : List K) (delta : K) : Py (List K) :=
  match ws with
  | [] => .error .indexError
  | w :: rest => .ok (w * (1 + delta) :: rest)

/-- The integer list of `radix18_integer_weights_16bit`. `05_debug_digital/exp_d18_sar_redundant_mismatch_training_length_sweep.py:58-80` and
`exp_d16_sar_unit_cap_mismatch_mc.py:49-71`, the same list. -/
def radix18Raw : List K := [29127, 16182, 8990, 4995, 2775, 1542, 856, 476, 264, 147, 82, 45, 25, 14, 8, 4, 2, 1]

/-- `radix18_integer_weights_16bit()`: `raw / (raw.sum() + raw[-1])`. `exp_d18_sar_redundant_mismatch_training_length_sweep.py:56-81`. -/
def radix18Weights : Py (List K) := normalizeSarWeights radix18Raw

end

section

variable {K : Type} [Field K] [LinearOrder K]

/-- One sample of `generate_ideal_binary(resolution)`: `np.clip(np.floor(signal * 2**resolution), 0, 2**resolution - 1)`, then
`(quantized >> np.arange(resolution - 1, -1, -1)) & 1`; the shift and the mask are integer division and remainder of a non-negative number. With noise added to the signal
it is `generate_with_thermal_noise`. `06_use_toolsets/exp_t04_dout_dashboard_batch.py:52-66`. -/
def idealBinaryBits [FloorRing K] (signal : K) (resolution : ℕ) : List ℤ :=
  let quantized : ℤ := clip ⌊signal * 2 ^ resolution⌋ 0 (2 ^ resolution - 1)
  (List.range resolution).map fun j => quantized / 2 ^ (resolution - 1 - j) % 2

/-- One sample of `generate_with_lsb_random(resolution)`: `bits[:, -1]` is overwritten by a draw; resolution 0 raises `IndexError`.
`exp_t04_dout_dashboard_batch.py:68-76`. -/
def lsbRandomBits [FloorRing K] (signal : K) (resolution : ℕ) (draw : ℤ) : Py (List ℤ) :=
  if resolution = 0 then .error .indexError else .ok ((idealBinaryBits signal resolution).dropLast ++ [draw])

/-- The loop of `generate_sar_with_noise` over the voltage steps: `bit = residue > 0`, and for all but the last step `residue -= (2 * bit - 1) * step`.
`exp_t04_dout_dashboard_batch.py:89-96`. -/
def bipolarLoop : K → List K → List Bool
  | _, [] => []
  | residue, [_] => [decide (residue > 0)]
  | residue, w :: v :: rest =>
    let bit := decide (residue > 0)
    bit :: bipolarLoop (residue - (2 * bitVal bit - 1) * w) (v :: rest)

/-- One sample of `generate_sar_with_noise(resolution)`; `signal` includes the noise. `exp_t04_dout_dashboard_batch.py:84-98`. -/
def bipolarSarBits (signal : K) (resolution : ℕ) : List Bool :=
  let caps : List K := strictBinaryRaw resolution
  bipolarLoop signal (caps.map (· / caps.sum))

end

end Verif.Model
