import Verif.Np.PyList

/-!
# Model of `models/sar.py` and of the plain quantizer in `siggen/nonidealities.py`

numpy vectorises over samples; the model describes one sample (every operation used is elementwise).
Random draws are parameters, so theorems quantify over every noise realisation.
-/

namespace Verif.Model

open Verif

variable {K : Type} [Field K] [LinearOrder K]

/-- `_parse_quant_range`. `models/sar.py:31-39` (the finiteness check is vacuous for exact numbers). -/
def parseQuantRange (r : List K) : Py (K × K) :=
  match r with
  | [vmin, vmax] => if vmax ≤ vmin then .error .valueError else .ok (vmin, vmax)
  | _ => .error .valueError

/-- The raw weight list before normalisation: `[2**(n-1-i) for i in range(n)]`, then the optional
`w.insert(redundant_bit + 1, w[redundant_bit])`. `models/sar.py:79-81`. -/
def sarRawWeights (n : ℕ) (red : Option ℤ) : Py (List K) :=
  let w : List K := (List.range n).map fun i => (2 : K) ^ (n - 1 - i)
  match red with
  | none => .ok w
  | some r => do
    let x ← pyGet w r
    return pyInsert w (r + 1) x

/-- `sar_ideal_weights(num_bits, redundant_bit)`. `models/sar.py:42-83`. An empty vector fails at `w[-1]`
with `IndexError`. `num_bits` is a non-negative int (a negative one gives the same empty range). -/
def sarIdealWeights (n : ℕ) (red : Option ℤ) : Py (List K) := do
  let w : List K ← sarRawWeights n red
  let last ← pyGet w (-1)
  return w.map (· / (w.sum + last))

/-- The bit-trial loop for one sample. `models/sar.py:252-261`: `v_test = v_dac + w`,
`bit = vin_norm + noise >= v_test`, `v_dac = where(bit, v_test, v_dac)`.
Each list element is `(weight, normalised comparator noise of that trial)`. -/
def sarLoop (x : K) : K → List (K × K) → List Bool
  | _, [] => []
  | vdac, (w, e) :: rest =>
    let vtest := vdac + w
    let bit := decide (x + e ≥ vtest)
    bit :: sarLoop x (if bit then vtest else vdac) rest

/-- `sar_convert` for one sample with sampling-noise sample `ns` and comparator-noise samples `nc` (both in
volts; zero when the corresponding rms is 0). `models/sar.py:236-262`. -/
def sarConvert (vin : K) (ws : List K) (range : List K) (ns : K) (nc : List K) : Py (List Bool) := do
  let (vmin, vmax) ← parseQuantRange range
  let fs := vmax - vmin
  let x := (vin + ns - vmin) / fs
  return sarLoop x 0 (ws.zip (nc.map (· / fs)))

/-- Noise-free call: all draws are zero. -/
def sarConvertIdeal (vin : K) (ws : List K) (range : List K) : Py (List Bool) :=
  sarConvert vin ws range 0 (ws.map fun _ => 0)

/-- `codes.astype(float)` -/
def bitVal (b : Bool) : K := if b then 1 else 0

/-- `sar_reconstruct(codes, weights, quant_range)` for one sample. `models/sar.py:297-298`. -/
def sarReconstruct (codes : List Bool) (ws : List K) (range : List K) : Py K := do
  let (vmin, vmax) ← parseQuantRange range
  let s ← pyDot (codes.map bitVal) ws
  return s * (vmax - vmin) + vmin

/-- `apply_quantization_noise` for one sample. `siggen/nonidealities.py:62-77`
(`np.floor`, `np.clip(codes, 0, max_code)`, back to volts). -/
def quantize [FloorRing K] (sig : K) (n : ℕ) (vmin vmax : K) : K :=
  let lsb := (vmax - vmin) / 2 ^ n
  let code : ℤ := ⌊(sig - vmin) / lsb⌋
  let code := clip code 0 (2 ^ n - 1)
  code * lsb + vmin

end Verif.Model
