import Verif.Np.Float64
import Verif.Model.Sar
import Verif.Model.Frequency
import Verif.Model.SpectrumBins

/-!
# Float64 versions of the functions that turn numbers into bins and codes

The same functions as in the exact models, with every operation rounded (`fl64`) in the order in which the code performs it. Integer arguments are Python ints below
`2^53`, which convert to float without rounding; voltages and frequencies are floats. Decimal literals of the code are rounded first.
-/

namespace Verif.Model

open Verif

variable {K : Type} [Field K] [LinearOrder K] [IsStrictOrderedRing K] [FloorRing K]

/-- `bin_idx * fs / n_fft`. `fundamentals/units.py:31-33`. -/
def binToFreq64 (k : ℤ) (fs : K) (n : ℕ) : K := fl64 (fl64 (k * fs) / n)

/-- `int(np.round(freq * n_fft / fs))`. `fundamentals/units.py:35-37`. -/
def freqToBin64 (f fs : K) (n : ℕ) : ℤ := rint (fl64 (fl64 (f * n) / fs))

/-- `lsb_count * (vref / 2**n_bits)`. `fundamentals/units.py:23-25`. -/
def lsbToVolts64 (k : ℤ) (vref : K) (nBits : ℕ) : K := fl64 (k * fl64 (vref / 2 ^ nBits))

/-- `volts / (vref / 2**n_bits)`. `fundamentals/units.py:27-29`. -/
def voltsToLsb64 (v vref : K) (nBits : ℕ) : K := fl64 (v / fl64 (vref / 2 ^ nBits))

/-- `lsb` and the clipped code of `apply_quantization_noise`. `siggen/nonidealities.py:62-74`. -/
def quantCode64 (x : K) (nBits : ℕ) (vmin vmax : K) : ℤ :=
  clip ⌊fl64 (fl64 (x - vmin) / fl64 (fl64 (vmax - vmin) / 2 ^ nBits))⌋ 0 (2 ^ nBits - 1)

/-- `codes * lsb + v_min`. `siggen/nonidealities.py:77`. -/
def quantLevel64 (code : ℤ) (nBits : ℕ) (vmin vmax : K) : K := fl64 (fl64 (code * fl64 (fl64 (vmax - vmin) / 2 ^ nBits)) + vmin)

/-- `apply_quantization_noise` for one sample. `siggen/nonidealities.py:60-77`. -/
def quantize64 (x : K) (nBits : ℕ) (vmin vmax : K) : K := quantLevel64 (quantCode64 x nBits vmin vmax) nBits vmin vmax

/-- `int(np.ceil(cutoff_freq / fs * N))`: the number of bins removed by `cutoff_freq`. `spectrum/compute_spectrum.py:87`. -/
def cutoffBin64 (cutoff fs : K) (n : ℕ) : ℤ := ⌈fl64 (fl64 (cutoff / fs) * n)⌉

/-- `_matlab_trimmed_indices`. `spectrum/_estimate_noise_power.py:10-16`. -/
def trimmedIndices64 (K : Type) [Field K] [LinearOrder K] [FloorRing K] (n : ℕ) : ℕ × ℕ :=
  let lo := max 1 ⌊fl64 ((n : K) * fl64 (5 / 100))⌋.toNat
  let hi := max 1 ⌊fl64 ((n : K) * fl64 (95 / 100))⌋.toNat
  let start := lo - 1
  (start, min (max (start + 1) hi) n)

/-- `np.isclose(a, b, rtol=1e-12, atol=1e-12)`. Called in `spectrum/_bin_ranges.py:24`. -/
def isclose64 (a b : K) : Bool := decide (|fl64 (a - b)| ≤ fl64 (fl64 (1 / 10 ^ 12) + fl64 (fl64 (1 / 10 ^ 12) * |b|)))

/-- `rfft_inband_bin_count(n_fft, osr)` for positive arguments. `spectrum/_bin_ranges.py:21-27`. -/
def inbandCount64 (n : ℕ) (osr : K) : ℤ :=
  let edge := fl64 ((n : K) / fl64 (2 * osr))
  let edge := if isclose64 edge (rint edge : K) then (rint edge : K) else edge
  max 1 (min (⌊edge⌋ + 1) ((n : ℤ) / 2 + 1))

/-- `fold_frequency_to_nyquist(fin, fs)`. `fundamentals/frequency.py:122`. -/
def foldFrequency64 (fin fs : K) : K := |fl64 (fin - fl64 (fs * rint (fl64 (fin / fs))))|

/-- `find_coherent_frequency`. `fundamentals/frequency.py:48-88`; `fs ≠ 0` and `n_fft ≠ 0`. -/
def findCoherent64 (fs fin : K) (n : ℤ) (odd : Bool) (radius : ℤ) : Py (K × ℤ) :=
  let target := fl64 (fl64 (fin / fs) * n)
  let cands := (((pyRange (-radius) (radius + 1)).map (fun i => rint target + i)).filter (coherentOk n odd)).map fun (b : ℤ) => (|fl64 ((b : K) - target)|, b)
  match cands.insertionSort (fun a b => a.1 ≤ b.1) with
  | [] => .error .valueError
  | (_, best) :: _ => .ok (fl64 (fl64 (best * fs) / n), best)

/-- The bit trials. `models/sar.py:252-261` without comparator noise. -/
def sarLoop64 (x : K) : K → List K → List Bool
  | _, [] => []
  | vdac, w :: rest =>
    let vtest := fl64 (vdac + w)
    let bit := decide (x ≥ vtest)
    bit :: sarLoop64 x (if bit then vtest else vdac) rest

/-- `vin_norm`. `models/sar.py:239, 248`. -/
def vinNorm64 (vin vmin vmax : K) : K := fl64 (fl64 (vin - vmin) / fl64 (vmax - vmin))

/-- `sar_convert` for one noise-free sample. `models/sar.py:236-262`. -/
def sarConvert64 (vin : K) (ws : List K) (vmin vmax : K) : List Bool := sarLoop64 (vinNorm64 vin vmin vmax) 0 ws

/-- A possible result of adding up a list in floating point: numpy and BLAS may take the terms in any order and add partial sums in any grouping. Used for
`codes @ weights`, `models/sar.py:298`. -/
inductive FlSum : List K → K → Prop
  | nil : FlSum [] 0
  | single (x : K) : FlSum [x] x
  | add {a b : List K} {s t : K} : FlSum a s → FlSum b t → FlSum (a ++ b) (fl64 (s + t))
  | perm {a b : List K} {s : K} : a.Perm b → FlSum a s → FlSum b s

/-- `y` is a possible result of `sar_reconstruct`. `models/sar.py:297-298`. The product of a bit and a weight is exact. -/
def SarReconstruct64 (codes : List Bool) (ws : List K) (vmin vmax y : K) : Prop :=
  ∃ s, FlSum (List.zipWith (fun b w => bitVal b * w) codes ws) s ∧ y = fl64 (fl64 (s * fl64 (vmax - vmin)) + vmin)

/-- `d` is a possible value of `data_decom[row, ii]`, given the bits and weights from column `ii` on. `dout/analyze_overflow.py:80-84`. -/
def OverflowResidue64 (bits : List Bool) (ws : List K) (d : K) : Prop :=
  ∃ s t, FlSum (List.zipWith (fun b w => bitVal b * w) bits ws) s ∧ FlSum ws t ∧ d = fl64 (s / t)

end Verif.Model
