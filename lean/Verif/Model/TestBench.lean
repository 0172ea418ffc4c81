import Verif.Model.SigGen
import Verif.Model.Sar

/-!
# Model of helper functions of the example scripts

Paths below `python/src/adctoolbox/examples`.
-/

namespace Verif.Model

/-- `calculate_k_mag(gen, db_val, order)`. `03_generate_signals/exp_g05_sweep_static_nonlin.py:28-30`. A zero amplitude raises `ZeroDivisionError`; order 0, which gives
negative exponents, is not used and not modelled. -/
noncomputable def calculateKMag (g : Gen) (db : ℝ) (order : ℕ) : Py ℝ :=
  let ampRatio := (10 : ℝ) ^ (db / 20)
  if g.a ^ (order - 1) = 0 then .error .zeroDivision else .ok (2 ^ (order - 1) * ampRatio / g.a ^ (order - 1))

section

variable {K : Type} [Field K] [LinearOrder K] [FloorRing K]

/-- `coherent_odd_bin(n_fft, target_ratio)`; Python's `round` is half to even. `02_spectrum/exp_s13_fft_length_mc_sfdr_sndr.py:36-42`. -/
def coherentOddBin (nFft : ℤ) (ratio : K) : ℤ :=
  let k := rint (ratio * nFft)
  let k := min (max k 1) (nFft / 2 - 1)
  let k := if k % 2 = 0 then (if k + 1 < nFft / 2 then k + 1 else k - 1) else k
  max k 1

/-- `near_nyquist_bin(n_fft)`. `02_spectrum/exp_s09_sar_fft_length_near_nyquist.py:31-35`. -/
def nearNyquistBin (nFft : ℤ) : ℤ := if nFft % 2 = 0 then max 1 (nFft / 2 - 1) else nFft / 2

/-- The start bin of `coherent_train_bin`: rounded, clamped and made odd. `target_ratio` is the constant 997/2^14 in the script.
`05_debug_digital/exp_d18_sar_redundant_mismatch_training_length_sweep.py:86-93`. -/
def trainStartBin (n : ℤ) (ratio : K) : ℤ :=
  let b := rint (ratio * n)
  let b := max 1 (min b (n / 2 - 1))
  if b % 2 = 0 then (if b + 1 < n / 2 then b + 1 else if b > 1 then b - 1 else b) else b

/-- The candidates in the order in which the loop tries them: `bin + 2, bin - 2, bin + 4, bin - 4, ...` for the even deltas below `n // 2 + 1`.
`exp_d18_sar_redundant_mismatch_training_length_sweep.py:97-98`. -/
def trainCandidates (n b : ℤ) : List ℤ := ((List.range (n / 2 / 2).toNat).map fun (i : ℕ) => [b + 2 * ((i : ℤ) + 1), b - 2 * ((i : ℤ) + 1)]).flatten

/-- `coherent_train_bin(n_samples)`. `exp_d18_sar_redundant_mismatch_training_length_sweep.py:84-101`. -/
def coherentTrainBin (n : ℤ) (ratio : K) : ℤ :=
  let b := trainStartBin n ratio
  if Int.gcd n b = 1 then b
  else
    match (trainCandidates n b).find? fun c => decide (1 ≤ c ∧ c < n / 2 ∧ Int.gcd n c = 1) with
    | some c => c
    | none => b

/-- `quantize_ideal(vin, n_bits)` for one sample; `np.nextafter(1.0, 0.0)` is `1 - 2^-53`. `exp_s13_fft_length_mc_sfdr_sndr.py:45-50`. -/
def quantizeIdeal (vin : K) (nBits : ℕ) : K :=
  let clipped := clip vin 0 (1 - 1 / 2 ^ 53)
  ((⌊clipped * 2 ^ nBits⌋ : K) + 1 / 2) / 2 ^ nBits

end

/-- `noise_rms_for_enob(amplitude, n_bits, enob)`. `exp_s13_fft_length_mc_sfdr_sndr.py:53-59`. -/
noncomputable def noiseRmsForEnob (amplitude : ℝ) (nBits : ℕ) (enob : ℝ) : ℝ :=
  let targetSndr := 602 / 100 * enob + 176 / 100
  let signalPower := amplitude ^ 2 / 2
  let totalNoisePower := signalPower / 10 ^ (targetSndr / 10)
  let quantNoisePower : ℝ := (1 / 2 ^ nBits) ^ 2 / 12
  Real.sqrt (max (totalNoisePower - quantNoisePower) 0)

end Verif.Model
