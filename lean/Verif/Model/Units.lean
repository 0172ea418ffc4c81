import Verif.Np.Basic
import Mathlib.Analysis.SpecialFunctions.Log.Base
import Mathlib.Analysis.SpecialFunctions.Pow.Real
import Mathlib.Analysis.Real.Sqrt

/-!
# Model of `fundamentals/units.py` and `fundamentals/snr_nsd.py`

Floats are real numbers.  `np.log10` is `Real.logb 10`; numpy returns `-inf`/NaN with a warning for
non-positive arguments, so every theorem states positivity explicitly.
-/

namespace Verif.Model

noncomputable section

/-- `np.log10` on positive reals. -/
def log10 (x : ℝ) : ℝ := Real.logb 10 x

/-- `units.py:7-9` -/
def dbToMag (db : ℝ) : ℝ := (10 : ℝ) ^ (db / 20)
/-- `units.py:11-13` -/
def magToDb (mag : ℝ) : ℝ := 20 * log10 mag
/-- `utils/vpp_for_target_dbfs.py:10-32` with `units.db_to_mag`; the module the file imports it from does not exist. -/
def vppForTarget (vpp measured target : ℝ) : ℝ := vpp * dbToMag (target - measured)
/-- `units.py:15-17` -/
def dbToPower (db : ℝ) : ℝ := (10 : ℝ) ^ (db / 10)
/-- `units.py:19-21` -/
def powerToDb (p : ℝ) : ℝ := 10 * log10 p
/-- `units.py:23-25`; `n_bits` is an integer (`2**n_bits` with a negative int is a float in Python). -/
def lsbToVolts (lsb vref : ℝ) (nBits : ℤ) : ℝ := lsb * (vref / (2 : ℝ) ^ nBits)
/-- `units.py:27-29` -/
def voltsToLsb (volts vref : ℝ) (nBits : ℤ) : ℝ := volts / (vref / (2 : ℝ) ^ nBits)
/-- `units.py:39-41` -/
def snrToEnob (snr : ℝ) : ℝ := (snr - 1.76) / 6.02
/-- `units.py:43-45` -/
def enobToSnr (enob : ℝ) : ℝ := enob * 6.02 + 1.76
/-- `units.py:110-113` -/
def dbmToVrms (dbm z : ℝ) : ℝ := Real.sqrt (dbToPower dbm / 1000 * z)
/-- `units.py:115-118` -/
def vrmsToDbm (v z : ℝ) : ℝ := powerToDb (v ^ 2 / z * 1000)
/-- `units.py:120-122` -/
def dbmToMw (dbm : ℝ) : ℝ := dbToPower dbm
/-- `units.py:124-126` -/
def mwToDbm (mw : ℝ) : ℝ := powerToDb mw
/-- `units.py:128-136` -/
def sineAmplitudeToPower (a z : ℝ) : ℝ := (a / Real.sqrt 2) ^ 2 / z

/-- `units.py:31-33` -/
def binToFreq (bin fs : ℝ) (nFft : ℕ) : ℝ := bin * fs / nFft
/-- `units.py:35-37`: `int(np.round(freq * n_fft / fs))`. -/
def freqToBin (freq fs : ℝ) (nFft : ℕ) : ℤ := rint (freq * nFft / fs)

/-- `units.py:47-76`. Positional order: `(snr_db, fs, signal_pwr_dbfs, osr)`. -/
def unitsSnrToNsd (snr fs sig osr : ℝ) : ℝ := sig - snr - 10 * log10 (fs / (2 * osr))
/-- `units.py:78-108`. -/
def unitsNsdToSnr (nsd fs sig osr : ℝ) : ℝ := sig - (nsd + 10 * log10 (fs / (2 * osr)))
/-- `snr_nsd.py:98-178`. Positional order: `(snr_db, fs, osr, psignal_dbfs)`. This is the one exported
at package level (`fundamentals/__init__.py:12`). -/
def snrToNsd (snr fs osr psig : ℝ) : ℝ :=
  let pSignal := (10 : ℝ) ^ (psig / 10)
  let pNoise := pSignal / (10 : ℝ) ^ (snr / 10)
  let bw := fs / (2 * osr)
  10 * log10 (pNoise / bw)
/-- `snr_nsd.py:180-256`. -/
def nsdToSnr (nsd fs osr psig : ℝ) : ℝ :=
  let nsdLin := (10 : ℝ) ^ (nsd / 10)
  let bw := fs / (2 * osr)
  let pNoise := nsdLin * bw
  let pSignal := (10 : ℝ) ^ (psig / 10)
  10 * log10 (pSignal / pNoise)

/-- `amplitudes_to_snr`, scalar inputs, `return_power=False`. `snr_nsd.py:60-96`.
`none` stands for `+inf` (zero noise). -/
def amplitudesToSnr (sig noise osr : ℝ) : Option ℝ :=
  if noise = 0 then none
  else
    let base := 20 * log10 (sig / Real.sqrt 2 / noise)
    some (if osr > 1 then base + 10 * log10 osr else base)

end

end Verif.Model
