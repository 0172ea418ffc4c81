import Verif.Model.Units
import Mathlib.Tactic.NormNum
import Mathlib.Tactic.Positivity

/-!
# C06–C08: unit conversions
-/

namespace Verif

open Model

theorem log10_pow (x : ℝ) : log10 ((10 : ℝ) ^ x) = x := Real.logb_rpow (by norm_num) (by norm_num)
theorem pow_log10 {x : ℝ} (hx : 0 < x) : (10 : ℝ) ^ log10 x = x :=
  Real.rpow_logb (by norm_num) (by norm_num) hx

/-- **C06 (decibels).** dB ↔ magnitude and dB ↔ power are inverse bijections between the reals and the
positive reals. -/
theorem C06_db_round_trips (db x : ℝ) (hx : 0 < x) :
    magToDb (dbToMag db) = db ∧ dbToMag (magToDb x) = x ∧ 0 < dbToMag db ∧
    powerToDb (dbToPower db) = db ∧ dbToPower (powerToDb x) = x ∧ 0 < dbToPower db := by
  refine ⟨?_, ?_, by unfold dbToMag; positivity, ?_, ?_, by unfold dbToPower; positivity⟩
  · unfold magToDb dbToMag; rw [log10_pow]; ring
  · unfold magToDb dbToMag; rw [mul_div_cancel_left₀ _ (by norm_num), pow_log10 hx]
  · unfold powerToDb dbToPower; rw [log10_pow]; ring
  · unfold powerToDb dbToPower; rw [mul_div_cancel_left₀ _ (by norm_num), pow_log10 hx]

/-- **C06 (amplitude vs power).** Squaring a magnitude is the same number of dB as a power: the two dB
scales are consistent. -/
theorem C06_db_scales_consistent (x : ℝ) : powerToDb (x ^ 2) = magToDb x := by
  unfold powerToDb magToDb log10
  rw [Real.logb_pow]; push_cast; ring

/-- **C06 (dBm).** dBm ↔ Vrms for any positive load, and dBm ↔ mW. -/
theorem C06_dbm_round_trips (dbm v mw z : ℝ) (hz : 0 < z) (hv : 0 < v) (hmw : 0 < mw) :
    vrmsToDbm (dbmToVrms dbm z) z = dbm ∧ dbmToVrms (vrmsToDbm v z) z = v ∧
    mwToDbm (dbmToMw dbm) = dbm ∧ dbmToMw (mwToDbm mw) = mw := by
  have hp : 0 < dbToPower dbm := (C06_db_round_trips dbm 1 one_pos).2.2.2.2.2
  refine ⟨?_, ?_, (C06_db_round_trips dbm 1 one_pos).2.2.2.1, (C06_db_round_trips 0 mw hmw).2.2.2.2.1⟩
  · unfold vrmsToDbm dbmToVrms
    rw [Real.sq_sqrt (by positivity)]
    have : dbToPower dbm / 1000 * z / z * 1000 = dbToPower dbm := by field_simp
    rw [this]; exact (C06_db_round_trips dbm 1 one_pos).2.2.2.1
  · unfold vrmsToDbm dbmToVrms
    rw [(C06_db_round_trips 0 (v ^ 2 / z * 1000) (by positivity)).2.2.2.2.1]
    have : v ^ 2 / z * 1000 / 1000 * z = v ^ 2 := by field_simp
    rw [this, Real.sqrt_sq hv.le]

/-- **C06 (LSB, ENOB).** Volts ↔ LSB for any non-zero reference, SNR ↔ ENOB. -/
theorem C06_lsb_enob_round_trips (x vref : ℝ) (n : ℤ) (hv : vref ≠ 0) :
    voltsToLsb (lsbToVolts x vref n) vref n = x ∧ lsbToVolts (voltsToLsb x vref n) vref n = x ∧
    enobToSnr (snrToEnob x) = x ∧ snrToEnob (enobToSnr x) = x := by
  have h2 : ((2 : ℝ) ^ n) ≠ 0 := by positivity
  refine ⟨?_, ?_, ?_, ?_⟩
  · unfold voltsToLsb lsbToVolts; field_simp
  · unfold voltsToLsb lsbToVolts; field_simp
  · unfold enobToSnr snrToEnob; ring
  · unfold enobToSnr snrToEnob; ring

/-- A sine of peak amplitude `a` delivers `a²/(2z)`. -/
theorem C06_sine_power (a z : ℝ) : sineAmplitudeToPower a z = a ^ 2 / (2 * z) := by
  unfold sineAmplitudeToPower
  rw [div_pow, Real.sq_sqrt (by norm_num), div_div]

/-- **C06 (target level).** Where the measured level is the drive in decibels plus a fixed gain, one step to the computed drive reaches the target;
a level on target changes nothing. -/
theorem C06_target_level (vpp gain target : ℝ) (hv : 0 < vpp) :
    magToDb (vppForTarget vpp (magToDb vpp + gain) target) + gain = target ∧ 0 < vppForTarget vpp (magToDb vpp + gain) target ∧
    vppForTarget vpp target target = vpp := by
  have hp := (C06_db_round_trips (target - (magToDb vpp + gain)) 1 one_pos).2.2.1
  refine ⟨?_, mul_pos hv hp, ?_⟩
  · unfold vppForTarget
    have hm : ∀ y : ℝ, 0 < y → magToDb (vpp * y) = magToDb vpp + magToDb y := by
      intro y hy
      unfold magToDb log10
      rw [Real.logb_mul hv.ne' hy.ne']
      ring
    have h := hm _ hp
    rw [h, (C06_db_round_trips _ 1 one_pos).1]
    ring
  · unfold vppForTarget dbToMag
    simp

/-- A drive of 1 V measured at -6.5 dBFS and a target of -0.5 dBFS. -/
example : magToDb (vppForTarget 1 (-6.5) (-0.5)) + -6.5 = -0.5 := by
  have h := (C06_target_level 1 (-6.5) (-0.5) one_pos).1
  have h0 : magToDb 1 = 0 := by unfold magToDb log10; simp
  rwa [h0, zero_add] at h

example : (0 : ℝ) < 50 ∧ (0 : ℝ) < 1 ∧ (1 : ℝ) ≠ 0 := by norm_num

/-- **C07.** Integer bins survive the round trip; any frequency comes back within half a bin, and no other
bin is closer. -/
theorem C07_bin_freq_round_trip (b : ℤ) (f fs : ℝ) (n : ℕ) (hfs : 0 < fs) (hn : 0 < n) :
    freqToBin (binToFreq b fs n) fs n = b ∧
    |binToFreq (freqToBin f fs n) fs n - f| ≤ fs / n / 2 ∧
    ∀ b' : ℤ, |binToFreq (freqToBin f fs n) fs n - f| ≤ |binToFreq b' fs n - f| := by
  have hnR : (0 : ℝ) < n := by exact_mod_cast hn
  have conv : ∀ z : ℤ, |binToFreq z fs n - f| = fs / n * |f * n / fs - z| := by
    intro z
    have : binToFreq z fs n - f = fs / n * -(f * n / fs - z) := by
      unfold binToFreq; field_simp; ring
    rw [this, abs_mul, abs_neg, abs_of_pos (by positivity)]
  refine ⟨?_, ?_, ?_⟩
  · unfold freqToBin binToFreq
    have : (b : ℝ) * fs / n * n / fs = (b : ℝ) := by field_simp
    rw [this, rint_intCast]
  · rw [conv]
    have h := abs_sub_rint_le (f * n / fs)
    unfold freqToBin
    calc fs / n * |f * n / fs - rint (f * n / fs)| ≤ fs / n * (1 / 2) := by gcongr
      _ = fs / n / 2 := by ring
  · intro b'
    rw [conv, conv]
    have h := rint_closest (f * n / fs) b'
    unfold freqToBin
    gcongr

/-- **C08 (inverse).** In both modules `nsd_to_snr` inverts `snr_to_nsd` and vice versa. -/
theorem C08_nsd_round_trips (x fs osr sig : ℝ) (hfs : 0 < fs) (hosr : 0 < osr) :
    unitsNsdToSnr (unitsSnrToNsd x fs sig osr) fs sig osr = x ∧
    unitsSnrToNsd (unitsNsdToSnr x fs sig osr) fs sig osr = x ∧
    nsdToSnr (snrToNsd x fs osr sig) fs osr sig = x ∧
    snrToNsd (nsdToSnr x fs osr sig) fs osr sig = x := by
  have hbw : 0 < fs / (2 * osr) := by positivity
  refine ⟨by unfold unitsNsdToSnr unitsSnrToNsd; ring, by unfold unitsNsdToSnr unitsSnrToNsd; ring, ?_, ?_⟩
  · unfold nsdToSnr snrToNsd
    simp only
    rw [mul_div_cancel_left₀ _ (by norm_num : (10 : ℝ) ≠ 0), pow_log10 (by positivity)]
    have h1 : (10 : ℝ) ^ (sig / 10) ≠ 0 := by positivity
    have h2 : (10 : ℝ) ^ (x / 10) ≠ 0 := by positivity
    have : (10 : ℝ) ^ (sig / 10) / ((10 : ℝ) ^ (sig / 10) / (10 : ℝ) ^ (x / 10) / (fs / (2 * osr)) * (fs / (2 * osr)))
        = (10 : ℝ) ^ (x / 10) := by
      rw [div_mul_cancel₀ _ hbw.ne']; field_simp
    rw [this, log10_pow]; ring
  · unfold nsdToSnr snrToNsd
    simp only
    rw [mul_div_cancel_left₀ _ (by norm_num : (10 : ℝ) ≠ 0), pow_log10 (by positivity)]
    have h1 : (10 : ℝ) ^ (sig / 10) ≠ 0 := by positivity
    have h2 : (10 : ℝ) ^ (x / 10) ≠ 0 := by positivity
    have : (10 : ℝ) ^ (sig / 10) / ((10 : ℝ) ^ (sig / 10) / ((10 : ℝ) ^ (x / 10) * (fs / (2 * osr)))) / (fs / (2 * osr))
        = (10 : ℝ) ^ (x / 10) := by
      field_simp
    rw [this, log10_pow]; ring

/-- **C08 (agreement).** With the same named quantities the two public implementations agree. -/
theorem C08_nsd_implementations_agree (snr fs osr sig : ℝ) (hfs : 0 < fs) (hosr : 0 < osr) :
    unitsSnrToNsd snr fs sig osr = snrToNsd snr fs osr sig ∧
    unitsNsdToSnr snr fs sig osr = nsdToSnr snr fs osr sig := by
  have hbw : 0 < fs / (2 * osr) := by positivity
  have l10 : ∀ y : ℝ, Real.logb 10 ((10 : ℝ) ^ y) = y := log10_pow
  constructor
  · unfold unitsSnrToNsd snrToNsd log10
    simp only
    generalize fs / (2 * osr) = bw at *
    rw [Real.logb_div (by positivity) hbw.ne', Real.logb_div (by positivity) (by positivity), l10, l10]
    ring
  · unfold unitsNsdToSnr nsdToSnr log10
    simp only
    generalize fs / (2 * osr) = bw at *
    rw [Real.logb_div (by positivity) (by positivity), Real.logb_mul (by positivity) hbw.ne', l10, l10]
    ring

/-- **C08 (positional trap).** Called with the same positional arguments the two public functions differ:
the third and fourth parameters are swapped between the modules (here `(0, 2, 2, 1)`). -/
theorem C08_positional_arguments_disagree :
    ∃ a b c d : ℝ, 0 < b ∧ 0 < c ∧ 0 < d ∧ unitsSnrToNsd a b c d ≠ snrToNsd a b c d := by
  refine ⟨0, 2, 2, 1, by norm_num, by norm_num, by norm_num, ?_⟩
  rw [← (C08_nsd_implementations_agree 0 2 2 1 (by norm_num) (by norm_num)).1]
  unfold unitsSnrToNsd log10
  norm_num
  intro h
  -- 2 = 1 - 10 log10 (1/2) would force 10^(1/10) = 2 ... i.e. log10 (1/2) = -1/10
  have h1 : Real.logb 10 (1 / 2) = -(1 / 10) := by
    first
      | linarith
      | (norm_num at h ⊢; linarith)
  have h2 : (10 : ℝ) ^ (-(1 / 10) : ℝ) = 1 / 2 := by
    rw [← h1]; exact Real.rpow_logb (by norm_num) (by norm_num) (by norm_num)
  have h3 : ((10 : ℝ) ^ (-(1 / 10) : ℝ)) ^ (10 : ℕ) = (1 / 2) ^ (10 : ℕ) := by rw [h2]
  rw [← Real.rpow_natCast, ← Real.rpow_mul (by norm_num)] at h3
  norm_num at h3

/-- **C08 (oversampling).** Multiplying the OSR by `r > 0` raises the SNR computed
from a fixed NSD by exactly `10·log10 r`. -/
theorem C08_osr_gain (nsd fs osr r sig : ℝ) (hfs : 0 < fs) (hosr : 0 < osr) (hr : 0 < r) :
    nsdToSnr nsd fs (osr * r) sig = nsdToSnr nsd fs osr sig + powerToDb r := by
  rw [← (C08_nsd_implementations_agree nsd fs (osr * r) sig hfs (by positivity)).2,
    ← (C08_nsd_implementations_agree nsd fs osr sig hfs hosr).2]
  unfold unitsNsdToSnr powerToDb log10
  have : fs / (2 * (osr * r)) = fs / (2 * osr) / r := by field_simp
  rw [this, Real.logb_div (by positivity) hr.ne']
  ring

/-- **C08 (amplitudes).** `amplitudes_to_snr` at OSR 1 is the power ratio `(A²/2)/σ²` in dB; OSR > 1 adds
`10·log10 OSR`; zero noise gives the `inf` marker. -/
theorem C08_amplitudes_to_snr (a s osr : ℝ) (ha : 0 < a) (hs : 0 < s) (hosr : 1 ≤ osr) :
    amplitudesToSnr a s osr = some (powerToDb (a ^ 2 / 2 / s ^ 2) + powerToDb osr) ∧
    amplitudesToSnr a 0 osr = none := by
  constructor
  · unfold amplitudesToSnr
    rw [if_neg hs.ne']
    simp only
    have h2 : 20 * log10 (a / Real.sqrt 2 / s) = powerToDb (a ^ 2 / 2 / s ^ 2) := by
      have : a ^ 2 / 2 / s ^ 2 = (a / Real.sqrt 2 / s) ^ 2 := by
        rw [div_pow, div_pow, Real.sq_sqrt (by norm_num)]
      rw [this, C06_db_scales_consistent]; rfl
    rw [h2]
    split_ifs with h
    · rfl
    · have : osr = 1 := le_antisymm (not_lt.mp h) hosr
      rw [this]; unfold powerToDb log10; simp
  · unfold amplitudesToSnr; simp

example : (0 : ℝ) < 1000000 ∧ (0 : ℝ) < 256 ∧ (1 : ℝ) ≤ 256 := by norm_num

end Verif
