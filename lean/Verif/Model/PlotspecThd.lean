import Verif.Model.Spectrum

/-!
# Helpers of `spectrum` that no other function of the package calls

`_calculate_harmonic_power_plotspec` and `_calculate_noise_metrics`.
-/

namespace Verif.Model

section

variable {K : Type} [Field K] [LinearOrder K] [IsStrictOrderedRing K] [FloorRing K]

/-- One pass of the loop of `_calculate_harmonic_power_plotspec` over `(thd_power, harmonic_powers, collided_harmonics)`. `spectrum/_harmonics.py:164-174`. The array
`harmonic_powers` is built entry by entry, the untouched entries being `1e-15`. -/
def plotspecStep (p : List K) (fund sideBin : ℕ) (acc : K × List K × List ℕ) (hi : ℤ × ℕ) : Py (K × List K × List ℕ) :=
  if |hi.1 - fund| ≤ 2 * sideBin then .ok (acc.1, acc.2.1 ++ [pFloor], acc.2.2 ++ [hi.2 + 2])
  else if hi.1 ≤ sideBin then .ok (acc.1, acc.2.1 ++ [pFloor], acc.2.2)
  else match p[hi.1.toNat]? with
    | none => .error .indexError
    | some v => .ok (acc.1 + v, acc.2.1 ++ [max v pFloor], acc.2.2)

/-- `_calculate_harmonic_power_plotspec(power_spectrum, harmonic_bins, fundamental_bin, side_bin, max_harmonic)`. `spectrum/_harmonics.py:152-176`. `harmonic_bins` has
`max_harmonic - 1` entries. -/
def harmonicPowerPlotspec (p : List K) (hs : List ℤ) (fund sideBin : ℕ) : Py (K × List K × List ℕ) :=
  match hs.zipIdx.foldlM (plotspecStep p fund sideBin) ((0 : K), [], []) with
  | .error e => .error e
  | .ok r => .ok (max r.1 pFloor, r.2.1, r.2.2)

end

/-- `_calculate_noise_metrics(signal_power, noise_power, sig_pwr_dbfs, fs, osr, enbw)`: SNR, noise floor, NSD. `spectrum/_estimate_noise_power.py:137-140`. `enbw` is not used. The
powers are positive numbers here. -/
noncomputable def noiseMetrics (sig noise sigPwr fs osr _enbw : ℝ) : ℝ × ℝ × ℝ :=
  let snr := 10 * Real.logb 10 (sig / noise)
  let floor := sigPwr - snr
  (snr, floor, floor - 10 * Real.logb 10 (fs / (2 * osr)))

end Verif.Model
