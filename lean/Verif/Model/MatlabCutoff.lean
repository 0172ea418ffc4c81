import Verif.Model.MatlabSpectrum

/-!
# The cutoff, the assumed signal power and the removal of harmonics in `plotspec.m`

Signal power, SNDR and THD from a one-sided spectrum with these three options, for a given side bin. The interpolated position of the peak (`bin_r`) is a parameter; it only enters
the positions of the harmonics.
-/

namespace Verif.Model

open Finset

/-- The bins up to the cutoff set to zero. `matlab/src/plotspec.m:389-392`. Beyond the Nyquist bin MATLAB lengthens the array by zeros, which no later sum notices; the length is kept here. -/
noncomputable def mlCutoff (p : List ℝ) (cutoff fs : ℝ) (N : ℕ) : List ℝ := if 0 < cutoff then zeroRange p 0 ⌈cutoff / fs * N⌉.toNat else p

/-- The lobes of the harmonics set to zero, `harmonic < 0`. `matlab/src/plotspec.m:476-481`. -/
def mlRemove {K : Type} [Zero K] (p : List K) (s : ℕ) (hs : List ℤ) : List K :=
  hs.foldl (fun (c : List K) (h : ℤ) => zeroRange c (max (h - s) 0).toNat (min (h + s + 1) p.length).toNat) p

/-- `10*log10(x/y)`; `none` is NaN. `matlab/src/plotspec.m:525, 584`. -/
noncomputable def mlRatio (x y : ℝ) : Option EReal := if y = 0 then (if x = 0 then none else some ⊤) else some (dB (x / y))

/-- Returned numbers and the powers behind them. `matlab/src/plotspec.m:1, 466-474, 513-525, 575-584`. -/
structure MlNumbers where
  bin : ℕ
  sig : ℝ
  pwr : EReal
  noi : ℝ
  sndr : Option EReal
  thd : Option EReal

/-- The report with `sideBin = s`. The signal is searched in a copy of the band made before the cutoff. `matlab/src/plotspec.m:386-395, 466-481, 513-525, 575-584; the SFDR and SNR are left out`. -/
noncomputable def mlNumbers (spec : List ℝ) (N nIn s : ℕ) (cutoff fs : ℝ) (assumed : Option ℝ) (binR : ℝ) (harmonic : ℤ) (nThd : ℕ) : MlNumbers :=
  let b := mlBin spec nIn
  let p := mlCutoff spec cutoff fs N
  let sig := match assumed with
    | some v => (10 : ℝ) ^ (v / 10)
    | none => mlSignal p nIn s b
  let q := if harmonic < 0 then mlRemove p s (mlHarmonicBins binR (-harmonic).toNat N) else p
  let noi := mlNoiseDist q nIn s b
  { bin := b, sig := sig,
    pwr := match assumed with
      | some v => ((v : ℝ) : EReal)
      | none => dB sig
    noi := noi, sndr := mlRatio sig noi, thd := mlRatio (mlThd q nIn s b (mlHarmonicBins binR nThd N)) sig }

end Verif.Model
