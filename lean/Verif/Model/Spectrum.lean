import Verif.Model.SpectrumBins
import Verif.Np.Dft
import Mathlib.Analysis.SpecialFunctions.Log.Base
import Mathlib.Analysis.SpecialFunctions.Pow.Complex
import Mathlib.Data.EReal.Operations
import Mathlib.Data.EReal.Inv

/-!
# Model of the spectrum engine

`_prepare_fft_input.py`, `_window.py`, `_spectrum_averaging.py`, `_locate_fundamental.py`, `_side_bin_auto.py`,
`_align_spectrum_phase.py`, `compute_spectrum.py`, `quick_sndr.py`.  Real arithmetic is exact; decibel values live in
`EReal` (`-inf` for `log10(0)`).  Matrices are lists of rows.
-/

namespace Verif.Model

open Verif

section Prepare

variable {K : Type} [Field K] [LinearOrder K]

/-- `max_scale_range`: `None`, a scalar, or a list/tuple. -/
inductive ScaleRange (K : Type) where
  | auto
  | scalar (v : K)
  | seq (l : List K)

/-- `data.T` for a matrix with `cols` columns. -/
def transposeRows (d : List (List K)) (cols : ℕ) : List (List K) :=
  (List.range cols).map fun (j : ℕ) => d.map fun r => r.getD j 0

/-- Orientation of the record. `spectrum/_prepare_fft_input.py:36-43`: `(rows, cols)` are the dimensions; the rows all have
`cols` entries (numpy rejects ragged input before this point). -/
def orient (d : List (List K)) : List (List K) :=
  let rows := d.length
  let cols := (d.headD []).length
  if cols = 1 ∧ 1 < rows then transposeRows d cols
  else if 1 < rows ∧ 1 < cols ∧ cols * 2 < rows then transposeRows d cols
  else d

/-- `peak_amplitude`. `spectrum/_prepare_fft_input.py:46-55`; `np.max` of an empty array raises `ValueError`. -/
def peakAmplitude (d : List (List K)) : ScaleRange K → Py K
  | .auto => match d.flatten with
    | [] => .error .valueError
    | a :: l => .ok ((maxOf a l - minOf a l) / 2)
  | .seq l => match l with
    | [lo, hi] => .ok ((hi - lo) / 2)
    | _ => .error .valueError
  | .scalar v => .ok v

/-- `row - np.mean(row)`. `spectrum/_prepare_fft_input.py:57`. -/
def removeDc (r : List K) : List K := r.map fun v => v - r.sum / r.length

/-- `_prepare_fft_input(data, max_scale_range)`. `spectrum/_prepare_fft_input.py:32-60`; `data` after `np.atleast_2d`
(a 1-D record is a single row; the `ndim > 2` error has no counterpart here). -/
def prepareFftInput (data : List (List K)) (scale : ScaleRange K) : Py (List (List K)) :=
  let d := orient data
  match peakAmplitude d scale with
  | .error e => .error e
  | .ok peak => .ok (d.map fun r => if peak ≠ 0 then (removeDc r).map (· / peak) else removeDc r)

end Prepare

/-! ### Window -/

/-- Windows computed outside the model (`scipy.signal.windows.kaiser(N, beta=38, sym=False)` and
`chebwin(N, at=100, sym=False)`): arbitrary sample functions. -/
structure WinLib where
  kaiser : ℕ → ℕ → ℝ
  chebwin : ℕ → ℕ → ℝ

/-- `scipy.signal.windows.general_cosine(N, a, sym=False)[n]`: ones for `N ≤ 1`, otherwise
`Σ_k a_k cos(k·(-π + 2πn/N))`. -/
noncomputable def generalCosine (a : List ℝ) (N n : ℕ) : ℝ :=
  if N ≤ 1 then 1
  else ((List.range a.length).map fun (k : ℕ) => a.getD k 0 * Real.cos (k * (-Real.pi + 2 * Real.pi * n / N))).sum

/-- Coefficients of the cosine-sum windows (scipy). -/
noncomputable def cosineCoeffs : String → List ℝ
  | "hamming" => [54 / 100, 46 / 100]
  | "blackman" => [42 / 100, 50 / 100, 8 / 100]
  | "blackmanharris" => [35875 / 100000, 48829 / 100000, 14128 / 100000, 1168 / 100000]
  | "flattop" => [21557895 / 100000000, 41663158 / 100000000, 277263158 / 1000000000, 83578947 / 1000000000,
      6947368 / 1000000000]
  | _ => [1 / 2, 1 / 2]

/-- `window_vector` of `_create_window`. `spectrum/_window.py:87-105`; `name` is `win_type.lower()`, unknown names give the
Hann window. -/
noncomputable def windowVector (lib : WinLib) (name : String) (N n : ℕ) : ℝ :=
  if name = "boxcar" ∨ name = "rectangular" then 1
  else if name = "kaiser" then lib.kaiser N n
  else if name = "chebwin" then lib.chebwin N n
  else generalCosine (cosineCoeffs name) N n

/-- `_create_window(...)[1]`. `spectrum/_window.py:107`. -/
noncomputable def windowGain (w : ℕ → ℝ) (N : ℕ) : ℝ := (∑ n ∈ Finset.range N, w n) / N

/-- `_create_window(...)[2]`. `spectrum/_window.py:109`. -/
noncomputable def windowEnbw (w : ℕ → ℝ) (N : ℕ) : ℝ :=
  N * (∑ n ∈ Finset.range N, w n ^ 2) / (∑ n ∈ Finset.range N, w n) ^ 2

/-- `_calculate_power_correction`. `spectrum/_window.py:178`. -/
noncomputable def powerCorrection (gain enbw : ℝ) : ℝ := 4 / (gain ^ 2 * enbw)

/-- `_get_default_side_bin`. `spectrum/_window.py:19-52, 131-139`. -/
def defaultSideBin (name : String) : ℕ :=
  match name with
  | "boxcar" | "rectangular" => 0
  | "hamming" => 1
  | "blackman" => 2
  | "blackmanharris" => 3
  | "flattop" => 4
  | "kaiser" => 8
  | "chebwin" => 4
  | _ => 1

/-- `_get_auto_side_bin_fallback`. `spectrum/_window.py:55-64, 144-151`. -/
def autoSideBinFallback (name : String) : ℕ :=
  match name with
  | "boxcar" | "rectangular" => 1
  | "hamming" => 3
  | "blackman" => 4
  | "blackmanharris" => 5
  | "flattop" => 6
  | "kaiser" => 10
  | "chebwin" => 6
  | _ => 3

/-! ### Averaging -/

/-- Halving of the DC bin and, for even `N`, of the last bin. `spectrum/_spectrum_averaging.py:37-39, 112-117`. -/
noncomputable def oneSided (N k : ℕ) (v : ℝ) : ℝ :=
  let v := if k = 0 then v / 2 else v
  if N % 2 = 0 ∧ k = N / 2 then v / 2 else v

/-- `_power_average(data)[0]`. `spectrum/_spectrum_averaging.py:30-41`. -/
noncomputable def powerAverage (runs : List (ℕ → ℝ)) (N : ℕ) : List ℝ :=
  (List.range (N / 2 + 1)).map fun (k : ℕ) =>
    oneSided N k ((runs.map fun x => ‖dft N (fun n => (x n : ℂ)) k‖ ^ 2).sum / runs.length / (N : ℝ) ^ 2)

/-! ### Fundamental -/

/-- Integer fundamental bin. `spectrum/_locate_fundamental.py:43-50`. -/
def fundamentalBin {K : Type} [LinearOrder K] (spec : List K) (nInband : ℕ) : ℕ :=
  let s := spec.take nInband
  if 1 < s.length then argmax (s.drop 1) + 1 else 0

/-- `np.log10(max(v, 1e-20))`. `spectrum/_locate_fundamental.py:59-61`. -/
noncomputable def logFloor (v : ℝ) : ℝ := Real.logb 10 (max v (1 / 10 ^ 20))

/-- Parabolic refinement. `spectrum/_locate_fundamental.py:54-73`: a zero denominator gives inf or NaN in numpy and is reset
to the integer bin. -/
noncomputable def refineBin (s : List ℝ) (b : ℕ) : ℝ :=
  if 0 < b ∧ b < s.length - 1 then
    let ym := logFloor (s.getD (b - 1) 0)
    let y0 := logFloor (s.getD b 0)
    let yp := logFloor (s.getD (b + 1) 0)
    if y0 - 4 ≤ min ym yp then
      let den := 2 * (2 * y0 - ym - yp)
      if den = 0 then b else b + (yp - ym) / den
    else b
  else b

/-- `_locate_fundamental(spectrum, n_inband)`. `spectrum/_locate_fundamental.py:43-75`. -/
noncomputable def locateFundamental (spec : List ℝ) (nInband : ℕ) : ℕ × ℝ :=
  let b := fundamentalBin spec nInband
  (b, refineBin (spec.take nInband) b)

/-! ### Automatic side bin -/

/-- The search loop. `spectrum/_side_bin_auto.py:40-46`: first `sb` in `sb..sb+fuel-1` whose two flanking ideal bins are
both at or below the floor. -/
noncomputable def sideBinSearch (ideal : List ℝ) (floor : ℝ) (b nInband : ℕ) : ℕ → ℕ → Option ℕ
  | _, 0 => none
  | sb, fuel + 1 =>
    if (sb ≤ b ∧ ideal.getD (b - sb) 0 ≤ floor) ∧ (b + sb < nInband ∧ ideal.getD (b + sb) 0 ≤ floor) then some sb
    else sideBinSearch ideal floor b nInband (sb + 1) fuel

/-- `_detect_side_bin_auto`. `spectrum/_side_bin_auto.py:20-49`. `minimum` and `fallback` are non-negative in the only
caller. `max_sidebin = min(b, n_inband-1-b)` is non-negative because `b < n_inband`. -/
noncomputable def detectSideBinAuto (p : List ℝ) (b : ℕ) (bFrac : ℝ) (nInband N : ℕ) (w : ℕ → ℝ) (corr : ℝ)
    (fallback minimum : ℕ) : ℕ :=
  let ideal := (powerAverage [fun n => Real.sin (2 * Real.pi * bFrac * n / N) * w n] N).map (· * corr)
  let peak := max (p.getD b 0) (1 / 10 ^ 30)
  let ideal' := ideal.map (· * (peak / max (ideal.getD b 0) (1 / 10 ^ 30)))
  let inband := p.take nInband
  let positive := inband.filter fun v => decide (1 / 10 ^ 20 < v)
  let floor := if 3 ≤ positive.length then median positive else median inband
  let floor := max floor (peak * (1 / 10 ^ 24))
  let maxSb := min b (nInband - 1 - b)
  let minimum := min minimum maxSb
  match sideBinSearch ideal' floor b nInband 1 maxSb with
  | some sb => max (sb - 1) minimum
  | none => min (max fallback minimum) maxSb

/-! ### Phase alignment and coherent averaging -/

/-- State of the harmonic loop: aligned spectrum, processed bins, running phasor. -/
structure AlignState where
  X : ℕ → ℂ
  done : Finset ℕ
  hp : ℂ

/-- Bin reached by harmonic `h` and whether it is conjugated. `spectrum/_align_spectrum_phase.py:61-76`: the zone is
`floor(2·b·h/N)`; even zones map to `bh - floor(bh/N)·N`, odd ones to `N - bh + floor(bh/N)·N`. -/
def alignTarget (b h N : ℕ) : ℕ × Bool :=
  if (2 * (b * h) / N) % 2 = 0 then (b * h % N, false) else (N - b * h % N, true)

/-- One pass of the harmonic loop. `spectrum/_align_spectrum_phase.py:59-83`. -/
noncomputable def alignStep (b N : ℕ) (phasor : ℂ) (s : AlignState) (h : ℕ) : AlignState :=
  let t := alignTarget b h N
  let f := if t.2 then (starRingEnd ℂ) s.hp else s.hp
  let s' : AlignState :=
    if t.1 < N ∧ t.1 ∉ s.done then { s with X := Function.update s.X t.1 (s.X t.1 * f), done := insert t.1 s.done } else s
  { s' with hp := s.hp * phasor }

/-- `np.conj(X[b] / (|X[b]| + 1e-20))`. `spectrum/_align_spectrum_phase.py:47-48`. -/
noncomputable def alignPhasor (X : ℕ → ℂ) (b : ℕ) : ℂ := (starRingEnd ℂ) (X b / ((‖X b‖ + 1 / 10 ^ 20 : ℝ) : ℂ))

/-- `_align_spectrum_phase(fft_data, bin_idx, bin_r, n_fft)`. `spectrum/_align_spectrum_phase.py:43-95`. Complex `**` is the
principal power. -/
noncomputable def alignSpectrumPhase (X : ℕ → ℂ) (b : ℕ) (bR : ℝ) (N : ℕ) : ℕ → ℂ :=
  if b = 0 then X
  else
    let ph := alignPhasor X b
    let s := (List.range N).foldl (fun (s : AlignState) (i : ℕ) => alignStep b N ph s (i + 1)) ⟨X, ∅, ph⟩
    fun k =>
      if k = 0 then 0
      else if k ∈ s.done then s.X k
      else s.X k * ph ^ (((if 0 < bR then (k : ℝ) / bR else 0 : ℝ)) : ℂ)

/-- One run of the coherent average: `none` for a skipped run. `spectrum/_spectrum_averaging.py:77-98`. -/
noncomputable def coherentRun (x : ℕ → ℝ) (N nInband : ℕ) : Option (ℕ → ℂ) :=
  if ∀ n < N, |x n| < 1 / 10 ^ 10 then none
  else
    let X : ℕ → ℂ := fun k => dft N (fun n => (x n : ℂ)) k
    let pw := (List.range (N / 2 + 1)).map fun (k : ℕ) => ‖X k‖ ^ 2
    let bf := locateFundamental pw nInband
    if bf.1 = 0 then none else some (alignSpectrumPhase X bf.1 bf.2 N)

/-- `spectrum_complex` before the boundary correction. `spectrum/_spectrum_averaging.py:70-106`. -/
noncomputable def coherentSum (runs : List (ℕ → ℝ)) (N nInband : ℕ) (k : ℕ) : ℂ :=
  let ok := runs.filterMap fun x => coherentRun x N nInband
  (ok.map fun X => X k).sum / (N * (if 0 < ok.length then ok.length else 1 : ℕ))

/-- `_coherent_average(data, osr)[0]`. `spectrum/_spectrum_averaging.py:108-119`. -/
noncomputable def coherentAverage (runs : List (ℕ → ℝ)) (N nInband : ℕ) : List ℝ :=
  (List.range (N / 2 + 1)).map fun (k : ℕ) => oneSided N k (‖coherentSum runs N nInband k‖ ^ 2)

/-! ### compute_spectrum -/

/-- `10·log10(r)` for `r ≥ 0`, `-inf` at zero. -/
noncomputable def dB (r : ℝ) : EReal := if r = 0 then ⊥ else ((10 * Real.logb 10 r : ℝ) : EReal)

/-- Arguments of `compute_spectrum`; `assumed = none` covers `None` and NaN. `fs > 0` is assumed by the theorems that use
it. -/
structure SpectrumArgs where
  fs : ℝ := 1
  scale : ScaleRange ℝ := .auto
  win : String := "hann"
  sideBin : Option ℕ := none
  osr : ℝ := 1
  maxHarmonic : ℕ := 5
  nfMethod : ℤ := 0
  assumed : Option ℝ := none
  coherent : Bool := false
  cutoff : ℝ := 0

/-- The returned metrics and bin positions; `none` stands for NaN. Plot-only arrays are left out, except the power
spectrum itself (before the decibel conversion). -/
structure SpectrumResult where
  N : ℕ
  M : ℕ
  power : List ℝ
  enob : EReal
  sndr : EReal
  sfdr : Option EReal
  snr : Option EReal
  sigPwr : ℝ
  noiseFloor : Option EReal
  nsd : Option ℝ
  thd : Option EReal
  harmonics : Option (List EReal)
  fundamentalBin : ℕ
  fundamentalFrac : ℝ
  sigStart : ℕ
  sigEnd : ℕ
  spurBin : ℕ
  harmonicBins : List ℤ
  collided : List ℕ

/-- Rows as sample functions. -/
noncomputable def runsOf (d : List (List ℝ)) (w : ℕ → ℝ) : List (ℕ → ℝ) := d.map fun r => fun n => r.getD n 0 * w n

/-- Corrected power spectrum before the cutoff. `spectrum/compute_spectrum.py:70-79`. -/
noncomputable def rawSpectrum (lib : WinLib) (a : SpectrumArgs) (d : List (List ℝ)) (N nInband : ℕ) : List ℝ :=
  let w := windowVector lib a.win N
  let corr := powerCorrection (windowGain w N) (windowEnbw w N)
  (if a.coherent then coherentAverage (runsOf d w) N nInband else powerAverage (runsOf d w) N).map (· * corr)

/-- High-pass cutoff. `spectrum/compute_spectrum.py:86-94`. -/
noncomputable def applyCutoff (p : List ℝ) (cutoff fs : ℝ) (N : ℕ) : List ℝ :=
  if 0 < cutoff then
    let cb := min ⌈cutoff / fs * N⌉.toNat p.length
    p.mapIdx fun i v => if i < cb then 1 / 10 ^ 20 else v
  else p

/-- The side bin in effect. `spectrum/compute_spectrum.py:101-112`. -/
noncomputable def sideBinOf (lib : WinLib) (a : SpectrumArgs) (N nInband : ℕ) (p : List ℝ) : ℕ :=
  match a.sideBin with
  | some s => s
  | none =>
    let w := windowVector lib a.win N
    detectSideBinAuto p (locateFundamental p nInband).1 (locateFundamental p nInband).2 nInband N w
      (powerCorrection (windowGain w N) (windowEnbw w N)) (autoSideBinFallback a.win) (defaultSideBin a.win)

/-- `sig_linear`. `spectrum/compute_spectrum.py:117-124`. -/
noncomputable def sigLinear (a : SpectrumArgs) (measured : ℝ) : ℝ :=
  match a.assumed with
  | some v => (10 : ℝ) ^ (v / 10)
  | none => measured

/-- `sig_pwr_dbfs`. `spectrum/compute_spectrum.py:119-123`. -/
noncomputable def sigPwrDbfs (a : SpectrumArgs) (measured : ℝ) : ℝ :=
  match a.assumed with
  | some v => v
  | none => 10 * Real.logb 10 (max measured (1 / 10 ^ 30))

/-- `nsd_dbfs_hz`. `spectrum/compute_spectrum.py:177-181`. -/
noncomputable def nsdOf (a : SpectrumArgs) : Option EReal → Option ℝ
  | some f => if f = ⊥ ∨ f = ⊤ then none else some (f.toReal - 10 * Real.logb 10 (a.fs / (2 * a.osr)))
  | none => none

/-- `(x - 1.76) / 6.02`. `spectrum/compute_spectrum.py:156`. -/
noncomputable def enobOf (sndr : EReal) : EReal := (sndr - ((176 / 100 : ℝ) : EReal)) / ((602 / 100 : ℝ) : EReal)

/-- The returned dictionary. `spectrum/compute_spectrum.py:114-218`, given the side bin `sb`, the harmonic bins, the spur
and the noise power. -/
noncomputable def assemble (a : SpectrumArgs) (M N nInband : ℕ) (p : List ℝ) (sb : ℕ) (hs : List ℤ) (spur : ℕ × ℝ)
    (noise : Option ℝ) : SpectrumResult :=
  let bf := locateFundamental p nInband
  let sig := sigLinear a (signalPower p nInband sb bf.1)
  let sigPwr := sigPwrDbfs a (signalPower p nInband sb bf.1)
  let hp := calculateHarmonicPower p bf.1 hs sb
  let sndr := dB (sig / (noiseAndDistortion p nInband sb bf.1 + 1 / 10 ^ 20))
  let snr := noise.map fun v => dB (sig / v)
  let floor := snr.map fun s => (sigPwr : EReal) - s
  { N := N
    M := M
    power := p
    enob := enobOf sndr
    sndr := sndr
    sfdr := if 0 < sig then some (if spur.2 ≤ 0 then ⊤ else dB (sig / spur.2)) else none
    snr := snr
    sigPwr := sigPwr
    noiseFloor := floor
    nsd := nsdOf a floor
    thd := if 0 < sig then some (dB (hp.1 / sig)) else none
    harmonics := if 0 < sig then some (hp.2.1.map fun v => dB (v / sig)) else none
    fundamentalBin := bf.1
    fundamentalFrac := bf.2
    sigStart := bf.1 - sb
    sigEnd := min (bf.1 + sb + 1) nInband
    spurBin := spur.1
    harmonicBins := hs
    collided := hp.2.2 }

/-- Everything after the spectrum is known. `spectrum/compute_spectrum.py:99-218`. -/
noncomputable def spectrumMetrics (lib : WinLib) (a : SpectrumArgs) (M N nInband : ℕ) (p : List ℝ) : Py SpectrumResult :=
  let bf := locateFundamental p nInband
  let sb := sideBinOf lib a N nInband p
  match locateHarmonicBins bf.2 a.maxHarmonic N with
  | .error e => .error e
  | .ok hs =>
    match extractHighestSpur p sb nInband (bf.1 - sb) (min (bf.1 + sb + 1) nInband) with
    | .error e => .error e
    | .ok spur =>
      match estimateNoisePower p a.nfMethod nInband M bf.1 hs sb with
      | .error e => .error e
      | .ok noise => .ok (assemble a M N nInband p sb hs spur noise)

/-- `compute_spectrum(data, ...)`. `spectrum/compute_spectrum.py:66-218`. -/
noncomputable def computeSpectrum (lib : WinLib) (data : List (List ℝ)) (a : SpectrumArgs) : Py SpectrumResult :=
  match prepareFftInput data a.scale with
  | .error e => .error e
  | .ok d =>
    let N := (d.headD []).length
    match rfftInbandBinCount N a.osr with
    | .error e => .error e
    | .ok nInband =>
      spectrumMetrics lib a d.length N nInband (applyCutoff (rawSpectrum lib a d N nInband) a.cutoff a.fs N)

/-- `quick_sndr(data, fs, win_type, side_bin, max_scale_range)`. `spectrum/quick_sndr.py:44-68`. Returns
`(sndr_dbc, enob)`; `side_bin` is clamped at zero. -/
noncomputable def quickSndr (lib : WinLib) (data : List (List ℝ)) (win : String) (sideBin : Option ℤ)
    (scale : ScaleRange ℝ) : Py (EReal × EReal) :=
  match prepareFftInput data scale with
  | .error e => .error e
  | .ok d =>
    let N := (d.headD []).length
    match rfftInbandBinCount N (1 : ℝ) with
    | .error e => .error e
    | .ok nInband =>
      let w := windowVector lib win N
      let p := (powerAverage (runsOf d w) N).map (· * powerCorrection (windowGain w N) (windowEnbw w N))
      let b := (locateFundamental p nInband).1
      let sb : ℕ := match sideBin with
        | none => defaultSideBin win
        | some s => s.toNat
      let q := quickSums p nInband sb b
      let sndr := dB (q.1 / (q.2 + 1 / 10 ^ 20))
      .ok (sndr, enobOf sndr)

end Verif.Model
