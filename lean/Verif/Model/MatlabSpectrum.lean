import Verif.Model.Matlab
import Verif.Model.Spectrum

/-!
# MATLAB `plotspec.m`

The Python spectrum engine calls itself aligned with `plotspec.m` (`spectrum/compute_spectrum.py:36`, `_estimate_noise_power.py:1, 46`, `_side_bin_auto.py:19`,
`_spectrum_averaging.py:89, 97`). Modelled here: power and coherent averaging with the two built-in windows, signal search, automatic side bin, the sums behind
the reported numbers. Bins are zero-based (MATLAB index minus one). The cutoff, the assumed signal power and negative
`harmonic` are in `Model/MatlabCutoff`; the plot is left out.
-/

namespace Verif.Model

open Finset

section

variable {K : Type} [Field K] [LinearOrder K] [IsStrictOrderedRing K] [FloorRing K]

/-- Harmonic bins `alias(round((bin_r-1)*i),N_fft)`, `i = 2..nTHD`. `matlab/src/plotspec.m:557-558, 576-577`; the values are whole numbers, the floor only
changes the type. -/
def mlHarmonicBins (binR : K) (nThd N : ℕ) : List ℤ :=
  (List.range (nThd - 1)).map fun (i : ℕ) => ⌊(mlAlias ((mlRound (binR * ((i + 2 : ℕ) : K)) : ℤ) : K) (N : K)).getD 0⌋

/-- The spectrum without signal and DC. `matlab/src/plotspec.m:515-516`. -/
def mlCleared (p : List K) (s b : ℕ) : List K := zeroRange (zeroRange p (b - s) (min (b + s + 1) p.length)) 0 s

/-- `sig`. `matlab/src/plotspec.m:467`. -/
def mlSignal (p : List K) (nIn s b : ℕ) : K := (slice p (b - s) (min (b + s + 1) nIn)).sum

/-- `noi` of the SNDR. `matlab/src/plotspec.m:515-518`. -/
def mlNoiseDist (p : List K) (nIn s b : ℕ) : K := ((mlCleared p s b).take nIn).sum

/-- Spur bin and power. `matlab/src/plotspec.m:517, 521-524`. -/
def mlSpur (p : List K) (nIn s b : ℕ) : ℕ × K :=
  let c := (mlCleared p s b).take nIn
  (argmax c, (slice c (argmax c - s) (min (argmax c + s + 1) nIn)).sum)

/-- The bins the noise floor is estimated from. `matlab/src/plotspec.m:536-541`. -/
def mlFloorBins (c : List K) : List K :=
  if (c.filter fun v => decide (1 / 10 ^ 20 < |v|)) = [] then c else c.filter fun v => decide (1 / 10 ^ 20 < |v|)

/-- `noi_median`. `matlab/src/plotspec.m:545-551`. -/
def mlNoiseMedian (c : List K) (nRun nIn : ℕ) : K :=
  median (mlFloorBins c) / (if nRun = 1 then 72 / 100 else (1 - 2 / (9 * (nRun : K))) ^ 3) * nIn

/-- `noi_mean`. `matlab/src/plotspec.m:553-554`; `0.05` and `0.95` as exact decimals. -/
def mlNoiseMean (c : List K) (nIn : ℕ) : K :=
  let f := sortAsc (mlFloorBins c)
  let t := slice f (max 1 (f.length * 5 / 100) - 1) (max 1 (f.length * 95 / 100))
  t.sum / t.length * nIn

/-- `noi_exclude`. `matlab/src/plotspec.m:556-561`. -/
def mlNoiseExclude (p : List K) (nIn s b : ℕ) (hs : List ℤ) : K :=
  ((hs.foldl (fun (c : List K) (h : ℤ) => zeroRange c h.toNat (h.toNat + 1)) (mlCleared p s b)).take nIn).sum

/-- `noi` of the SNR; `none` for a method the argument check refuses. `matlab/src/plotspec.m:144, 563-572`. -/
def mlNoise (p : List K) (method : ℤ) (nIn nRun s b : ℕ) (hs : List ℤ) : Option K :=
  let c := (mlCleared p s b).take nIn
  if method = 0 then some (median [mlNoiseMedian c nRun nIn, mlNoiseMean c nIn, mlNoiseExclude p nIn s b hs])
  else if method = 1 then some (mlNoiseMedian c nRun nIn)
  else if method = 2 then some (mlNoiseMean c nIn)
  else if method = 3 then some (mlNoiseExclude p nIn s b hs)
  else none

/-- `thd_mask`. `matlab/src/plotspec.m:575-581`. -/
def mlThdBins (nIn s : ℕ) (hs : List ℤ) : Finset ℕ :=
  hs.foldl (fun (m : Finset ℕ) (h : ℤ) => m ∪ Ico (max (h - s) 0).toNat (min (h + s + 1) nIn).toNat) ∅

/-- `thd` before the decibels. `matlab/src/plotspec.m:575-582`. -/
def mlThd (p : List K) (nIn s b : ℕ) (hs : List ℤ) : K := ∑ i ∈ mlThdBins nIn s hs, (mlCleared p s b).getD i 0

end

/-! ### Spectrum -/

/-- The built-in windows `hannwin` and `rectwin_emb`. `matlab/src/plotspec.m:728-750`. -/
noncomputable def mlWindow (hann : Bool) (N n : ℕ) : ℝ :=
  if hann = true ∧ N ≠ 1 then 1 / 2 * (1 - Real.cos (2 * Real.pi * n / N)) else 1

/-- One windowed run. `matlab/src/plotspec.m:314-316`. -/
noncomputable def mlRun (r : List ℝ) (maxSignal : ℝ) (w : ℕ → ℝ) (N n : ℕ) : ℝ :=
  (removeDc (r.map (· / maxSignal))).getD n 0 * w n / √((∑ i ∈ range N, w i ^ 2) / N)

/-- The runs that are not skipped. `matlab/src/plotspec.m:310-312`: `rms` is zero for a run of zeros only. -/
noncomputable def mlLive (d : List (List ℝ)) : List (List ℝ) := d.filter fun r => decide (∃ v ∈ r, v ≠ 0)

/-- Halving of the Nyquist bin. `matlab/src/plotspec.m:383-385`. -/
noncomputable def mlNyquist (N k : ℕ) (v : ℝ) : ℝ := if N % 2 = 0 ∧ k = N / 2 then v / 2 else v

/-- The power-averaged spectrum; `none` if every run is skipped (`0/0`). `matlab/src/plotspec.m:304-317, 367-385`. -/
noncomputable def mlPowerSpectrum (d : List (List ℝ)) (maxSignal : ℝ) (w : ℕ → ℝ) (N : ℕ) : Option (List ℝ) :=
  let live := mlLive d
  if live = [] then none
  else some ((List.range (N / 2 + 1)).map fun (k : ℕ) => mlNyquist N k
    (if k = 0 then 0
     else (live.map fun r => ‖dft N (fun n => (mlRun r maxSignal w N n : ℂ)) k‖ ^ 2).sum / (N : ℝ) ^ 2 * 16 / live.length))

/-- Default `maxSignal`. `matlab/src/plotspec.m:148`. -/
noncomputable def mlDefaultScale (d : List (List ℝ)) : ℝ :=
  match d.flatten with
  | [] => 0
  | a :: l => maxOf a l - minOf a l

/-- `bin`. `matlab/src/plotspec.m:386, 395` (and 323 in a coherent run). -/
noncomputable def mlBin (p : List ℝ) (nIn : ℕ) : ℕ := argmax (p.take nIn)

/-- `inbandEnd`. `matlab/src/plotspec.m:277`. -/
noncomputable def mlInbandEnd (N : ℕ) (osr : ℝ) : ℕ := (min (⌊(N : ℝ) / 2 / osr⌋ + 1) ((N / 2 + 1 : ℕ) : ℤ)).toNat

/-! ### Phase alignment -/

/-- Target of harmonic `h`. `matlab/src/plotspec.m:336-347`; `J = (bin-1)*h`. -/
def mlAlignTarget (b h N : ℕ) : ℕ × Bool :=
  let J := b * h
  if (J * 2 / N) % 2 = 0 then (J - J / N * N, false) else (N - (J - J / N * N), true)

/-- One pass of the harmonic loop. `matlab/src/plotspec.m:335-354`. -/
noncomputable def mlAlignStep (b N : ℕ) (cphi : ℂ) (s : AlignState) (h : ℕ) : AlignState :=
  let t := mlAlignTarget b h N
  let s' : AlignState :=
    if t.1 ∉ s.done then
      { s with X := Function.update s.X t.1 (s.X t.1 * (if t.2 then (starRingEnd ℂ) s.hp else s.hp)), done := insert t.1 s.done }
    else s
  { s' with hp := s.hp * cphi }

/-- The aligned spectrum of one run, `b` its strongest in-band bin. `matlab/src/plotspec.m:320-361`; the index `N` beyond the last bin is never reached. -/
noncomputable def mlAlign (X : ℕ → ℂ) (b N : ℕ) : ℕ → ℂ :=
  let X0 := Function.update X 0 0
  let cphi := (starRingEnd ℂ) (X0 b / (‖X0 b‖ : ℂ))
  let s := (List.range N).foldl (fun (s : AlignState) (i : ℕ) => mlAlignStep b N cphi s (i + 1)) ⟨X0, ∅, cphi⟩
  fun k => if k ∈ s.done then s.X k else s.X k * cphi ^ (((k : ℝ) / b : ℝ) : ℂ)

/-! ### Automatic side bin -/

/-- The outward search: the first `sb` in `sb..sb+fuel-1` whose flanking ideal bins are both at or below the floor. `matlab/src/plotspec.m:450-463`. -/
noncomputable def mlSideLoop (ideal : ℕ → ℝ) (floor : ℝ) (b nIn : ℕ) : ℕ → ℕ → Option ℕ
  | _, 0 => none
  | sb, fuel + 1 =>
    if (sb ≤ b ∧ ideal (b - sb) ≤ floor) ∧ (b + sb < nIn ∧ ideal (b + sb) ≤ floor) then some sb else mlSideLoop ideal floor b nIn (sb + 1) fuel

/-- The ideal spectrum before scaling. `matlab/src/plotspec.m:417-428`. -/
noncomputable def mlIdeal (binR : ℝ) (w : ℕ → ℝ) (N k : ℕ) : ℝ :=
  mlNyquist N k
    (‖dft N (fun n => ((Real.sin (2 * Real.pi * binR / N * n) * w n / √((∑ i ∈ range N, w i ^ 2) / N) : ℝ) : ℂ)) k‖ ^ 2 / (N : ℝ) ^ 2 * 16)

/-- `sideBin = 'auto'`. `matlab/src/plotspec.m:414-464`. -/
noncomputable def mlSideBin (p : List ℝ) (b : ℕ) (binR : ℝ) (nIn N : ℕ) (w : ℕ → ℝ) : ℕ :=
  let scaled := fun k => mlIdeal binR w N k * (p.getD b 0 / mlIdeal binR w N b)
  let temp := (p.take nIn).filter fun v => decide (1 / 10 ^ 20 < v)
  let floor := if 3 ≤ temp.length then median temp else median (p.take nIn)
  let maxSb := min b (nIn - 1 - b)
  match mlSideLoop scaled floor b nIn 1 maxSb with
  | some sb => sb - 1
  | none => maxSb

end Verif.Model
