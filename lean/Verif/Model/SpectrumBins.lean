import Verif.Np.Vec
import Verif.Model.Frequency

/-!
# Model of the bin-accounting half of `spectrum/`

`_bin_ranges.py`, `_harmonics.py`, `_exclude_bins.py`, `_estimate_noise_power.py` and the sums made in
`compute_spectrum.py` / `quick_sndr.py`. Power spectra are lists over an ordered field (exact arithmetic).
`side_bin` is a natural number: `compute_spectrum` does not reject a negative one, that input is outside the model.
-/

namespace Verif.Model

open Verif

variable {K : Type} [Field K] [LinearOrder K] [IsStrictOrderedRing K] [FloorRing K]

/-- `np.isclose(a, b, rtol=1e-12, atol=1e-12)`: `|a - b| ≤ atol + rtol·|b|`. -/
def isclose12 (a b : K) : Bool := decide (|a - b| ≤ 1 / 10 ^ 12 + 1 / 10 ^ 12 * |b|)

/-- `rfft_inband_bin_count(n_fft, osr)`. `spectrum/_bin_ranges.py:16-27`. -/
def rfftInbandBinCount (nFft : ℤ) (osr : K) : Py ℕ :=
  if nFft ≤ 0 then .error .valueError
  else if osr ≤ 0 then .error .valueError
  else
    let rfftLen := nFft / 2 + 1
    let edge : K := nFft / (2 * osr)
    let nearest : K := rint edge
    let edge := if isclose12 edge nearest then nearest else edge
    let count := ⌊edge⌋ + 1
    .ok (max 1 (min count rfftLen)).toNat

/-- `_locate_harmonic_bins(fundamental_bin, max_harmonic, n_fft)`. `spectrum/_harmonics.py:40-51`.
`np.zeros(max_harmonic - 1)` raises `ValueError` for `max_harmonic = 0`; a zero `n_fft` raises only if the loop runs. -/
def locateHarmonicBins (fund : K) (maxHarmonic nFft : ℕ) : Py (List ℤ) :=
  if maxHarmonic = 0 then .error .valueError
  else
    ((List.range (maxHarmonic - 1)).mapM fun (i : ℕ) => do
      let a ← foldBin (fund * ((i + 2 : ℕ) : K)) nFft
      return rint a)

/-- What the loop of `_calculate_harmonic_power` does with one harmonic. -/
inductive HarmonicCase where
  | fundamentalCollision
  | dcCollision
  | range (lo hi : ℕ)
deriving DecidableEq

/-- `spectrum/_harmonics.py:116-130`. `harmonic_bins` are non-negative (`C29_harmonic_bin_is_alias`); the negative branch
of `max(center - side_bin, 0)` is covered by natural subtraction. -/
def harmonicCase (len fund sideBin : ℕ) (h : ℤ) : HarmonicCase :=
  if |h - fund| ≤ 2 * sideBin then .fundamentalCollision
  else if h ≤ sideBin then .dcCollision
  else .range (max (h - sideBin) 0).toNat (min (h + sideBin + 1) len).toNat

/-- Power floor `1e-15`. -/
def pFloor : K := 1 / 10 ^ 15

/-- `thd_bins_to_sum.update(range(...))` for one harmonic. `spectrum/_harmonics.py:137`. -/
def thdStep (len fund sideBin : ℕ) (acc : Finset ℕ) (h : ℤ) : Finset ℕ :=
  match harmonicCase len fund sideBin h with
  | .range lo hi => acc ∪ Finset.Ico lo hi
  | _ => acc

/-- The bins collected in `thd_bins_to_sum` (a Python set). `spectrum/_harmonics.py:109, 137`. -/
def thdBins (len fund sideBin : ℕ) (hs : List ℤ) : Finset ℕ := hs.foldl (thdStep len fund sideBin) ∅

/-- `_calculate_harmonic_power`. `spectrum/_harmonics.py:108-149`. Returns
`(thd_power, harmonic_powers, collided_harmonics)`. `harmonic_bins` has `max_harmonic - 1` entries. -/
def calculateHarmonicPower (p : List K) (fund : ℕ) (hs : List ℤ) (sideBin : ℕ) : K × List K × List ℕ :=
  let powers := hs.map fun h => match harmonicCase p.length fund sideBin h with
    | .range lo hi => max (slice p lo hi).sum pFloor
    | _ => pFloor
  let collided := (hs.zipIdx.filter fun (hi : ℤ × ℕ) =>
    harmonicCase p.length fund sideBin hi.1 = .fundamentalCollision).map fun (hi : ℤ × ℕ) => hi.2 + 2
  let bins := thdBins p.length fund sideBin hs
  let thd := if bins.Nonempty then ∑ i ∈ bins, p.getD i 0 else pFloor
  (max thd pFloor, powers, collided)

/-- In-band spectrum with the DC lobe and the signal window cleared, as built in `_extract_highest_spur`
(`spectrum/_harmonics.py:210-213`), in the SNDR sum (`compute_spectrum.py:148-154`) and in
`_zeroed_inband_spectrum` (`_estimate_noise_power.py:26-32`). -/
def clearedInband (p : List K) (nInband sideBin lo hi : ℕ) : List K :=
  let s := zeroRange (p.take nInband) 0 (min (sideBin + 1) nInband)
  if lo < hi then zeroRange s lo hi else s

/-- `_extract_highest_spur`. `spectrum/_harmonics.py:210-220`; `np.argmax` of an empty slice raises `ValueError`. -/
def extractHighestSpur (p : List K) (sideBin nInband sigStart sigEnd : ℕ) : Py (ℕ × K) :=
  let s := clearedInband p nInband sideBin sigStart sigEnd
  if s = [] then .error .valueError
  else
    let idx := argmax s
    .ok (idx, (slice s (idx - sideBin) (min (idx + sideBin + 1) nInband)).sum)

/-- The noise-and-distortion sum. `spectrum/compute_spectrum.py:148-154`: the copy has the full length, the DC range is
`[: min(side_bin+1, len)]`, the window `[lo:hi]`, and the sum runs over `[:n_inband]`. -/
def noiseAndDistortion (p : List K) (nInband sideBin fund : ℕ) : K :=
  let s := zeroRange p 0 (min (sideBin + 1) p.length)
  let lo := fund - sideBin
  let hi := min (fund + sideBin + 1) nInband
  let s := if lo < hi then zeroRange s lo hi else s
  (s.take nInband).sum

/-- Signal power over its window. `spectrum/compute_spectrum.py:114-117`. -/
def signalPower (p : List K) (nInband sideBin fund : ℕ) : K :=
  (slice p (fund - sideBin) (min (fund + sideBin + 1) nInband)).sum

/-- The same two sums as written in `quick_sndr.py:57-64` (no `lo < hi` guard there: an empty slice assignment). -/
def quickSums (p : List K) (nInband sideBin fund : ℕ) : K × K :=
  let lo := fund - sideBin
  let hi := min (fund + sideBin + 1) nInband
  let s := zeroRange (zeroRange p 0 (min (sideBin + 1) p.length)) lo hi
  ((slice p lo hi).sum, (s.take nInband).sum)

/-! ### Noise estimation -/

/-- `_exclude_bins_from_spectrum`. `spectrum/_exclude_bins.py:36-56`. -/
def excludeBins (p : List K) (sig : ℕ) (hs : List ℤ) (sideBin maxBin : ℕ) : List K :=
  let s := zeroRange (p.take maxBin) 0 (sideBin + 1)
  let clear (s : List K) (b : ℤ) : List K :=
    if 1 ≤ b ∧ b < s.length then zeroRange s (max (b - sideBin) 0).toNat (min (b + sideBin + 1) s.length).toNat else s
  hs.foldl clear (clear s sig)

/-- `candidate_bins` of method 4. `spectrum/_estimate_noise_power.py:54-64`. -/
def candidateBins (nInband sig : ℕ) (hs : List ℤ) (sideBin : ℕ) : Finset ℕ :=
  let c := Finset.range nInband \ Finset.range (min (sideBin + 1) nInband)
  let drop (c : Finset ℕ) (b : ℤ) : Finset ℕ :=
    if 1 ≤ b ∧ b < nInband then c \ Finset.Ico (max (b - sideBin) 0).toNat (min (b + sideBin + 1) nInband).toNat else c
  hs.foldl drop (drop c sig)

/-- `_matlab_trimmed_indices`. `spectrum/_estimate_noise_power.py:10-16` (`0.05`, `0.95` as exact decimals). -/
def trimmedIndices (n : ℕ) : ℕ × ℕ :=
  let lo := max 1 (n * 5 / 100)
  let hi := max 1 (n * 95 / 100)
  let start := lo - 1
  (start, min (max (start + 1) hi) n)

/-- `spec[np.abs(spec) > 1e-20]`, or all of `spec` if nothing is left. `spectrum/_estimate_noise_power.py:84-86`. -/
def specForFloor (spec : List K) : List K :=
  let f := spec.filter fun v => decide (|v| > 1 / 10 ^ 20)
  if f = [] then spec else f

/-- `_median_noise`. `spectrum/_estimate_noise_power.py:88-90`; `0.72` as the exact decimal. `M ≥ 1`. -/
def medianNoise (spec : List K) (M nInband : ℕ) : K :=
  let mn : K := if M = 1 then 72 / 100 else (1 - 2 / (9 * (M : K))) ^ 3
  median (specForFloor spec) / mn * nInband

/-- `_trimmed_noise`. `spectrum/_estimate_noise_power.py:92-95`. -/
def trimmedNoise (spec : List K) (nInband : ℕ) : K :=
  let f := specForFloor spec
  let se := trimmedIndices f.length
  let t := slice (sortAsc f) se.1 se.2
  t.sum / t.length * nInband

/-- `_exclude_noise`: only the harmonic's centre bin is cleared. `spectrum/_estimate_noise_power.py:97-102`. -/
def excludeNoise (spec : List K) (hs : List ℤ) (nInband : ℕ) : K :=
  (hs.foldl (fun (s : List K) (h : ℤ) => if 0 ≤ h ∧ h < nInband then zeroRange s h.toNat (h.toNat + 1) else s) spec).sum

/-- `_estimate_noise_power(..., return_parts=False)`. `spectrum/_estimate_noise_power.py:50-125`. `none` is NaN.
An empty in-band spectrum gives NaN medians in numpy; callers have `n_inband ≥ 1` (C25) and theorems assume a non-empty
spectrum. The method check comes after the three estimates are computed. -/
def estimateNoisePower (p : List K) (method : ℤ) (nInband M fund : ℕ) (hs : List ℤ) (sideBin : ℕ) : Py (Option K) :=
  if method = 4 then
    if candidateBins nInband fund hs sideBin = ∅ then .ok none
    else .ok (some (max (excludeBins p fund hs sideBin nInband).sum pFloor))
  else
    let spec := clearedInband p nInband sideBin (fund - sideBin) (min (fund + sideBin + 1) nInband)
    let a := medianNoise spec M nInband
    let b := trimmedNoise spec nInband
    let c := excludeNoise spec hs nInband
    if method = 0 then .ok (some (max (median [a, b, c]) pFloor))
    else if method = 1 then .ok (some (max a pFloor))
    else if method = 2 then .ok (some (max b pFloor))
    else if method = 3 then .ok (some (max c pFloor))
    else .error .valueError

end Verif.Model
