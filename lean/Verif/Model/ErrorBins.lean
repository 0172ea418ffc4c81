import Verif.Model.SineFit
import Verif.Np.Vec

/-!
# Model of the value-binned and phase-binned error analyses

`aout/_infer_signal_range.py`, `aout/rearrange_error_by_value.py`, `aout/_fit_error_phase.py`, `aout/rearrange_error_by_phase.py`.
A record is a length `n` and a function; only indices below `n` matter. Real arithmetic replaces floating point, so the checks for
non-finite input never fire. `np.nan` for an empty bin is `none`.
-/

namespace Verif.Model

open Finset

/-- Smallest sample (of a non-empty record). `np.min`, `aout/_infer_signal_range.py:18`. -/
noncomputable def recMin (n : ℕ) (x : ℕ → ℝ) : ℝ := minOf (x 0) ((List.range n).map x)

/-- Largest sample (of a non-empty record). `np.max`, `aout/_infer_signal_range.py:19`. -/
noncomputable def recMax (n : ℕ) (x : ℕ → ℝ) : ℝ := maxOf (x 0) ((List.range n).map x)

/-- `_infer_signal_range`. `aout/_infer_signal_range.py:12-35`. -/
noncomputable def inferRange (n : ℕ) (x : ℕ → ℝ) (given : Option (ℝ × ℝ)) : Py (ℝ × ℝ) :=
  match given with
  | some r => if r.1 < r.2 then .ok r else .error .assertionError
  | none =>
    let absMax := max |recMin n x| |recMax n x|
    if 2 < absMax then .ok (recMin n x, recMax n x)
    else if 1 / 10 < colMean n x then .ok (0, 1)
    else if absMax ≤ 6 / 10 then .ok (-1 / 2, 1 / 2)
    else .ok (-1, 1)

/-- `np.bincount(idx, minlength=nb)` restricted to the samples of the mask: how many kept samples fall in bin `b`. Indices are natural
numbers below `nb` here. `aout/rearrange_error_by_value.py:91`, `aout/rearrange_error_by_phase.py:150`. -/
def binCount (n : ℕ) (idx : ℕ → ℕ) (mask : ℕ → Bool) (b : ℕ) : ℕ := ((range n).filter fun t => mask t = true ∧ idx t = b).card

/-- `np.bincount(idx, weights=w, minlength=nb)` on the samples of the mask. `aout/rearrange_error_by_value.py:92-93`,
`aout/rearrange_error_by_phase.py:151-152`. -/
noncomputable def binSum (n : ℕ) (idx : ℕ → ℕ) (mask : ℕ → Bool) (w : ℕ → ℝ) (b : ℕ) : ℝ :=
  ∑ t ∈ (range n).filter fun t => mask t = true ∧ idx t = b, w t

/-- `np.where(count > 0, sum / count, nan)`. `aout/rearrange_error_by_value.py:97`, `aout/rearrange_error_by_phase.py:156`. -/
noncomputable def binMean (n : ℕ) (idx : ℕ → ℕ) (mask : ℕ → Bool) (e : ℕ → ℝ) (b : ℕ) : Option ℝ :=
  if 0 < binCount n idx mask b then some (binSum n idx mask e b / binCount n idx mask b) else none

/-- `np.where(count > 0, sqrt(sum_sq / count), nan)`. `aout/rearrange_error_by_value.py:99`, `aout/rearrange_error_by_phase.py:157`. -/
noncomputable def binRms (n : ℕ) (idx : ℕ → ℕ) (mask : ℕ → Bool) (e : ℕ → ℝ) (b : ℕ) : Option ℝ :=
  if 0 < binCount n idx mask b then some (Real.sqrt (binSum n idx mask (fun t => e t ^ 2) b / binCount n idx mask b)) else none

/-- The returned dictionary of `rearrange_error_by_value`. `aout/rearrange_error_by_value.py:101-112`. -/
structure ValueBins where
  mean : ℕ → Option ℝ
  rms : ℕ → Option ℝ
  centers : ℕ → ℝ
  count : ℕ → ℕ
  index : ℕ → ℕ
  err : ℕ → ℝ
  fitted : ℕ → ℝ
  nBins : ℕ
  normFreq : ℝ

/-- `np.clip(np.round((signal - v_min) * scale).astype(int), 0, n_bins - 1)` for one sample. `aout/rearrange_error_by_value.py:53-61`. -/
noncomputable def valueIndex (nBins : ℕ) (lo hi v : ℝ) : ℕ :=
  (clip (rint ((v - lo) * (((nBins : ℝ) - 1) / (hi - lo)))) 0 ((nBins : ℤ) - 1)).toNat

/-- `np.linspace(v_min, v_max, n_bins)`. `aout/rearrange_error_by_value.py:62`. -/
noncomputable def valueCenter (nBins : ℕ) (lo hi : ℝ) (b : ℕ) : ℝ := lo + b * ((hi - lo) / ((nBins : ℝ) - 1))

/-- The keep mask: `margin ≤ idx ≤ n_bins - 1 - margin` with `margin = int(n_bins * clip_percent)`, or everything when
`clip_percent = 0`. `aout/rearrange_error_by_value.py:76-82`. -/
noncomputable def valueMask (nBins : ℕ) (clipPercent : ℝ) (idx : ℕ) : Bool :=
  if 0 < clipPercent then decide (⌊(nBins : ℝ) * clipPercent⌋ ≤ (idx : ℤ) ∧ (idx : ℤ) ≤ (nBins : ℤ) - 1 - ⌊(nBins : ℝ) * clipPercent⌋) else true

/-- `rearrange_error_by_value`. `aout/rearrange_error_by_value.py:25-116`. A non-integer `n_bins` and a `value_range` of another length are
rejected with `ValueError` by the code and are not representable here. -/
noncomputable def rearrangeByValue (solve : Lstsq) (n : ℕ) (x : ℕ → ℝ) (freq : Option ℝ) (nBins : ℤ) (clipPercent : ℝ)
    (given : Option (ℝ × ℝ)) (maxIter : ℤ) (tol : ℝ) : Py ValueBins :=
  if n = 0 then .error .valueError
  else if nBins ≤ 0 then .error .valueError
  else if clipPercent < 0 then .error .valueError
  else if given.any (fun r => decide (r.2 ≤ r.1)) then .error .valueError
  else
    match inferRange n x given with
    | .error e => .error e
    | .ok (lo, hi) =>
      if hi ≤ lo then .error .valueError
      else
        match fitCore solve n x freq maxIter tol with
        | .error e => .error e
        | .ok fit =>
          let nb := nBins.toNat
          let idx := fun t => valueIndex nb lo hi (x t)
          let mask := fun t => valueMask nb clipPercent (idx t)
          let err := fun t => x t - fit.fitted t
          if 0 < clipPercent ∧ (nBins : ℤ) ≤ 2 * ⌊(nb : ℝ) * clipPercent⌋ then .error .valueError
          else if ∀ t < n, mask t = false then .error .valueError
          else .ok { mean := binMean n idx mask err, rms := binRms n idx mask err, centers := valueCenter nb lo hi,
                     count := binCount n idx mask, index := idx, err := err, fitted := fit.fitted, nBins := nb,
                     normFreq := freq.getD fit.frequency }

/-! ## By phase -/

/-- The design matrix `X @ coeffs` of `_fit_error_phase` and its solution. `aout/_fit_error_phase.py:49-60`. -/
noncomputable def phaseCols (phi : ℕ → ℝ) (base : Bool) : List (ℕ → ℝ) :=
  [fun t => Real.cos (phi t) ^ 2, fun t => Real.sin (phi t) ^ 2] ++ if base then [fun _ => 1] else []

/-- `1 - ss_res / ss_tot if ss_tot > 1e-20 else 0`. `aout/_fit_error_phase.py:70-72`. -/
noncomputable def rSquared (n : ℕ) (y pred : ℕ → ℝ) : ℝ :=
  if 1 / 10 ^ 20 < ∑ t ∈ range n, (y t - colMean n y) ^ 2 then
    1 - (∑ t ∈ range n, (y t - pred t) ^ 2) / ∑ t ∈ range n, (y t - colMean n y) ^ 2
  else 0

/-- `_fit_error_phase`: the coefficients clamped at zero, and `r_squared`. `aout/_fit_error_phase.py:39-80`. -/
noncomputable def fitErrorPhase (solve : Lstsq) (n : ℕ) (y phi : ℕ → ℝ) (base : Bool) : (ℝ × ℝ × ℝ) × ℝ :=
  if n < 2 then ((0, 0, 0), 0)
  else
    let x := solve n (phaseCols phi base) y
    ((max 0 (x.getD 0 0), max 0 (x.getD 1 0), if base then max 0 (x.getD 2 0) else 0), rSquared n y (matVec (phaseCols phi base) x))

/-- The three-way interpretation of `A cos 2φ + B` as AM, PM and base variances. `aout/rearrange_error_by_phase.py:115-130`. -/
noncomputable def splitVar (A B : ℝ) : ℝ × ℝ × ℝ :=
  if 0 < A then (max 0 (2 * A), 0, max 0 (B - A))
  else if A < 0 then (0, max 0 (-2 * A), max 0 (B + A))
  else (0, 0, max 0 B)

/-- `_coeffs_plot`: AM, PM and base variances. `aout/rearrange_error_by_phase.py:108-135`. -/
noncomputable def phaseVars (solve : Lstsq) (n : ℕ) (esq phi : ℕ → ℝ) (base : Bool) : ℝ × ℝ × ℝ :=
  if base then
    let x := solve n [fun t => Real.cos (2 * phi t), fun _ => 1] esq
    splitVar (x.getD 0 0) (x.getD 1 0)
  else
    let c := (fitErrorPhase solve n esq phi base).1
    (max 0 c.1, max 0 c.2.1, 0)

/-- `np.clip(np.floor(phase / bin_width).astype(int), 0, n_bins - 1)`. `aout/rearrange_error_by_phase.py:145-147`. -/
noncomputable def phaseIndex (nBins : ℕ) (phi : ℝ) : ℕ := (clip ⌊phi / (2 * Real.pi / nBins)⌋ 0 ((nBins : ℤ) - 1)).toNat

/-- `np.linspace(0, 2 pi, n_bins, endpoint=False) + bin_width / 2`. `aout/rearrange_error_by_phase.py:160`. -/
noncomputable def phaseCenter (nBins : ℕ) (b : ℕ) : ℝ := b * (2 * Real.pi / nBins) + 2 * Real.pi / nBins / 2

/-- `r_squared_binned`. `aout/rearrange_error_by_phase.py:164-186`. -/
noncomputable def rSquaredBinned (nBins : ℕ) (count : ℕ → ℕ) (rms : ℕ → Option ℝ) (v : ℝ × ℝ × ℝ) : ℝ :=
  let valid := (range nBins).filter fun b => 0 < count b
  let actual := fun b => ((rms b).getD 0) ^ 2
  let pred := fun b => v.1 * Real.cos (phaseCenter nBins b) ^ 2 + v.2.1 * Real.sin (phaseCenter nBins b) ^ 2 + v.2.2
  if 2 < valid.card then
    let mean := (∑ b ∈ valid, actual b) / valid.card
    let res := ∑ b ∈ valid, (actual b - pred b) ^ 2
    let tot := ∑ b ∈ valid, (actual b - mean) ^ 2
    if 1 / 10 ^ 20 < tot ∧ 1 / 100 * mean ^ 2 * valid.card < tot then 1 - res / tot
    else
      let rel := if 1 / 10 ^ 20 < mean then Real.sqrt (res / valid.card) / mean else 1
      max 0 (1 - rel ^ 2)
  else 0

/-- The returned dictionary of `rearrange_error_by_phase`. `aout/rearrange_error_by_phase.py:191-222`. -/
structure PhaseBins where
  amRms : ℝ
  amRelative : ℝ
  pmRms : ℝ
  pmRad : ℝ
  baseRms : ℝ
  totalRms : ℝ
  r2Raw : ℝ
  r2Binned : ℝ
  rms : ℕ → Option ℝ
  mean : ℕ → Option ℝ
  centers : ℕ → ℝ
  count : ℕ → ℕ
  amplitude : ℝ
  dcOffset : ℝ
  normFreq : ℝ
  fitted : ℕ → ℝ
  err : ℕ → ℝ
  phase : ℕ → ℝ
  coeffs : ℝ × ℝ × ℝ

/-- `rearrange_error_by_phase`. `aout/rearrange_error_by_phase.py:58-226`. `2 * np.pi / n_bins` raises `ZeroDivisionError` for zero bins and
`np.bincount` raises `ValueError` for a negative number of bins. -/
noncomputable def rearrangeByPhase (solve : Lstsq) (n : ℕ) (x : ℕ → ℝ) (freq : Option ℝ) (nBins : ℤ) (base : Bool) (maxIter : ℤ) (tol : ℝ) :
    Py PhaseBins :=
  match fitCore solve n x freq maxIter tol with
  | .error e => .error e
  | .ok fit =>
    if nBins = 0 then .error .zeroDivision
    else if nBins < 0 then .error .valueError
    else
      let nb := nBins.toNat
      let phase := fun (t : ℕ) => 2 * Real.pi * fit.frequency * t + fit.phase
      let err := fun t => x t - fit.fitted t
      let phi := fun t => pmod (phase t) (2 * Real.pi)
      let esq := fun t => err t ^ 2
      let v := phaseVars solve n esq phi base
      let idx := fun t => phaseIndex nb (phi t)
      let big := decide (1 / 10 ^ 10 < fit.amplitude)
      .ok { amRms := Real.sqrt v.1, amRelative := if big then Real.sqrt v.1 / fit.amplitude else 0, pmRms := Real.sqrt v.2.1,
            pmRad := if big then Real.sqrt v.2.1 / fit.amplitude else 0, baseRms := Real.sqrt v.2.2,
            totalRms := Real.sqrt (colMean n esq), r2Raw := (fitErrorPhase solve n esq phi base).2,
            r2Binned := rSquaredBinned nb (binCount n idx fun _ => true) (binRms n idx (fun _ => true) err) v,
            rms := binRms n idx (fun _ => true) err, mean := binMean n idx (fun _ => true) err, centers := phaseCenter nb,
            count := binCount n idx fun _ => true, amplitude := fit.amplitude, dcOffset := fit.dcOffset,
            normFreq := freq.getD fit.frequency, fitted := fit.fitted, err := err, phase := phase, coeffs := v }

end Verif.Model
