import Verif.Model.MatlabErrsin

/-!
# Model of MATLAB `errsin_hp.m`

Amplitude and phase noise from the squared errors of all samples rather than of bins, as `rearrange_error_by_phase` computes them. Bins are counted from zero here. `none` stands for an
error or NaN. Left out: `erange` and the plots.
-/

namespace Verif.Model

open Verif Finset

/-- The returned values. `matlab/src/dumped/errsin_hp.m:1`. -/
structure MlErrHp where
  emean : ℕ → ℝ
  erms : ℕ → ℝ
  xx : ℕ → ℝ
  anoi : Option ℝ
  pnoi : Option ℝ
  err : ℕ → ℝ
  errxx : ℕ → ℝ
  r2 : Option ℝ

/-- `emean = esum ./ max(1, enum)`. `matlab/src/dumped/errsin_hp.m:66-68, 108-110`. -/
noncomputable def mlHpMean (n : ℕ) (idx : ℕ → ℕ) (e : ℕ → ℝ) (b : ℕ) : ℝ :=
  (∑ t ∈ (range n).filter fun t => idx t = b, e t) / max 1 (((range n).filter fun t => idx t = b).card : ℝ)

/-- `erms_sq = accumarray(bin_idx, (err - emean(bin_idx)').^2) ./ max(1, enum)`. `matlab/src/dumped/errsin_hp.m:69-70, 112-113`. -/
noncomputable def mlHpSq (n : ℕ) (idx : ℕ → ℕ) (e : ℕ → ℝ) (b : ℕ) : ℝ :=
  (∑ t ∈ (range n).filter fun t => idx t = b, (e t - mlHpMean n idx e (idx t)) ^ 2) / max 1 (((range n).filter fun t => idx t = b).card : ℝ)

/-- `bin_idx` of a phase in degrees, less one. `matlab/src/dumped/errsin_hp.m:104-105`. -/
noncomputable def mlHpPhaseBin (bin : ℕ) (deg : ℝ) : ℕ := (min ⌊deg / 360 * bin⌋ ((bin : ℤ) - 1)).toNat

/-- `bin_idx` of a value, less one. `matlab/src/dumped/errsin_hp.m:62-65`. -/
noncomputable def mlHpValueBin (bin : ℕ) (lo hi v : ℝ) : ℕ := (min (max ⌊(v - lo) / ((hi - lo) / bin)⌋ 0) ((bin : ℤ) - 1)).toNat

/-- `R2` for the binned `y` against the curve with coefficients `a` and `p` at `xx` degrees. `matlab/src/dumped/errsin_hp.m:118-141`. -/
noncomputable def mlHpR2 (n : ℕ) (idx : ℕ → ℕ) (bin : ℕ) (xx y : ℕ → ℝ) (a p : ℝ) : ℝ :=
  let valid := (range bin).filter fun b => 0 < ((range n).filter fun t => idx t = b).card
  let fit := fun b => a * Real.cos (xx b / 180 * Real.pi) ^ 2 + p * Real.sin (xx b / 180 * Real.pi) ^ 2
  if valid = ∅ then 0
  else
    let mean := (∑ b ∈ valid, y b) / valid.card
    let tot := ∑ b ∈ valid, (y b - mean) ^ 2
    if tot < 1 / 10 ^ 20 then 1 else 1 - (∑ b ∈ valid, (y b - fit b) ^ 2) / tot

/-- `errsin_hp(sig, bin, fin, 0, 'xaxis', 'phase')`. The parser and the fit are those of `errsin.m`. Division of the phase noise by a fitted magnitude of zero gives no number.
`matlab/src/dumped/errsin_hp.m:34-55, 76-141`. -/
noncomputable def mlErrsinHpPhase (solve : Lstsq) (n : ℕ) (x : ℕ → ℝ) (bin : ℕ) (fin : ℝ) : Option MlErrHp :=
  (mlErrFit solve n x bin fin).map fun (p : MlSine × ℝ) =>
    let err := fun t => p.1.fitted t - x t
    let raw := fun (t : ℕ) => 2 * Real.pi * p.2 * t + p.1.phi
    let deg := fun t => pmod (raw t * 180 / Real.pi) 360
    let rad := fun t => pmod (raw t) (2 * Real.pi)
    let xx := fun (b : ℕ) => (b : ℝ) / bin * 360
    let c := solve n [fun t => Real.cos (rad t) ^ 2, fun t => Real.sin (rad t) ^ 2] fun t => err t ^ 2
    let idx := fun t => mlHpPhaseBin bin (deg t)
    { emean := mlHpMean n idx err, erms := fun b => Real.sqrt (mlHpSq n idx err b), xx := xx,
      anoi := some (Real.sqrt (max 0 (c.getD 0 0))),
      pnoi := if p.1.mag = (0 : ℝ) then none else some (Real.sqrt (max 0 (c.getD 1 0)) / p.1.mag),
      err := err, errxx := deg, r2 := some (mlHpR2 n idx bin xx (mlHpSq n idx err) (c.getD 0 0) (c.getD 1 0)) }

/-- `errsin_hp(sig, bin, fin, 0, 'xaxis', 'value')`. A constant signal gives `0/0` for an index, which is an error. `matlab/src/dumped/errsin_hp.m:34-55, 58-72`. -/
noncomputable def mlErrsinHpValue (solve : Lstsq) (n : ℕ) (x : ℕ → ℝ) (bin : ℕ) (fin : ℝ) : Option MlErrHp :=
  (mlErrFit solve n x bin fin).bind fun p =>
    let lo := recMin n x
    let hi := recMax n x
    if hi = lo then none
    else
      let err := fun t => p.1.fitted t - x t
      let idx := fun t => mlHpValueBin bin lo hi (x t)
      some { emean := mlHpMean n idx err, erms := fun b => Real.sqrt (mlHpSq n idx err b), xx := fun b => lo + ((b : ℝ) + 1) * ((hi - lo) / bin) - (hi - lo) / bin / 2,
             anoi := none, pnoi := none, err := err, errxx := x, r2 := none }

end Verif.Model
