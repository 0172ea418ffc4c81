import Verif.Model.MatlabFit
import Verif.Model.Matlab
import Verif.Model.ErrorBins

/-!
# Model of MATLAB `errsin.m`

`/repo/python/docs/source/python_matlab_parity.rst:45` names `analyze_error_by_phase` and `analyze_error_by_value` as its counterparts. Bins are counted from zero here. `none` stands
for an error or NaN. Left out: `osr > 1` (filtering of the error), `erange`, the separate means of the rising and falling half, and the plots.
-/

namespace Verif.Model

open Verif Finset

/-- The returned values. `matlab/src/errsin.m:1`. -/
structure MlErrBins where
  emean : ℕ → Option ℝ
  erms : ℕ → Option ℝ
  xx : ℕ → ℝ
  anoi : Option ℝ
  pnoi : Option ℝ
  err : ℕ → ℝ
  errxx : ℕ → ℝ

/-- `emean = esum./enum`; `0/0` is NaN. `matlab/src/errsin.m:189-205, 272-277`. -/
noncomputable def mlBinMean (n : ℕ) (idx : ℕ → ℕ) (e : ℕ → ℝ) (b : ℕ) : Option ℝ :=
  if (range n).filter (fun t => idx t = b) = ∅ then none
  else some ((∑ t ∈ (range n).filter fun t => idx t = b, e t) / ((range n).filter fun t => idx t = b).card)

/-- `erms`: the root of the mean of `(err - emean)^2` in the bin. `matlab/src/errsin.m:210-214, 280-284`. -/
noncomputable def mlBinRms (n : ℕ) (idx : ℕ → ℕ) (e : ℕ → ℝ) (b : ℕ) : Option ℝ :=
  (mlBinMean n idx e b).map fun m =>
    Real.sqrt ((∑ t ∈ (range n).filter fun t => idx t = b, (e t - m) ^ 2) / ((range n).filter fun t => idx t = b).card)

/-- `min(floor((sig(ii)-dat_min)/bin_wid)+1, bin)`, less one. `matlab/src/errsin.m:177-180, 193`. -/
noncomputable def mlErrValueBin (bin : ℕ) (lo hi v : ℝ) : ℕ := (min ⌊(v - lo) / ((hi - lo) / bin)⌋ ((bin : ℤ) - 1)).toNat

/-- `mod(round(errxx(ii)/360*bin), bin)+1`, less one. `matlab/src/errsin.m:273`. -/
noncomputable def mlErrPhaseBin (bin : ℕ) (deg : ℝ) : ℕ := (mlRound (deg / 360 * bin) % (bin : ℤ)).toNat

/-- `phase`, in degrees. `matlab/src/errsin.m:172`. -/
noncomputable def mlErrPhase (phi fin : ℝ) (t : ℕ) : ℝ := pmod (phi / Real.pi * 180 + t * fin * 360) 360

/-- `anoi` and `pnoi`. A NaN in `erms` makes the solution NaN, and `max(NaN, 0)` is `0`. `matlab/src/errsin.m:289-306`. -/
noncomputable def mlErrNoise (solve : Lstsq) (bin : ℕ) (xx : ℕ → ℝ) (erms : ℕ → Option ℝ) : ℝ × ℝ :=
  if ∃ b < bin, erms b = none then (0, 0)
  else
    let tmp := solve bin [fun b => Real.cos (xx b / 360 * 2 * Real.pi) ^ 2, fun b => Real.sin (xx b / 360 * 2 * Real.pi) ^ 2] fun b => ((erms b).getD 0) ^ 2
    (Real.sqrt (max (tmp.getD 0 0) 0), Real.sqrt (max (tmp.getD 1 0) 0))

/-- The fit and the frequency used afterwards; `fin = 0` is the default. The parser takes frequencies strictly between zero and one and a positive number of bins.
`matlab/src/errsin.m:102-131`. -/
noncomputable def mlErrFit (solve : Lstsq) (n : ℕ) (x : ℕ → ℝ) (bin : ℕ) (fin : ℝ) : Option (MlSine × ℝ) :=
  if bin = 0 ∨ fin < 0 ∨ 1 ≤ fin then none else (mlSinfitDefault solve n x fin).map fun m => (m, if fin = 0 then m.freq else fin)

/-- `errsin(sig, bin, fin, 0, 'xaxis', 'phase')`. `matlab/src/errsin.m:102-172, 264-306`. -/
noncomputable def mlErrsinPhase (solve : Lstsq) (n : ℕ) (x : ℕ → ℝ) (bin : ℕ) (fin : ℝ) : Option MlErrBins :=
  (mlErrFit solve n x bin fin).map fun p =>
    let err := fun t => p.1.fitted t - x t
    let phase := mlErrPhase p.1.phi p.2
    let idx := fun t => mlErrPhaseBin bin (phase t)
    let xx := fun (b : ℕ) => (b : ℝ) / bin * 360
    let erms := mlBinRms n idx err
    { emean := mlBinMean n idx err, erms := erms, xx := xx, anoi := some (mlErrNoise solve bin xx erms).1, pnoi := some (mlErrNoise solve bin xx erms).2,
      err := err, errxx := phase }

/-- `errsin(sig, bin, fin, 0, 'xaxis', 'value')`. A constant signal gives `0/0` for an index, which is an error. `matlab/src/errsin.m:102-172, 175-218`. -/
noncomputable def mlErrsinValue (solve : Lstsq) (n : ℕ) (x : ℕ → ℝ) (bin : ℕ) (fin : ℝ) : Option MlErrBins :=
  (mlErrFit solve n x bin fin).bind fun p =>
    let lo := recMin n x
    let hi := recMax n x
    if hi = lo then none
    else
      let err := fun t => p.1.fitted t - x t
      let idx := fun t => mlErrValueBin bin lo hi (x t)
      some { emean := mlBinMean n idx err, erms := mlBinRms n idx err, xx := fun b => lo + ((b : ℝ) + 1) * ((hi - lo) / bin) - (hi - lo) / bin / 2,
             anoi := none, pnoi := none, err := err, errxx := x }

end Verif.Model
