import Verif.Model.ErrorDecomp

/-!
# Model of MATLAB `sinfit.m`, `findfreq.m` and `dumped/errac.m`

`sinfit.m` is the sine fit behind every MATLAB function whose Python port calls `fit_sine_4param`; `aout/analyze_error_autocorr.py:6, 86` names `errac.m` and calls its
loop "consistent with MATLAB implementation". `linsolve` is the parameter `solve`, as `np.linalg.lstsq` is in `Model/SineFit.lean`. `none` stands for an error or NaN.
-/

namespace Verif.Model

open Verif Finset

/-- Start frequency from the FFT, bins zero-based; `none` where the division is `0/0` (NaN) and for a single sample, where the half spectrum is empty.
`matlab/src/sinfit.m:113-130`. -/
noncomputable def mlStart (n : ℕ) (y : ℕ → ℝ) : Option ℝ :=
  if n / 2 = 0 then none
  else
    let k := argmax ((List.range (n / 2)).map (fitSpec n y))
    let right := min (k + 1) (n / 2 - 1)
    let left := k - 1
    let r : ℝ := if fitSpec n y left < fitSpec n y right then 1 else -1
    let kn := if fitSpec n y left < fitSpec n y right then right else left
    if fitSpec n y k + fitSpec n y kn = 0 then none else some (((k : ℝ) + r * fitSpec n y kn / (fitSpec n y k + fitSpec n y kn)) / n)

/-- Loop variables; `rms` is the numerator of `relerr`. `matlab/src/sinfit.m:138-165`. -/
structure MlFit where
  freq : ℝ
  a : ℝ
  b : ℝ
  c : ℝ
  delta : ℝ
  rms : ℝ
  iters : ℕ

/-- The three-parameter fit. `matlab/src/sinfit.m:135-147`. -/
noncomputable def mlFitFirst (solve : Lstsq) (n : ℕ) (y : ℕ → ℝ) (f0 : ℝ) : MlFit :=
  let x := solve n [fun t => Real.cos (2 * Real.pi * f0 * t), fun t => Real.sin (2 * Real.pi * f0 * t), fun _ => 1] y
  { freq := f0, a := x.getD 0 0, b := x.getD 1 0, c := x.getD 2 0, delta := 0, rms := 0, iters := 0 }

/-- One pass of the frequency loop. `matlab/src/sinfit.m:152-165`. -/
noncomputable def mlFitPass (solve : Lstsq) (n : ℕ) (y : ℕ → ℝ) (rate : ℝ) (s : MlFit) : MlFit :=
  let f := s.freq + s.delta
  let g := fun (t : ℕ) => (-s.a * 2 * Real.pi * t * Real.sin (2 * Real.pi * f * t) + s.b * 2 * Real.pi * t * Real.cos (2 * Real.pi * f * t)) / n
  let x := solve n [fun t => Real.cos (2 * Real.pi * f * t), fun t => Real.sin (2 * Real.pi * f * t), fun _ => 1, g] y
  { freq := f, a := x.getD 0 0, b := x.getD 1 0, c := x.getD 2 0, delta := x.getD 3 0 * rate / n,
    rms := Real.sqrt ((∑ t ∈ range n, (x.getD 3 0 / n * g t) ^ 2) / n), iters := s.iters + 1 }

/-- The loop with its `break`; a zero amplitude makes `relerr` NaN or Inf, which is not below `tol`. `matlab/src/sinfit.m:149-176`. -/
noncomputable def mlFitLoop (solve : Lstsq) (n : ℕ) (y : ℕ → ℝ) (tol rate : ℝ) : ℕ → MlFit → MlFit
  | 0, s => s
  | k + 1, s =>
    let s' := mlFitPass solve n y rate s
    if 0 < Real.sqrt (s'.a ^ 2 + s'.b ^ 2) ∧ s'.rms / Real.sqrt (s'.a ^ 2 + s'.b ^ 2) < tol then s' else mlFitLoop solve n y tol rate k s'

/-- The returned values, plus the number of passes. `matlab/src/sinfit.m:1, 185-190`. -/
structure MlSine where
  fitted : ℕ → ℝ
  freq : ℝ
  mag : ℝ
  dc : ℝ
  phi : ℝ
  iters : ℕ

/-- `matlab/src/sinfit.m:185-190`; `atan2(B, A)` is the argument of `A + B i`. -/
noncomputable def mlFitResult (s : MlFit) : MlSine :=
  { fitted := fun t => s.a * Real.cos (2 * Real.pi * s.freq * t) + s.b * Real.sin (2 * Real.pi * s.freq * t) + s.c,
    freq := s.freq, mag := Real.sqrt (s.a ^ 2 + s.b ^ 2), dc := s.c, phi := -Complex.arg ⟨s.a, s.b⟩, iters := s.iters }

/-- `sinfit(sig, f0, tol, rate, fsearch, 0, niter)` on one record of `n` samples; `f0 = 0` is the default and asks for the automatic frequency. The averaging of the columns
of a matrix and the warning are left out. `matlab/src/sinfit.m:77-190`. -/
noncomputable def mlSinfit (solve : Lstsq) (n : ℕ) (y : ℕ → ℝ) (f0 tol rate : ℝ) (fsearch : Bool) (niter : ℕ) : Option MlSine :=
  if n = 0 then none
  else if f0 < 0 ∨ 1 / 2 < f0 ∨ tol ≤ 0 ∨ rate ≤ 0 ∨ 1 < rate ∨ niter = 0 then none
  else
    match (if f0 = 0 then mlStart n y else some f0) with
    | none => none
    | some f =>
      let s := mlFitFirst solve n y f
      some (mlFitResult (if fsearch = true ∨ f0 = 0 then mlFitLoop solve n y tol rate niter s else s))

/-- `sinfit` with its default tolerance, rate and number of passes (`matlab/src/sinfit.m:96-101`), called with a frequency or `0`. -/
noncomputable def mlSinfitDefault (solve : Lstsq) (n : ℕ) (y : ℕ → ℝ) (f0 : ℝ) : Option MlSine := mlSinfit solve n y f0 (1 / 10 ^ 12) (1 / 2) false 100

/-- `findfreq(sig, fs)`. `matlab/src/findfreq.m:40-58`. -/
noncomputable def mlFindfreq (solve : Lstsq) (n : ℕ) (y : ℕ → ℝ) (fs : ℝ) : Option ℝ :=
  if fs ≤ 0 then none else (mlSinfitDefault solve n y 0).map fun r => r.freq * fs

/-! ### Error autocorrelation -/

/-- `acf(k)` for one lag: mean of the products of `e(1:N-lag)` and `e(1+lag:N)`; `none` for the mean of nothing (NaN), which includes every lag beyond the record.
`matlab/src/dumped/errac.m:31-42`. -/
noncomputable def mlAcfAt (e : List ℝ) (lag : ℤ) : Option ℝ :=
  let p := if 0 ≤ lag then List.zipWith (· * ·) (e.take (e.length - lag.toNat)) (e.drop lag.toNat)
    else List.zipWith (· * ·) (e.drop (-lag).toNat) (e.take (e.length - (-lag).toNat))
  if p = [] then none else some (p.sum / p.length)

/-- `errac(err_data, "MaxLag", L, "Normalize", normalize)`: the lags and the autocorrelation. `matlab/src/dumped/errac.m:19-47`; the plot is left out. -/
noncomputable def mlErrac (n : ℕ) (err : ℕ → ℝ) (maxLag : ℤ) (normalize : Bool) : List ℤ × List (Option ℝ) :=
  let e := (List.range n).map fun t => err t - colMean n err
  let lags := acfLags maxLag
  let raw := lags.map (mlAcfAt e)
  (lags, if normalize then raw.map (acfNormalize (mlAcfAt e 0)) else raw)

end Verif.Model
