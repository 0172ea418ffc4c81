import Verif.Model.ErrorBins
import Mathlib.Analysis.SpecialFunctions.Log.Base

/-!
# Model of the harmonic decomposition and the error autocorrelation

`aout/_fit_sine_harmonics.py`, `aout/decompose_harmonic_error.py`, `aout/analyze_error_autocorr.py` (without the plot).
-/

namespace Verif.Model

open Finset

/-- Cosine and sine of every harmonic, interleaved. `aout/_fit_sine_harmonics.py:89-97`. -/
noncomputable def harmonicBasis (f : ℝ) (H : ℕ) : List (ℕ → ℝ) :=
  (List.range H).flatMap fun (h : ℕ) =>
    [fun (t : ℕ) => Real.cos (((h : ℝ) + 1) * (2 * Real.pi * f * t)), fun (t : ℕ) => Real.sin (((h : ℝ) + 1) * (2 * Real.pi * f * t))]

/-- The design matrix with the DC column first. `aout/_fit_sine_harmonics.py:99-101`. -/
noncomputable def harmonicCols (f : ℝ) (H : ℕ) : List (ℕ → ℝ) := (fun _ => 1) :: harmonicBasis f H

/-- `np.mean(np.atleast_2d(signal), axis=0)` of `runs` rows with `n` samples; a single column is read as one record. The pair is the length
and the record. `aout/decompose_harmonic_error.py:84-90`. -/
noncomputable def averageRuns (runs n : ℕ) (x : ℕ → ℕ → ℝ) : ℕ × (ℕ → ℝ) :=
  if n = 1 then (runs, fun t => x t 0) else (n, fun t => (∑ i ∈ range runs, x i t) / runs)

/-- `(p + pi) % (2 pi) - pi`. `aout/decompose_harmonic_error.py:165`. -/
noncomputable def wrapPhase (p : ℝ) : ℝ := pmod (p + Real.pi) (2 * Real.pi) - Real.pi

/-- The returned dictionary; entry `h` of the harmonic arrays is harmonic `h + 1`. `aout/decompose_harmonic_error.py:170-181`. -/
structure HarmonicSplit where
  magnitudes : ℕ → ℝ
  phases : ℕ → ℝ
  magnitudesDb : ℕ → ℝ
  residualRms : ℝ
  noiseDb : ℝ
  fundamentalFreq : ℝ
  noiseResidual : ℕ → ℝ
  reconstructed : ℕ → ℝ
  fundamental : ℕ → ℝ
  harmonic : ℕ → ℝ

/-- The part after the fundamental frequency is known, on the averaged record. `aout/decompose_harmonic_error.py:92-94, 105-181`. The
decibel values are in real arithmetic (`log10 0` is not minus infinity here); nothing is proved about them for a constant record. -/
noncomputable def harmonicSplit (solve : Lstsq) (N : ℕ) (y : ℕ → ℝ) (f : ℝ) (H : ℕ) : HarmonicSplit :=
  let dc := colMean N y
  let z := fun t => y t - dc
  let W := solve N (harmonicCols f H) z
  let recon := matVec (harmonicCols f H) W
  let fund := fun (t : ℕ) => W.getD 0 0 + Real.cos (2 * Real.pi * f * t) * W.getD 1 0 + Real.sin (2 * Real.pi * f * t) * W.getD 2 0
  let range := recMax N y - recMin N y
  let coef := fun (h : ℕ) => (⟨W.getD (1 + 2 * h) 0, W.getD (2 + 2 * h) 0⟩ : ℂ)
  let mags := fun h => ‖coef h‖ * 2
  let rms := Real.sqrt (colMean N fun t => (z t - recon t) ^ 2) * 2 * Real.sqrt 2
  { magnitudes := mags, phases := fun h => wrapPhase ((coef h).arg - (coef 0).arg * ((h : ℝ) + 1)),
    magnitudesDb := fun h => 20 * Real.logb 10 (mags h / range + 1 / 10 ^ 20), residualRms := rms, noiseDb := 20 * Real.logb 10 (rms / range),
    fundamentalFreq := f, noiseResidual := fun t => z t - recon t, reconstructed := fun t => recon t + dc,
    fundamental := fun t => fund t + dc, harmonic := fun t => recon t - fund t }

/-- `decompose_harmonic_error`. `aout/decompose_harmonic_error.py:84-181`. With no harmonic `np.column_stack([])` raises `ValueError`. -/
noncomputable def decomposeHarmonic (solve : Lstsq) (runs n : ℕ) (x : ℕ → ℕ → ℝ) (H : ℤ) (freq : Option ℝ) (maxIter : ℤ) (tol : ℝ) : Py HarmonicSplit :=
  let N := (averageRuns runs n x).1
  let y := (averageRuns runs n x).2
  match fitCore solve N (fun t => y t - colMean N y) freq maxIter tol with
  | .error e => .error e
  | .ok fit => if H ≤ 0 then .error .valueError else .ok (harmonicSplit solve N y fit.frequency H.toNat)

/-! ## Autocorrelation -/

/-- `e[:stop]`: a negative stop counts from the end. -/
def pyPrefix (e : List ℝ) (stop : ℤ) : List ℝ := e.take (if stop < 0 then (e.length : ℤ) + stop else stop).toNat

/-- `x1 * x2` for one-dimensional arrays: equal lengths, or one of length one, else `ValueError`. -/
def npMul (a b : List ℝ) : Py (List ℝ) :=
  if a.length = b.length then .ok (List.zipWith (· * ·) a b)
  else if a.length = 1 then .ok (b.map fun v => a.getD 0 0 * v)
  else if b.length = 1 then .ok (a.map fun v => v * b.getD 0 0)
  else .error .valueError

/-- One entry of the loop: `np.mean(x1 * x2)`, NaN (`none`) for empty slices. `aout/analyze_error_autocorr.py:86-96`. -/
noncomputable def acfAt (e : List ℝ) (lag : ℤ) : Py (Option ℝ) :=
  let x := if 0 ≤ lag then (if 0 < lag then (pyPrefix e (e.length - lag), e.drop lag.toNat) else (e, e))
    else (e.drop (-lag).toNat, pyPrefix e (e.length - -lag))
  match npMul x.1 x.2 with
  | .error err => .error err
  | .ok p => .ok (if p = [] then none else some (p.sum / p.length))

/-- The returned dictionary. `aout/analyze_error_autocorr.py:121-125`. -/
structure ErrorAcf where
  lags : List ℤ
  acf : List (Option ℝ)
  err : ℕ → ℝ

/-- `np.arange(-max_lag, max_lag + 1)`. `aout/analyze_error_autocorr.py:83`. -/
def acfLags (maxLag : ℤ) : List ℤ := (List.range (2 * maxLag + 1).toNat).map fun (k : ℕ) => (k : ℤ) - maxLag

/-- `acf / acf[lags == 0]`: a zero or missing lag-0 value gives NaN everywhere. `aout/analyze_error_autocorr.py:98-100`. -/
noncomputable def acfNormalize (zero : Option ℝ) (v : Option ℝ) : Option ℝ :=
  match zero, v with
  | some z, some a => if z = 0 then none else some (a / z)
  | _, _ => none

/-- `analyze_error_autocorr` on a one-dimensional record. `aout/analyze_error_autocorr.py:63-129`. -/
noncomputable def errorAutocorr (solve : Lstsq) (n : ℕ) (x : ℕ → ℝ) (freq : Option ℝ) (maxLag : ℤ) (normalize : Bool) (maxIter : ℤ) (tol : ℝ) : Py ErrorAcf :=
  match fitCore solve n x freq maxIter tol with
  | .error e => .error e
  | .ok fit =>
    let err := fun t => x t - fit.fitted t
    let e := (List.range n).map fun t => err t - colMean n err
    match (acfLags maxLag).mapM (acfAt e) with
    | .error er => .error er
    | .ok raw =>
      let zero := raw.getD maxLag.toNat none
      .ok { lags := acfLags maxLag, acf := if normalize then raw.map (acfNormalize zero) else raw, err := err }

end Verif.Model
