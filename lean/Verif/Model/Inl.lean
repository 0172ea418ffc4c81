import Verif.Model.Dout
import Mathlib.Analysis.SpecialFunctions.Trigonometric.Basic

/-!
# Model of `aout/compute_inl_from_ramp.py` and `aout/compute_inl_from_sine.py`
-/

namespace Verif.Model

open Verif

/-- `np.cumsum`. -/
def cumsum {K : Type} [AddCommMonoid K] (l : List K) : List K := (List.range l.length).map fun i => (l.take (i + 1)).sum

section Ramp

variable {K : Type} [Field K] [LinearOrder K]

/-- `_validate_code_limits`. `aout/compute_inl_from_ramp.py:14-39`. The integer-type checks are in the types. -/
def validateLimits (numBits : Option ℤ) (codeMin : ℤ) (codeMax : Option ℤ) : Py (Option ℤ) :=
  if (∃ b ∈ numBits, b ≤ 0) then .error .valueError
  else
    match codeMax, numBits with
    | none, none => .ok none
    | none, some b => .ok (some (codeMin + 2 ^ b.toNat - 1))
    | some m, _ => if m < codeMin then .error .valueError else .ok (some m)

/-- `_coerce_integer_codes`. `aout/compute_inl_from_ramp.py:42-55`. All numbers are finite here; with zero tolerances `allclose` is
equality. -/
def coerceCodes [FloorRing K] (codes : List K) : Py (List ℤ) :=
  if codes = [] then .error .valueError
  else if codes.all (fun c => decide (c = (rint c : K))) then .ok (codes.map rint)
  else .error .valueError

/-- The `endpoint` argument after `.lower()`; everything else (including non-strings) is `other`.
`aout/compute_inl_from_ramp.py:59-80`. -/
inductive Endpoint where
  | none
  | endpoints
  | fit
  | other
deriving DecidableEq

/-- `np.linspace(a, b, n)[i]` for `n ≥ 2`. -/
def linspaceAt (a b : K) (n i : ℕ) : K := a + (i : K) * ((b - a) / ((n : K) - 1))

/-- `np.mean`. -/
def meanOf (l : List K) : K := l.sum / l.length

/-- `np.polyfit(x, y, 1)` as (slope, intercept). numpy solves the least-squares problem numerically; for at least two distinct `x` its
exact solution is this closed form. -/
def lineFit (x y : List K) : K × K :=
  let xm := meanOf x
  let ym := meanOf y
  let slope := (x.zipWith (fun a b => (a - xm) * (b - ym)) y).sum / (x.map fun a => (a - xm) ^ 2).sum
  (slope, ym - slope * xm)

/-- `_correct_inl`. `aout/compute_inl_from_ramp.py:58-80`. -/
def correctInl (raw : List K) (code : List ℤ) : Endpoint → Py (List K)
  | .none => .ok raw
  | .endpoints =>
    if raw = [] then .ok raw
    else if raw.length = 1 then .ok (raw.map fun r => r - raw.headD 0)
    else .ok ((List.range raw.length).map fun i => raw.getD i 0 - linspaceAt (raw.headD 0) (raw.getLastD 0) raw.length i)
  | .fit =>
    if raw = [] then .ok raw
    else if raw.length = 1 then .ok (raw.map fun r => r - raw.headD 0)
    else
      let x := code.map fun (c : ℤ) => (c : K)
      let f := lineFit x raw
      .ok (raw.zipWith (fun r a => r - (f.1 * a + f.2)) x)
  | .other => if raw = [] then .ok raw else .error .valueError

/-- The returned dictionary (`endpoint`, `exclude_endpoints`, `num_bits` are echoes of the arguments and left out). -/
structure RampInl (K : Type) where
  code : List ℤ
  counts : List ℕ
  dnl : List K
  transitionCode : List ℤ
  inl : List K
  rawInl : List K
  missing : List ℤ
  idealCount : K
  dnlMin : K
  dnlMax : K
  inlMin : K
  inlMax : K
  codeMin : ℤ
  codeMax : ℤ

/-- Histogram over `n` consecutive codes from `lo`. `aout/compute_inl_from_ramp.py:158-162`. -/
def histogram (codes : List ℤ) (lo : ℤ) (n : ℕ) : List ℕ := (List.range n).map fun (i : ℕ) => codes.count (lo + (i : ℤ))

/-- `full[slice(1, -1)]` or all of it. `aout/compute_inl_from_ramp.py:164-170`. -/
def analyzed {α : Type} (exclude : Bool) (l : List α) : List α := if exclude && decide (2 < l.length) then l.tail.dropLast else l

/-- The statistics part. `aout/compute_inl_from_ramp.py:158-205`. -/
def rampStatistics (codes : List ℤ) (lo hi : ℤ) (endpoint : Endpoint) (exclude : Bool) : Py (RampInl K) :=
  let n := (hi + 1 - lo).toNat
  let code := analyzed exclude ((List.range n).map fun (i : ℕ) => lo + (i : ℤ))
  let counts := analyzed exclude (histogram codes lo n)
  if counts = [] ∨ counts.sum = 0 then .error .valueError
  else
    let ideal : K := meanOf (counts.map fun (c : ℕ) => (c : K))
    if ideal ≤ 0 then .error .valueError
    else
      let dnl := counts.map fun (c : ℕ) => max ((c : K) / ideal - 1) (-1)
      let first := code.headD 0
      let trans := (List.range ((code.getLastD 0 + 2 - first).toNat)).map fun (i : ℕ) => first + (i : ℤ)
      let raw := (0 : K) :: cumsum dnl
      match correctInl raw trans endpoint with
      | .error e => .error e
      | .ok inl => .ok
        { code := code, counts := counts, dnl := dnl, transitionCode := trans, inl := inl, rawInl := raw
          missing := ((code.zip counts).filter fun p => decide (p.2 = 0)).map Prod.fst
          idealCount := ideal
          dnlMin := foldMin (dnl.headD 0) dnl, dnlMax := foldMax (dnl.headD 0) dnl
          inlMin := foldMin (inl.headD 0) inl, inlMax := foldMax (inl.headD 0) inl
          codeMin := lo, codeMax := hi }

/-- `np.max` of an integer list (first element as start). -/
def intMax (l : List ℤ) : ℤ := l.foldl max (l.headD 0)

/-- `np.min` of an integer list. -/
def intMin (l : List ℤ) : ℤ := l.foldl min (l.headD 0)

/-- `compute_inl_from_ramp`. `aout/compute_inl_from_ramp.py:145-205`. -/
def inlFromRamp [FloorRing K] (codes : List K) (numBits : Option ℤ) (codeMin : ℤ) (codeMax : Option ℤ) (endpoint : Endpoint) (exclude : Bool) :
    Py (RampInl K) :=
  match validateLimits numBits codeMin codeMax with
  | .error e => .error e
  | .ok lim =>
    match coerceCodes codes with
    | .error e => .error e
    | .ok ints =>
      if lim = none ∧ intMax ints < codeMin then .error .valueError
      else
        let hi := lim.getD (intMax ints)
        if ints.any (fun c => decide (c < codeMin) || decide (hi < c)) then .error .valueError
        else rampStatistics ints codeMin hi endpoint exclude

end Ramp

/-! ## Sine histogram -/

open Classical in
/-- Conversion of the record to integer codes. `aout/compute_inl_from_sine.py:38-90`. `isFloat` says whether the array has a floating
dtype. `num_bits` is a natural number here; in the code branch it is computed but never used. A zero `full_scale` (numpy: inf, then an
arbitrary integer) gives 0 here. -/
noncomputable def sineCodes (data : List ℝ) (isFloat : Bool) (numBits : Option ℕ) (fullScale : Option ℝ) : List ℤ :=
  let lo := foldMin (data.headD 0) data
  let hi := foldMax (data.headD 0) data
  if isFloat = true ∧ hi - lo ≤ 2 then
    let adc : ℤ := 2 ^ (numBits.getD 10)
    let raw : List ℤ :=
      match fullScale with
      | some fs => data.map fun d => rint (d / fs * (adc : ℝ))
      | none => if lo < -(1 / 10) then data.map fun d => rint ((d + 1) / 2 * (adc : ℝ)) else data.map fun d => rint (d * (adc : ℝ))
    raw.map fun c => clip c 0 (adc - 1)
  else data.map rint

/-- What `compute_inl_from_sine` returns. -/
structure SineInl where
  inl : List ℝ
  dnl : List ℝ
  code : List ℤ

/-- `-cos(pi * cumsum(counts) / sum(counts))`. `aout/compute_inl_from_sine.py:112`. -/
noncomputable def cosTransform (counts : List ℕ) : List ℝ :=
  (cumsum counts).map fun (c : ℕ) => -Real.cos (Real.pi * (c : ℝ) / (counts.sum : ℝ))

/-- `np.diff`. -/
def diffs (l : List ℝ) : List ℝ := l.tail.zipWith (fun b a => b - a) l

/-- From the histogram over the kept code range to DNL. `aout/compute_inl_from_sine.py:112-132`. If no sample falls on an interior
code the sum of the differences is zero and numpy returns NaN; here `x / 0 = 0`. -/
noncomputable def sineDnl (counts : List ℕ) : List ℝ :=
  let d := diffs (cosTransform counts).dropLast
  let p := d.map fun x => x / d.sum
  let q := p.map fun (x : ℝ) => x * (counts.length : ℝ) - 1
  q.map fun x => max (x - meanOf q) (-1)

/-- Kept code range `(c_min, c_max)`. `aout/compute_inl_from_sine.py:93-100`. -/
noncomputable def keptRange (codes : List ℤ) (clipPercent : ℝ) : ℤ × ℤ :=
  let lo := intMin codes
  let hi := intMax codes
  let ex : ℤ := rint (clipPercent * ((hi - lo : ℤ) : ℝ))
  (min (lo + ex) (hi - ex), hi - ex)

/-- `compute_inl_from_sine`. `aout/compute_inl_from_sine.py:38-137`. `np.min` of an empty record raises `ValueError`. -/
noncomputable def inlFromSine (data : List ℝ) (isFloat : Bool) (numBits : Option ℕ) (fullScale : Option ℝ) (clipPercent : ℝ) : Py SineInl :=
  if data = [] then .error .valueError
  else
    let codes := sineCodes data isFloat numBits fullScale
    let r := keptRange codes clipPercent
    let n := (r.2 + 1 - r.1).toNat
    let clipped := codes.map fun c => clip c r.1 r.2
    let dnl := sineDnl (histogram clipped r.1 n)
    .ok { inl := cumsum dnl, dnl := dnl, code := ((List.range n).map fun (i : ℕ) => r.1 + (i : ℤ)).dropLast.dropLast }

end Verif.Model
