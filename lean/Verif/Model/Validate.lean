import Verif.Np.Vec
import Verif.Np.Basic

/-!
# Model of `fundamentals/validate.py`
-/

namespace Verif.Model

open Verif

variable {K : Type} [Field K] [LinearOrder K]

/-- The classes of numpy dtypes the checks distinguish. -/
inductive Dtype where
  | bool
  | int
  | float
  | complex
  | other
  deriving DecidableEq

/-- One array element: a finite number, NaN or an infinity. (For complex data the value is not looked at.) -/
inductive Elem (K : Type) where
  | fin (v : K)
  | nan
  | inf
  deriving DecidableEq

/-- What `np.asarray` returned: shape, dtype and the elements in row-major order. -/
structure NdArr (K : Type) where
  shape : List ℕ
  dtype : Dtype
  data : List (Elem K)

/-- The number of elements is the product of the shape. -/
def NdArr.WF (a : NdArr K) : Prop := a.data.length = a.shape.prod

/-- `np.issubdtype(dtype, np.number)`: booleans are not numbers. External function, used at `fundamentals/validate.py:24`. -/
def Dtype.isNumber : Dtype → Bool
  | .int => true
  | .float => true
  | .complex => true
  | .bool => false
  | .other => false

/-- `np.isfinite` of one element. -/
def Elem.isFinite : Elem K → Bool
  | .fin _ => true
  | _ => false

/-- `np.isnan` of one element. -/
def Elem.isNan : Elem K → Bool
  | .nan => true
  | _ => false

/-- `np.isinf` of one element. -/
def Elem.isInf : Elem K → Bool
  | .inf => true
  | _ => false

/-- The value of a finite element. -/
def Elem.val : Elem K → K
  | .fin v => v
  | _ => 0

/-- `_validate_basic_integrity`. `fundamentals/validate.py:10-38`. -/
def validateBasic (a : NdArr K) : Py Unit :=
  if a.data.length = 0 then .error .valueError
  else if a.dtype.isNumber = false then .error .valueError
  else if a.dtype = .complex then .error .valueError
  else if ¬ a.data.all Elem.isFinite then
    if a.data.any Elem.isNan then .error .valueError
    else if a.data.any Elem.isInf then .error .valueError
    else .ok ()
  else .ok ()

/-- The warnings that can be emitted. -/
inductive Warn where
  | lowAmplitude
  | moreBitsThanSamples
  | stuckLow (bits : List ℕ)
  | stuckHigh (bits : List ℕ)
  deriving DecidableEq

/-- Outcome of a validation: the warnings emitted, in order, and the exception raised, if any. -/
structure Checked where
  warns : List Warn
  err : Option PyErr
  deriving DecidableEq

/-- `np.ptp(data)` of a non-empty array in exact arithmetic (small integer dtypes can overflow in numpy). -/
def ptp (l : List K) : K :=
  match l with
  | [] => 0
  | a :: l => maxOf a l - minOf a l

/-- `validate_aout_data`. `fundamentals/validate.py:40-67`. `max(())` for a 0-dimensional array raises `ValueError`. -/
def validateAout (a : NdArr K) (minSamples : ℤ) : Checked :=
  match validateBasic a with
  | .error e => ⟨[], some e⟩
  | .ok () =>
    if 2 < a.shape.length then ⟨[], some .valueError⟩
    else
      match a.shape with
      | [] => ⟨[], some .valueError⟩
      | d :: ds =>
        let n := if a.shape.length = 1 then d else maxOf d ds
        if (n : ℤ) < minSamples then ⟨[], some .valueError⟩
        else
          let range := ptp (a.data.map Elem.val)
          if range = 0 then ⟨[], some .valueError⟩
          else if range < 1 / 10 ^ 10 then ⟨[.lowAmplitude], none⟩
          else ⟨[], none⟩

/-- Entry at row `r` and column `c` of a two-dimensional array with `cols` columns. -/
def NdArr.at2 (a : NdArr K) (cols r c : ℕ) : K := (a.data.map Elem.val).getD (r * cols + c) 0

/-- `np.sum(data, axis=0)`. `fundamentals/validate.py:108`. -/
def bitSum (a : NdArr K) (rows cols c : ℕ) : K := ((List.range rows).map fun r => a.at2 cols r c).sum

/-- The stuck-bit warnings. `fundamentals/validate.py:106-117`. -/
def stuckWarnings (a : NdArr K) (rows cols : ℕ) : List Warn :=
  let low := (List.range cols).filter fun c => decide (bitSum a rows cols c = 0)
  let high := (List.range cols).filter fun c => decide (bitSum a rows cols c = rows)
  (if 0 < low.length then [.stuckLow low] else []) ++ (if 0 < high.length then [.stuckHigh high] else [])

/-- `validate_dout_data`. `fundamentals/validate.py:69-117`. -/
def validateDout (a : NdArr K) (minSamples : ℤ) : Checked :=
  match validateBasic a with
  | .error e => ⟨[], some e⟩
  | .ok () =>
    match a.shape with
    | [rows, cols] =>
      let w : List Warn := if rows < cols then [.moreBitsThanSamples] else []
      if (rows : ℤ) < minSamples then ⟨w, some .valueError⟩
      else if cols < 1 then ⟨w, some .valueError⟩
      else if ¬ (a.data.map Elem.val).all (fun v => decide (v = 0) || decide (v = 1)) then ⟨w, some .valueError⟩
      else ⟨w ++ stuckWarnings a rows cols, none⟩
    | _ => ⟨[], some .valueError⟩

end Verif.Model
