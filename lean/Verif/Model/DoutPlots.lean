import Verif.Model.Dout
import Verif.Model.Plots
import Verif.Np.Vec

/-!
# Model of the plots of the digital-output reports

The numbers, positions and texts put into the plots of `dout/`. Drawing itself is left out; a plot is described by what is placed where.
-/

namespace Verif.Model

open Verif

variable {K : Type} [Field K] [LinearOrder K] [IsStrictOrderedRing K] [FloorRing K]

/-! ## Bit activity -/

/-- `max_dev_idx`. `dout/analyze_bit_activity.py:47`. -/
def activityMark (usage : List K) : ℕ := argmax (usage.map fun u => |u - 50|)

/-- Text over the highlighted bar, without the forced sign. `dout/analyze_bit_activity.py:48, 53`. -/
def activityLabel (usage : List K) : NumText := fmtFixed (usage.getD (activityMark usage) 0 - 50) 2 "%"

/-- Height at which the text is put. `dout/analyze_bit_activity.py:53`. -/
def activityLabelHeight (usage : List K) : K := usage.getD (activityMark usage) 0 + 8 / 10

/-- The vertical axis. `dout/analyze_bit_activity.py:58`. -/
def activityLimits : K × K := (40, 60)

/-! ## ENOB sweep -/

/-- `delta_enob` for finite values. `dout/analyze_enob_sweep.py:114`. -/
def enobDelta (e : List K) : List K := e.headD 0 :: e.zipWith (fun a b => b - a) e.tail

/-- The vertical axis. `dout/analyze_enob_sweep.py:109-111`. -/
def enobLimits (a : K) (l : List K) : K × K := (minOf a l - 5 / 10, maxOf a l + 2)

/-- `y_offset`. `dout/analyze_enob_sweep.py:116-119`. -/
def enobOffset (a : K) (l : List K) : K := (maxOf a l - minOf a l) * (6 / 100)

/-- Text at point `i`: what precedes the number, and the number. `dout/analyze_enob_sweep.py:123-127`. -/
def enobText (i : ℕ) (d : K) : String × NumText := (if i = 0 then "" else "+", fmtFixed d 2 "")

/-- Red component of the text colour (the others are 0). `dout/analyze_enob_sweep.py:125, 128-129`. -/
def enobRed (i : ℕ) (d : K) : K := if i = 0 then 0 else 1 - max 0 (min 1 d)

/-! ## Overflow -/

/-- Colour of a dot. -/
inductive Dot
  | blue
  | red
  | yellow
deriving DecidableEq, Repr

/-- Dots drawn for one sample in column `ii`: colour and horizontal position. `dout/analyze_overflow.py:97, 117-151`. -/
def overflowDots (zero one : Bool) (ii : ℕ) : List (Dot × K) :=
  (if !(zero || one) then [(.blue, (ii : K) + 1)] else []) ++ (if one then [(.red, (ii : K) + 1 - 2 / 10)] else []) ++
    (if zero then [(.yellow, (ii : K) + 1 + 2 / 10)] else [])

/-- `alpha`. `dout/analyze_overflow.py:116`. -/
def overflowAlpha (N : ℕ) : K := min (max (10 / (N : K)) (1 / 100)) 1

/-- Tick label of column `ii`. `dout/analyze_overflow.py:161-162`. -/
def overflowTick (M ii : ℕ) : ℤ := (M : ℤ) - ii

/-! ## Weight radix -/

/-- `msb_idx` and `lsb_idx`; `sortIdx` is `np.argsort(abs_weights)[::-1]`. `dout/analyze_weight_radix.py:79-94`. -/
def radixMarks (sortIdx : List ℕ) (weights : List K) : ℕ × ℕ :=
  let sorted := sortIdx.map fun i => |weights.getD i 0|
  (sortIdx.getD 0 0, sortIdx.getD (sigBreak sorted) 0)

/-- The texts `MSB` and `LSB` with their positions. `dout/analyze_weight_radix.py:154-163`. -/
def radixLabels (sortIdx : List ℕ) (weights : List K) : List (String × ℕ × K) :=
  let m := radixMarks sortIdx weights
  ("MSB", m.1 + 1, |weights.getD m.1 0| / (3 / 2)) :: (if m.2 ≠ m.1 then [("LSB", m.2 + 1, |weights.getD m.2 0| / (3 / 2))] else [])

/-- Bits drawn with the marker of positive weights. `dout/analyze_weight_radix.py:68, 126`. -/
def radixPositive (weights : List K) : List ℕ := (List.range weights.length).filter fun i => !decide (weights.getD i 0 < 0)

/-- Bits drawn with the marker of negative weights. `dout/analyze_weight_radix.py:68, 134`. -/
def radixNegative (weights : List K) : List ℕ := (List.range weights.length).filter fun i => decide (weights.getD i 0 < 0)

/-- Text over bit `b` and its position; drawn for `b = 1 .. n_bits - 1`. `dout/analyze_weight_radix.py:179-182`. Only finite radixes. -/
def radixText (weights : List K) (b : ℕ) : Option (ℕ × K × NumText) :=
  ((radixList weights).getD b none).map fun r => (b + 1, |weights.getD b 0| * (3 / 2), fmtFixed r 2 "")

/-! ## Residual scatter -/

/-- `n_cols` and `n_rows`. `dout/plot_residual_scatter.py:91-93`. Without pairs the division fails. -/
def scatterGrid (n : ℕ) : Py (ℕ × ℕ) :=
  let cols := min n 4
  if cols = 0 then .error .zeroDivision else .ok (cols, (⌈(n : K) / (cols : K)⌉).toNat)

/-- Row and column of plot `k`. `dout/plot_residual_scatter.py:97, 106`. -/
def scatterCell (cols k : ℕ) : ℕ × ℕ := (k / cols, k % cols)

/-- `alpha` for `'auto'`. `dout/plot_residual_scatter.py:70-71`. -/
def scatterAlpha (n : ℕ) : K := min (max (1000 / (n : K)) (1 / 10)) 1

end Verif.Model
