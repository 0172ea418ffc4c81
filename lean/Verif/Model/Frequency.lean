import Verif.Np.Basic
import Mathlib.Data.List.Sort

/-!
# Model of `fundamentals/frequency.py`
-/

namespace Verif.Model

open Verif

variable {K : Type} [Field K] [LinearOrder K] [IsStrictOrderedRing K] [FloorRing K]

/-- `range(a, b)` over Python ints (empty when `b ≤ a`). -/
def pyRange (a b : ℤ) : List ℤ := (List.range (b - a).toNat).map fun (i : ℕ) => a + (i : ℤ)

/-- The filter applied inside the search loop.
`fundamentals/frequency.py:61-70` (`bin <= 0` skip, `force_odd` and even skip, `gcd == 1`). -/
def coherentOk (nFft : ℤ) (forceOdd : Bool) (b : ℤ) : Bool :=
  if b ≤ 0 then false
  else if forceOdd && b % 2 == 0 then false
  else Int.gcd b nFft == 1

/-- The candidate list `[(dist, bin)]` in loop order. `fundamentals/frequency.py:53-73`. -/
def coherentCandidates (target : K) (nFft : ℤ) (forceOdd : Bool) (radius : ℤ) : List (K × ℤ) :=
  let center := rint target
  ((pyRange (-radius) (radius + 1)).map (fun i => center + i)).filter (coherentOk nFft forceOdd)
    |>.map fun (b : ℤ) => (|((b : ℤ) : K) - target|, b)

/-- `find_coherent_frequency(fs, fin_target, n_fft, force_odd, search_radius)`.
`fundamentals/frequency.py:12-88`. Python's stable `list.sort(key=dist)` is modelled by the (stable)
insertion sort on the key. Division by a zero `fs` or `n_fft` raises `ZeroDivisionError`.
Simplification: exact arithmetic instead of floats. -/
def findCoherentFrequency (fs finTarget : K) (nFft : ℤ) (forceOdd : Bool) (radius : ℤ) :
    Py (K × ℤ) :=
  if fs = 0 then .error .zeroDivision
  else
    let target := finTarget / fs * nFft
    match (coherentCandidates target nFft forceOdd radius).insertionSort (fun a b => a.1 ≤ b.1) with
    | [] => .error .valueError
    | (_, best) :: _ =>
      if nFft = 0 then .error .zeroDivision else .ok (best * fs / nFft, best)

/-- `fold_frequency_to_nyquist(fin, fs)` for one frequency. `fundamentals/frequency.py:122`
(arrays are mapped elementwise by numpy). Simplification: `fs ≠ 0` is assumed by the theorems
(numpy yields NaN with a warning for `fs = 0`). -/
def foldFrequency (fin fs : K) : K := |fin - fs * rint (fin / fs)|

/-- `fold_bin_to_nyquist(bin_idx, n_fft)`. `fundamentals/frequency.py:161-168`.
`bin_idx % 0` raises `ZeroDivisionError`; negative `n_fft` is outside the model. -/
def foldBin (bin : K) (nFft : ℕ) : Py K :=
  if nFft = 0 then .error .zeroDivision
  else
    let b := pmod bin (nFft : K)
    if b > ((nFft / 2 : ℕ) : K) then .ok (nFft - b) else .ok b

end Verif.Model
