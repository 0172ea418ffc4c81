import Verif.Np.Basic

/-!
# Model of `timeinterleave/deinterleave.py`, `calibrate_foreground.py` and the Farrow delay

A one-dimensional numpy array is a list, a two-dimensional one the list of its rows. The dimension test of the code
(`x.ndim != 1`) is an explicit parameter `ndim`.
-/

namespace Verif.Model

open Verif

/-- `deinterleave(x, M)`. `timeinterleave/deinterleave.py:23-31`: `x.reshape(N // M, M).T`, i.e. row `m` of the result
holds the elements of column `m` of the row-major `(N // M, M)` matrix. Indices never leave the list
(see `C17_deinterleave_split`), the default `0` is not used. -/
def deinterleave {α : Type} [Zero α] (ndim : ℕ) (x : List α) (M : ℤ) : Py (List (List α)) :=
  if ndim ≠ 1 then .error .valueError
  else if M ≤ 0 then .error .valueError
  else if (x.length : ℤ) % M ≠ 0 then .error .valueError
  else
    let m := M.toNat
    .ok ((List.range m).map fun c => (List.range (x.length / m)).map fun r => x.getD (r * m + c) 0)

/-- `interleave(channels)`. `timeinterleave/deinterleave.py:47-50`: `channels.T.reshape(-1)` for an `(M, K)` array,
`K` being the common row length. -/
def interleave {α : Type} [Zero α] (ndim : ℕ) (ch : List (List α)) : Py (List α) :=
  if ndim ≠ 2 then .error .valueError
  else
    let M := ch.length
    let K := (ch.headD []).length
    .ok ((List.range (K * M)).map fun i => (ch.getD (i % M) []).getD (i / M) 0)

section

variable {K : Type} [Field K] [LinearOrder K] [IsStrictOrderedRing K]

/-- Body of the skew loop for one channel. `timeinterleave/calibrate_foreground.py:87-98`; storing the delayed row
into the channel matrix raises `ValueError` when its length differs (numpy broadcast error). The two delay functions
are parameters (modelled separately below and in `Model/FftDelay.lean`). -/
def skewRow (fft farrow : List K → K → K → Py (List K)) (method : String) (fsCh : K) (row : List K) (skew : K) :
    Py (List K) :=
  if |skew| < 1 / 10 ^ 18 then .ok row
  else do
    let y ← if method = "fft" then fft row skew fsCh
      else if method = "farrow" then farrow row skew fsCh
      else .error .valueError
    if y.length = row.length then .ok y else .error .valueError

/-- `for m in range(M): channels[m] = ...`: the rows are processed in order, the first error ends the loop.
`timeinterleave/calibrate_foreground.py:86-98`. -/
def skewLoop (fft farrow : List K → K → K → Py (List K)) (method : String) (fsCh : K) :
    List (List K) → List K → Py (List (List K))
  | row :: rows, s :: ss => do
    let r ← skewRow fft farrow method fsCh row s
    let rs ← skewLoop fft farrow method fsCh rows ss
    return r :: rs
  | _, _ => .ok []

/-- `calibrate_foreground(x, M, params, fs, skew_method=..., n_taps=...)`.
`timeinterleave/calibrate_foreground.py:65-100`. A zero gain divides by zero (inf/nan in numpy); theorems exclude it. -/
def calibrateForeground (fft farrow : List K → K → K → Py (List K)) (ndim : ℕ) (x : List K) (M : ℤ)
    (offset gain skew : List K) (fs : K) (method : String) : Py (List K) := do
  let ch ← deinterleave ndim x M
  if ¬ ((offset.length : ℤ) = M ∧ (gain.length : ℤ) = M ∧ (skew.length : ℤ) = M) then .error .valueError
  else
    let ch := List.zipWith (fun row (og : K × K) => row.map fun v => (v - og.1) / og.2) ch (offset.zip gain)
    let ch ← skewLoop fft farrow method (fs / M) ch skew
    interleave 2 ch

/-! ### Farrow (Lagrange) delay -/

/-- `_integer_shift_zero_pad(x, D)`. `timeinterleave/fractional_delay.py:114-123`; for `|D| ≥ N` both slices are empty
and the result is all zeros. -/
def integerShift (x : List K) (D : ℤ) : List K :=
  if D = 0 then x
  else if D > 0 then
    List.replicate (min D.toNat x.length) 0 ++ x.take (x.length - D.toNat)
  else
    x.drop (-D).toNat ++ List.replicate (min (-D).toNat x.length) 0

/-- The inner product loop for tap `i`. `timeinterleave/fractional_delay.py:106-110`. -/
def lagrangeTap (n : ℕ) (p : K) (i : ℕ) : K :=
  (List.range n).foldl (fun h (j : ℕ) => if j ≠ i then h * ((p - j) / ((i : K) - j)) else h) 1

/-- `h`, all taps. `timeinterleave/fractional_delay.py:106-110`. -/
def lagrangeTaps (n : ℕ) (p : K) : List K := (List.range n).map (lagrangeTap n p)

/-- Sample `k` of the full convolution of `a` and `b`. -/
def convFull (a b : List K) (k : ℕ) : K :=
  ((List.range (k + 1)).map fun i => a.getD i 0 * b.getD (k - i) 0).sum

/-- `np.convolve(a, b, mode="same")`: the central `max(len a, len b)` samples of the full convolution, starting at
`(min(len a, len b) - 1) // 2`; empty operands raise `ValueError`. -/
def convolveSame (a b : List K) : Py (List K) :=
  if a.length = 0 ∨ b.length = 0 then .error .valueError
  else .ok ((List.range (max a.length b.length)).map fun t => convFull a b (t + (min a.length b.length - 1) / 2))

variable [FloorRing K]

/-- `fractional_delay_farrow(x, delay_sec, fs, n_taps)`. `timeinterleave/fractional_delay.py:90-111`. -/
def farrowDelay (ndim : ℕ) (x : List K) (delay fs : K) (nTaps : ℤ) : Py (List K) :=
  if nTaps % 2 = 0 ∨ nTaps < 1 then .error .valueError
  else if ndim ≠ 1 then .error .valueError
  else
    let D := delay * fs
    let Dint := rint D
    let dfrac := D - Dint
    let y := integerShift x Dint
    let n := nTaps.toNat
    convolveSame y (lagrangeTaps n (((n / 2 : ℕ) : K) + dfrac))

end

end Verif.Model
