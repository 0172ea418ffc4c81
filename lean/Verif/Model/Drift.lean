import Verif.Model.SigGen
import Mathlib.Analysis.SpecialFunctions.Trigonometric.Basic

/-!
# Model of `apply_drift` with its filter (`siggen/nonidealities.py:311-318`)

`scipy.signal.butter(2, Wn)` and `scipy.signal.filtfilt` are written out as scipy defines them for a filter of second order with the default
arguments (`padtype='odd'`, `padlen = 3 * 3`). `Gen.drift` in `Model/SigGen.lean` leaves the filter open.
-/

namespace Verif.Model

open Verif Finset

/-- The coefficients `b`, `a` of a filter of second order with `a[0] = 1`. Used at `siggen/nonidealities.py:316`. -/
structure Biquad (K : Type) where
  b0 : K
  b1 : K
  b2 : K
  a1 : K
  a2 : K

/-- `scipy.signal.butter(2, Wn)`: the analog prototype `1 / (s² + √2 s + 1)` scaled to the prewarped cutoff `tan(π Wn / 2)` and mapped by
`s = (z - 1) / (z + 1)`. scipy forms zeros, poles and gain; here the polynomials are multiplied out. `siggen/nonidealities.py:316`. -/
noncomputable def butter2 (wn : ℝ) : Biquad ℝ :=
  let k := Real.tan (Real.pi * wn / 2)
  let s := 1 + √2 * k + k ^ 2
  { b0 := k ^ 2 / s
    b1 := 2 * (k ^ 2 / s)
    b2 := k ^ 2 / s
    a1 := 2 * (k ^ 2 - 1) / s
    a2 := (1 - √2 * k + k ^ 2) / s }

section Filter

variable {K : Type} [Field K]

/-- State of the transposed direct form II inside `scipy.signal.lfilter`, before sample `n`. Called by `filtfilt`, `siggen/nonidealities.py:317`. -/
def Biquad.state (q : Biquad K) (x : ℕ → K) (z : K × K) : ℕ → K × K
  | 0 => z
  | n + 1 =>
    let s := q.state x z n
    let y := q.b0 * x n + s.1
    (q.b1 * x n - q.a1 * y + s.2, q.b2 * x n - q.a2 * y)

/-- Output of `scipy.signal.lfilter(b, a, x, zi=z)`. Called by `filtfilt`, `siggen/nonidealities.py:317`. -/
def Biquad.lfilter (q : Biquad K) (x : ℕ → K) (z : K × K) (n : ℕ) : K := q.b0 * x n + (q.state x z n).1

/-- `scipy.signal.lfilter_zi(b, a)`: the state in which a constant one gives a constant output. Called by `filtfilt`,
`siggen/nonidealities.py:317`. -/
def Biquad.zi (q : Biquad K) : K × K :=
  let c1 := q.b1 - q.a1 * q.b0
  let c2 := q.b2 - q.a2 * q.b0
  let z0 := (c1 + c2) / (1 + q.a1 + q.a2)
  (z0, (1 + q.a1) * z0 - c1)

/-- Number of samples added at each end, `3 * max(len(a), len(b))`. Inside `filtfilt`, `siggen/nonidealities.py:317`. -/
def padLen : ℕ := 9

/-- `odd_ext(x, 9)` for a record of `N` samples: point reflection about the first and the last sample. Inside `filtfilt`,
`siggen/nonidealities.py:317`. -/
def oddExt (x : ℕ → K) (N n : ℕ) : K :=
  if n < padLen then 2 * x 0 - x (padLen - n)
  else if n < padLen + N then x (n - padLen)
  else 2 * x (N - 1) - x (N - 2 - (n - (padLen + N)))

/-- The samples `scipy.signal.filtfilt(b, a, x)` returns: extend, filter forward from the state that fits the first value, filter backward from the
state that fits the last one, cut the extension off. `siggen/nonidealities.py:317`. -/
def Biquad.twoPass (q : Biquad K) (x : ℕ → K) (N i : ℕ) : K :=
  let e := oddExt x N
  let last := N + 2 * padLen - 1
  let y := q.lfilter e (q.zi.1 * e 0, q.zi.2 * e 0)
  let back := q.lfilter (fun m => y (last - m)) (q.zi.1 * y last, q.zi.2 * y last)
  back (last - (i + padLen))

/-- `scipy.signal.filtfilt(b, a, x)`. A record no longer than the extension is refused. `siggen/nonidealities.py:317`. -/
def Biquad.filtfilt (q : Biquad K) (x : ℕ → K) (N : ℕ) : Py (ℕ → K) :=
  if N ≤ padLen then .error .valueError else .ok (q.twoPass x N)

end Filter

/-- `apply_drift` with standard normal draws `z`. `siggen/nonidealities.py:311-318`. -/
noncomputable def Gen.applyDrift (g : Gen) (input : Option (ℕ → ℝ)) (scale : ℝ) (z : ℕ → ℝ) : Py (ℕ → ℝ) := do
  let signal := g.resolve input
  let steps : ℕ → ℝ := fun k => z k * scale
  let walk : ℕ → ℝ := fun j => ∑ k ∈ range (j + 1), steps k
  let drift ← (butter2 (1 / 1000)).filtfilt walk g.n
  pure fun i => signal i + drift i

end Verif.Model
