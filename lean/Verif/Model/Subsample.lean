import Verif.Np.Basic
import Mathlib.Algebra.Order.Floor.Ring
import Mathlib.Algebra.Order.Field.Basic

/-!
# Model of the subsampling example

`examples/09_downsample/exp_d00_subsample_aliasing.py` (path below `python/src/adctoolbox`): the downsampler without anti-alias filter and the alias predictor.
-/

namespace Verif.Model

section

/-- Python's `s[start::step]` for `0 ≤ start`, `0 < step`: the entries at `start, start + step, ...` in order. -/
def sliceStep {α : Type} (s : List α) (start step : ℕ) : List α :=
  (s.zipIdx.filter fun q => decide (start ≤ q.2 ∧ (q.2 - start) % step = 0)).map Prod.fst

/-- `subsample(signal, n)`. `exp_d00_subsample_aliasing.py:31-34`; a zero slice step raises `ValueError`. Negative `n` (a reversed slice) is not modelled. -/
def subsample {α : Type} (s : List α) (n : ℕ) : Py (List α) :=
  if n = 0 then .error .valueError else .ok (sliceStep s (n - 1) n)

variable {K : Type} [Field K] [LinearOrder K] [FloorRing K]

/-- `alias_freq(f, fs)`. `exp_d00_subsample_aliasing.py:37-42`; `fs = 0` raises `ZeroDivisionError`. -/
def aliasFreq (f fs : K) : Py K :=
  if fs = 0 then .error .zeroDivision
  else
    let m := f - fs * ⌊f / fs⌋
    .ok (if m > fs / 2 then fs - m else m)

/-- `aliased_hd2`, `aliased_hd3`: whether a predicted position differs from the frequency itself. `exp_d00_subsample_aliasing.py:97-100`. -/
def aliasedFlag (f fs : K) : Py Bool :=
  match aliasFreq f fs with
  | .error e => .error e
  | .ok v => .ok (decide (v ≠ f))

end

end Verif.Model
