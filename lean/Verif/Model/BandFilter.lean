import Verif.Model.Frequency
import Verif.Model.Spectrum
import Verif.Np.Dft

/-!
# Model of `spectrum/extract_freq_components.py` (and `oversampling/ifilter.py`, a plain alias)
-/

namespace Verif.Model

open Verif

section

variable {K : Type} [Field K] [LinearOrder K] [FloorRing K]

/-- Checks on `bands`, already 2-D (a 1-D argument is one row). `spectrum/extract_freq_components.py:42-49`. Each row is
returned as `(min, max)`, the only way the code uses it (lines 57-58). -/
def checkBands (bands : List (List K)) : Py (List (K × K)) :=
  if bands = [] ∨ ∃ r ∈ bands, r.length ≠ 2 then .error .valueError
  else if ∃ r ∈ bands, ∃ v ∈ r, v < 0 ∨ 1 / 2 < v then .error .valueError
  else .ok (bands.map fun r => (min (r.getD 0 0) (r.getD 1 0), max (r.getD 0 0) (r.getD 1 0)))

/-- `ids` of one band. `spectrum/extract_freq_components.py:55-59`. -/
def bandIds (N : ℕ) (b : K × K) : List ℤ :=
  let n1 := rint (b.1 * (N : K))
  let n2 := rint (b.2 * (N : K))
  (List.range (n2 + 1 - n1).toNat).map fun (i : ℕ) => rint (foldFrequency ((n1 + (i : ℤ) : ℤ) : K) (N : K))

/-- `mask[k] == 1`. `spectrum/extract_freq_components.py:52, 61-67`: the bins `ids` and, for `0 < id < N // 2`, `N - id`. -/
def bandMask (N : ℕ) (bands : List (K × K)) (k : ℕ) : Bool :=
  bands.any fun b => (bandIds N b).any fun id =>
    decide (id = (k : ℤ)) || (decide (0 < id) && decide (id < ((N / 2 : ℕ) : ℤ)) && decide ((N : ℤ) - id = (k : ℤ)))

end

/-- `np.real(np.fft.ifft(np.fft.fft(x) * mask))`. `spectrum/extract_freq_components.py:51, 70-71`. -/
noncomputable def maskFilter (N : ℕ) (mask : ℕ → Bool) (x : ℕ → ℝ) (n : ℕ) : ℝ :=
  (idft N (fun k => dft N (fun i => (x i : ℂ)) k * (if mask k then 1 else 0)) n).re

/-- `extract_freq_components(din, bands)`. `spectrum/extract_freq_components.py:28-73`. `rows` is the 2-D input (a 1-D record is
one column); it is transposed when wider than tall. The result is given column by column. `np.fft.fft` of an empty record
raises `ValueError`, as do the band checks, which come first. -/
noncomputable def extractFreqComponents (rows : List (List ℝ)) (bands : List (List ℝ)) : Py (List (List ℝ)) :=
  let cols := if rows.length < (rows.headD []).length then rows else transposeRows rows (rows.headD []).length
  let N := if rows.length < (rows.headD []).length then (rows.headD []).length else rows.length
  match checkBands bands with
  | .error e => .error e
  | .ok bs =>
    if N = 0 then .error .valueError
    else .ok (cols.map fun c => (List.range N).map fun (n : ℕ) => maskFilter N (bandMask N bs) (fun i => c.getD i 0) n)

end Verif.Model
