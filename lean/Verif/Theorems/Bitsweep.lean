import Verif.Model.Bitsweep
import Mathlib.Tactic.Common

/-! # C172: the ENOB sweep `bitsweep.m`, for any calibration and any spectrum -/

namespace Verif

open Model

/-- **C172 (failures stay local).** With a positive frequency the sweep of a matrix with at least as many samples as bits never fails: there is one entry per bit count, and entry `n` is
NaN exactly when calibrating the first `n` bits fails or the spectrum of the result does. -/
theorem C172_local (cal : SweepCal) (spec : SweepSpec) (N M : ℕ) (bits : ℕ → ℕ → ℝ) (freq : ℝ) (hf : 0 < freq) (hNM : M ≤ N) :
    ∃ e, mlBitsweep cal spec N M bits freq = some e ∧ e.length = M ∧ ∀ n, 1 ≤ n → n ≤ M →
      (e[n - 1]? = some none ↔ cal N n (fun t j => if t < N ∧ j < n then bits t j else 0) freq = none ∨
        ∃ p, cal N n (fun t j => if t < N ∧ j < n then bits t j else 0) freq = some p ∧ spec N p.1 = none) ∧
      (∀ x, e[n - 1]? = some (some x) ↔ ∃ p, cal N n (fun t j => if t < N ∧ j < n then bits t j else 0) freq = some p ∧ spec N p.1 = some x) := by
  refine ⟨(List.range M).map fun i => mlSweepEntry cal spec N (i + 1) bits freq, ?_, by simp, fun n h1 hn => ?_⟩
  · simp only [mlBitsweep, tallened, if_neg (not_lt.mpr hNM), if_neg (not_lt.mpr hf.le), if_neg hf.ne', Option.map_some]
  · have hget : ((List.range M).map fun i => mlSweepEntry cal spec N (i + 1) bits freq)[n - 1]? = some (mlSweepEntry cal spec N n bits freq) := by
      rw [List.getElem?_map, List.getElem?_range (by omega)]
      simp only [Option.map_some, Nat.sub_add_cancel h1]
    rw [hget]
    unfold mlSweepEntry
    change (some (Option.bind (cal N n (fun t j => if t < N ∧ j < n then bits t j else 0) freq) _) = _ ↔ _) ∧ ∀ x, (some (Option.bind (cal N n (fun t j => if t < N ∧ j < n then bits t j else 0) freq) _) = _ ↔ _)
    generalize cal N n (fun t j => if t < N ∧ j < n then bits t j else 0) freq = c
    cases c <;> simp

/-- **C172 (more bits extend the curve).** Two records with the same first `n` columns have the same first `n` entries at the same frequency: bits appended at the LSB end leave the points
already drawn where they were. -/
theorem C172_prefix (cal : SweepCal) (spec : SweepSpec) (N M M' n : ℕ) (bits bits' : ℕ → ℕ → ℝ) (freq : ℝ) (hf : 0 < freq) (hM : M ≤ N) (hM' : M' ≤ N) (hn : n ≤ M) (hn' : n ≤ M')
    (h : ∀ t < N, ∀ j < n, bits t j = bits' t j) :
    ∃ e e', mlBitsweep cal spec N M bits freq = some e ∧ mlBitsweep cal spec N M' bits' freq = some e' ∧ e.take n = e'.take n ∧ (e.take n).length = n := by
  refine ⟨(List.range M).map fun i => mlSweepEntry cal spec N (i + 1) bits freq, (List.range M').map fun i => mlSweepEntry cal spec N (i + 1) bits' freq, ?_, ?_, ?_, by simp [hn]⟩
  · simp only [mlBitsweep, tallened, if_neg (not_lt.mpr hM), if_neg (not_lt.mpr hf.le), if_neg hf.ne', Option.map_some]
  · simp only [mlBitsweep, tallened, if_neg (not_lt.mpr hM'), if_neg (not_lt.mpr hf.le), if_neg hf.ne', Option.map_some]
  · rw [← List.map_take, ← List.map_take, List.take_range, List.take_range, min_eq_left hn, min_eq_left hn']
    refine List.map_congr_left fun i hi => ?_
    have hi := List.mem_range.mp hi
    have : firstCols N (i + 1) bits = firstCols N (i + 1) bits' := by
      funext t j
      unfold firstCols
      split_ifs with hc
      · exact h t hc.1 j (by omega)
      · rfl
    unfold mlSweepEntry
    rw [this]

/-- **C172 (orientation).** A matrix and its transpose have the same sweep, whichever is passed, unless it is square. -/
theorem C172_transpose (cal : SweepCal) (spec : SweepSpec) (N M : ℕ) (bits : ℕ → ℕ → ℝ) (freq : ℝ) (h : N ≠ M) :
    mlBitsweep cal spec N M bits freq = mlBitsweep cal spec M N (fun t j => bits j t) freq := by
  rcases Nat.lt_or_gt_of_ne h with h | h
  · simp only [mlBitsweep, tallened, if_pos h, if_neg (not_lt.mpr h.le)]
  · simp only [mlBitsweep, tallened, if_pos h, if_neg (not_lt.mpr h.le)]

/-- **C172 (automatic frequency).** Without a frequency the sweep is the one at the frequency the calibration of all bits finds; if that calibration fails, so does the sweep. -/
theorem C172_auto (cal : SweepCal) (spec : SweepSpec) (N M : ℕ) (bits : ℕ → ℕ → ℝ) (hNM : M ≤ N) (hz : ∀ t j, N ≤ t ∨ M ≤ j → bits t j = 0) :
    (∀ y f, cal N M bits 0 = some (y, f) → 0 < f → mlBitsweep cal spec N M bits 0 = mlBitsweep cal spec N M bits f) ∧
    (cal N M bits 0 = none → mlBitsweep cal spec N M bits 0 = none) := by
  have hc : firstCols N M bits = bits := by
    funext t j
    unfold firstCols
    split_ifs with hc
    · rfl
    · rw [hz t j (by omega)]
  refine ⟨fun y f hy hf => ?_, fun hy => ?_⟩
  · simp only [mlBitsweep, tallened, if_neg (not_lt.mpr hNM), lt_irrefl, if_false, if_true, hc, hy, Option.map_some, if_neg (not_lt.mpr hf.le), if_neg hf.ne']
  · simp only [mlBitsweep, tallened, if_neg (not_lt.mpr hNM), lt_irrefl, if_false, if_true, hc, hy, Option.map_none]

/-- A calibration that adds the bits up and refuses a single bit, with a spectrum that reports the first sample: three bits give NaN, 1 and 2, and the first two entries are those of the
record without the last bit. -/
example : ∃ e, mlBitsweep (fun _ n b f => if n = 1 then none else some (fun t => (List.range n).foldl (fun s j => s + b t j) 0, f)) (fun _ y => some (y 0 : EReal)) 4 3
    (fun t j => if t < 4 ∧ 1 ≤ j ∧ j < 3 then 1 else 0) (1 / 4) = some e ∧ e = [none, some ((1 : ℝ) : EReal), some ((1 + 1 : ℝ) : EReal)] := by
  have hq : (0 : ℝ) < 1 / 4 := by positivity
  refine ⟨_, ?_, rfl⟩
  simp only [mlBitsweep, tallened, if_neg (show ¬ 4 < 3 by omega), if_neg (not_lt.mpr hq.le), if_neg hq.ne', Option.map_some, mlSweepEntry, firstCols]
  simp [List.range_succ]

end Verif
