import Verif.Model.Dout
import Verif.Proofs.Sar
import Mathlib.Data.List.GetD
import Mathlib.Algebra.BigOperators.Intervals

/-!
# C66: stage residuals of a bit matrix
-/

namespace Verif

open Model Spec

variable {K : Type} [Field K] [LinearOrder K] [IsStrictOrderedRing K]

/-- Value of the bits `lo .. hi-1` of a code. -/
def stageValue (row w : List K) (lo hi : ℕ) : K := ∑ j ∈ Finset.Ico lo hi, row.getD j 0 * w.getD j 0

omit [LinearOrder K] [IsStrictOrderedRing K] in
private theorem dot_take (row w : List K) (k : ℕ) (h1 : k ≤ row.length) (h2 : k ≤ w.length) :
    ((row.take k).zipWith (· * ·) (w.take k)).sum = stageValue row w 0 k := by
  unfold stageValue
  induction k with
  | zero => simp
  | succ k ih =>
    rw [Finset.sum_Ico_succ_top (by omega), ← ih (by omega) (by omega), List.take_add_one, List.take_add_one,
      List.getElem?_eq_getElem (by omega : k < row.length), List.getElem?_eq_getElem (by omega : k < w.length),
      List.zipWith_append (by simp; omega), List.sum_append, List.getD_eq_getElem _ _ (by omega), List.getD_eq_getElem _ _ (by omega)]
    simp

omit [IsStrictOrderedRing K] in
private theorem head_eq (row w : List K) (k : ℕ) (h1 : k ≤ row.length) (h2 : k ≤ w.length) : headDot row w k = stageValue row w 0 k := by
  unfold headDot sliceEnd
  rw [if_neg (by omega), if_neg (by omega), Int.toNat_natCast, min_eq_left h1, min_eq_left h2]
  exact dot_take row w k h1 h2

omit [IsStrictOrderedRing K] in
private theorem residual_get (signal : List K) (rows : List (List K)) (w : List K) (k n : ℕ) (hn : n < rows.length) (hs : signal.length = rows.length)
    (h1 : k ≤ (rows.getD n []).length) (h2 : k ≤ w.length) :
    (residualAt signal rows w k).getD n 0 = signal.getD n 0 - stageValue (rows.getD n []) w 0 k := by
  unfold residualAt
  by_cases h0 : (k : ℤ) = 0
  · have : k = 0 := by omega
    subst this
    simp [stageValue]
  · rw [if_neg h0, List.getD_eq_getElem _ _ (by simp; omega), List.getElem_zipWith, List.getD_eq_getElem signal _ (by omega)]
    rw [List.getD_eq_getElem _ _ hn] at h1 ⊢
    rw [head_eq _ _ _ h1 h2]

omit [IsStrictOrderedRing K] in
/-- **C66.** For a rectangular bit matrix with one weight per column and stage numbers `0 .. m`, the call succeeds, reports the requested
pairs, and each residual is the signal minus the value of the bits decided so far. -/
theorem C66_residuals (m : ℕ) (signal : List K) (rows : List (List K)) (w : List K) (pairs : List (ℕ × ℕ)) (hs : signal.length = rows.length)
    (hne : rows ≠ []) (hr : ∀ r ∈ rows, r.length = m) (hw : w.length = m) (hp : ∀ p ∈ pairs, p.1 ≤ m ∧ p.2 ≤ m) :
    ∃ rx ry, residualScatter m signal rows (some w) (some (pairs.map fun p => ((p.1 : ℤ), (p.2 : ℤ)))) =
        .ok (pairs.map fun p => ((p.1 : ℤ), (p.2 : ℤ)), rx, ry) ∧ rx.length = pairs.length ∧ ry.length = pairs.length ∧
      ∀ i < pairs.length, ∀ n < signal.length,
        (rx.getD i []).getD n 0 = signal.getD n 0 - stageValue (rows.getD n []) w 0 (pairs.getD i (0, 0)).1 ∧
        (ry.getD i []).getD n 0 = signal.getD n 0 - stageValue (rows.getD n []) w 0 (pairs.getD i (0, 0)).2 := by
  unfold residualScatter
  rw [if_neg (by simp [hs]), if_neg hne]
  simp only [Option.getD_some]
  rw [if_pos]
  swap
  · rw [List.all_eq_true]
    intro p hp'
    obtain ⟨q, hq, rfl⟩ := List.mem_map.mp hp'
    simp [sliceFits, hw]
  refine ⟨_, _, rfl, by simp, by simp, ?_⟩
  intro i hi n hn
  have hrow : (rows.getD n []).length = m := by
    rw [List.getD_eq_getElem _ _ (by omega)]
    exact hr _ (List.getElem_mem _)
  have hq := hp (pairs.getD i (0, 0)) (by rw [List.getD_eq_getElem _ _ hi]; exact List.getElem_mem _)
  constructor
  · have e := List.getD_eq_getElem ((pairs.map fun p => ((p.1 : ℤ), (p.2 : ℤ))).map fun p => residualAt signal rows w p.1) [] (n := i) (by simpa using hi)
    rw [e]
    simp only [List.getElem_map]
    rw [List.getD_eq_getElem pairs _ hi] at hq ⊢
    exact residual_get signal rows w _ n (by omega) hs (by omega) (by omega)
  · have e := List.getD_eq_getElem ((pairs.map fun p => ((p.1 : ℤ), (p.2 : ℤ))).map fun p => residualAt signal rows w p.2) [] (n := i) (by simpa using hi)
    rw [e]
    simp only [List.getElem_map]
    rw [List.getD_eq_getElem pairs _ hi] at hq ⊢
    exact residual_get signal rows w _ n (by omega) hs (by omega) (by omega)

/-- Number of bits in front of a Python slice end `k` of `m` columns (specification): a negative end counts from the last column and ends
outside the row are clipped. -/
def stageCount (m : ℕ) (k : ℤ) : ℕ := if k < 0 then m - k.natAbs else min k.natAbs m

omit [IsStrictOrderedRing K] in
private theorem residual_get_int (signal : List K) (rows : List (List K)) (w : List K) (m : ℕ) (k : ℤ) (n : ℕ) (hn : n < rows.length)
    (hs : signal.length = rows.length) (h1 : (rows.getD n []).length = m) (h2 : w.length = m) :
    (residualAt signal rows w k).getD n 0 = signal.getD n 0 - stageValue (rows.getD n []) w 0 (stageCount m k) := by
  unfold residualAt
  by_cases h0 : k = 0
  · subst h0
    simp [stageValue, stageCount]
  · rw [if_neg h0, List.getD_eq_getElem _ _ (by simp; omega), List.getElem_zipWith, List.getD_eq_getElem signal _ (by omega)]
    rw [List.getD_eq_getElem _ _ hn] at h1 ⊢
    have e : sliceEnd k m = stageCount m k := by
      unfold sliceEnd stageCount
      by_cases hk : k < 0
      · rw [if_pos hk, if_pos hk]; omega
      · rw [if_neg hk, if_neg hk]; omega
    have hle : stageCount m k ≤ m := by
      unfold stageCount
      by_cases hk : k < 0
      · rw [if_pos hk]; omega
      · rw [if_neg hk]; omega
    unfold headDot
    rw [h1, h2, e, dot_take _ _ _ (by omega) (by omega)]

omit [IsStrictOrderedRing K] in
/-- **C66 (every stage number).** Stage numbers follow the slicing rules: a negative number counts from the last bit and numbers outside the
matrix are clipped, so the call succeeds for all integer pairs and each residual is the signal minus the value of the bits in front. -/
theorem C66_any_stage (m : ℕ) (signal : List K) (rows : List (List K)) (w : List K) (pairs : List (ℤ × ℤ)) (hs : signal.length = rows.length)
    (hne : rows ≠ []) (hr : ∀ r ∈ rows, r.length = m) (hw : w.length = m) :
    ∃ rx ry, residualScatter m signal rows (some w) (some pairs) = .ok (pairs, rx, ry) ∧ rx.length = pairs.length ∧ ry.length = pairs.length ∧
      ∀ i < pairs.length, ∀ n < signal.length,
        (rx.getD i []).getD n 0 = signal.getD n 0 - stageValue (rows.getD n []) w 0 (stageCount m (pairs.getD i (0, 0)).1) ∧
        (ry.getD i []).getD n 0 = signal.getD n 0 - stageValue (rows.getD n []) w 0 (stageCount m (pairs.getD i (0, 0)).2) := by
  unfold residualScatter
  rw [if_neg (by simp [hs]), if_neg hne]
  simp only [Option.getD_some]
  rw [if_pos]
  swap
  · rw [List.all_eq_true]
    intro p _
    simp [sliceFits, hw]
  refine ⟨_, _, rfl, by simp, by simp, ?_⟩
  intro i hi n hn
  have hrow : (rows.getD n []).length = m := by
    rw [List.getD_eq_getElem _ _ (by omega)]
    exact hr _ (List.getElem_mem _)
  constructor
  · rw [List.getD_eq_getElem (pairs.map fun p => residualAt signal rows w p.1) [] (n := i) (by simpa using hi), List.getD_eq_getElem pairs _ hi, List.getElem_map]
    exact residual_get_int signal rows w m _ n (by omega) hs hrow hw
  · rw [List.getD_eq_getElem (pairs.map fun p => residualAt signal rows w p.2) [] (n := i) (by simpa using hi), List.getD_eq_getElem pairs _ hi, List.getElem_map]
    exact residual_get_int signal rows w m _ n (by omega) hs hrow hw

/-- The stage `-1` of a three-bit code leaves out the last bit, the stage 7 takes all. -/
example : ∃ rx ry, residualScatter 3 [(7 / 2 : ℚ)] [[0, 1, 1]] (some [4, 2, 1]) (some [(-1, 7)]) = .ok ([(-1, 7)], rx, ry) ∧
    (rx.getD 0 []).getD 0 0 = 3 / 2 ∧ (ry.getD 0 []).getD 0 0 = 1 / 2 := by
  obtain ⟨rx, ry, h, _, _, hv⟩ := C66_any_stage 3 [(7 / 2 : ℚ)] [[0, 1, 1]] [4, 2, 1] [(-1, 7)] rfl (by simp) (by simp) rfl
  refine ⟨rx, ry, h, ?_, ?_⟩
  · rw [(hv 0 (by simp) 0 (by simp)).1]; decide +kernel
  · rw [(hv 0 (by simp) 0 (by simp)).2]; decide +kernel

omit [IsStrictOrderedRing K] in
/-- **C66 (defaults).** Without weights and pairs, binary weights and the pairs `(0, m), ..., (m-1, m)` are used. -/
theorem C66_defaults (m : ℕ) (signal : List K) (rows : List (List K)) :
    residualScatter m signal rows none none = residualScatter m signal rows (some ((List.range m).map fun i => 2 ^ (m - 1 - i)))
      (some (((List.range m).map fun i => (i, m)).map fun p => ((p.1 : ℤ), (p.2 : ℤ)))) := by
  unfold residualScatter
  simp only [Option.getD_none, Option.getD_some, List.map_map]
  rfl

omit [LinearOrder K] [IsStrictOrderedRing K] in
/-- **C66 (stages add up).** The residuals of two stages differ by exactly the bits in between. -/
theorem C66_stages (x : K) (row w : List K) (a b : ℕ) (hab : a ≤ b) :
    x - stageValue row w 0 b = (x - stageValue row w 0 a) - stageValue row w a b := by
  unfold stageValue
  rw [← Finset.sum_Ico_consecutive _ (Nat.zero_le a) hab]
  ring

/-- A Boolean code as numbers. -/
def bitRow (bs : List Bool) : List K := bs.map fun b => if b then 1 else 0

private theorem stage_cons (b : Bool) (bs : List Bool) (w : K) (ws : List K) (k : ℕ) :
    stageValue (bitRow (b :: bs)) (w :: ws) 0 (k + 1) = (if b then w else 0) + stageValue (bitRow bs) ws 0 k := by
  unfold stageValue bitRow
  rw [← Finset.range_eq_Ico, ← Finset.range_eq_Ico, Finset.sum_range_succ']
  simp only [List.map_cons, List.getD_cons_succ, List.getD_cons_zero]
  rw [add_comm]
  cases b <;> simp

private theorem loop_cons (x w : K) (ws : List K) :
    sarLoop x 0 (quiet (w :: ws)) = decide (w ≤ x) :: sarLoop (if w ≤ x then x - w else x) 0 (quiet ws) := by
  unfold quiet
  simp only [List.map_cons, sarLoop, zero_add, add_zero, ge_iff_le, decide_eq_true_eq]
  by_cases h : w ≤ x
  · rw [if_pos h, if_pos h, sarLoop_shift]
  · rw [if_neg h, if_neg h]

private theorem stage_bounds (eps : K) (ws : List K) (hc : Covered eps ws) (x : K) (h0 : 0 ≤ x) (h1 : x < ws.sum + eps) (k : ℕ) (hk : k ≤ ws.length) :
    0 ≤ x - stageValue (bitRow (sarLoop x 0 (quiet ws))) ws 0 k ∧ x - stageValue (bitRow (sarLoop x 0 (quiet ws))) ws 0 k < (ws.drop k).sum + eps := by
  induction ws generalizing x k with
  | nil =>
    simp only [List.length_nil, Nat.le_zero] at hk
    subst hk
    exact ⟨by simpa [stageValue] using h0, by simpa [stageValue] using h1⟩
  | cons w ws ih =>
    cases k with
    | zero => simpa [stageValue] using ⟨h0, h1⟩
    | succ k =>
      rw [loop_cons, stage_cons, List.drop_succ_cons]
      rw [List.sum_cons] at h1
      obtain ⟨hw, hc⟩ := hc
      by_cases h : w ≤ x
      · simp only [h, decide_true, if_true]
        have := ih hc (x - w) (by linarith) (by linarith) k (by simpa using hk)
        rw [sub_sub] at this
        exact this
      · simp only [h, decide_false, if_false, zero_add, Bool.false_eq_true]
        exact ih hc x h0 (by linarith) k (by simpa using hk)

/-- **C66 (converter stages).** For codes produced by the noise-free successive-approximation loop with covered weights and an input in
range, the residual after every stage is non-negative and below the total of the remaining weights plus the final margin, so the later
bits can still resolve it. -/
theorem C66_sar_stage_range (eps : K) (ws : List K) (hc : Covered eps ws) (vin : K) (h0 : 0 ≤ vin) (h1 : vin < ws.sum + eps) :
    ∃ bs, sarConvertIdeal vin ws [0, 1] = .ok bs ∧ ∀ k ≤ ws.length,
      0 ≤ vin - stageValue (bitRow bs) ws 0 k ∧ vin - stageValue (bitRow bs) ws 0 k < (ws.drop k).sum + eps := by
  refine ⟨_, convertIdeal_eq vin ws 0 1 zero_lt_one, ?_⟩
  intro k hk
  have := stage_bounds eps ws hc vin h0 h1 k hk
  simpa using this

omit [IsStrictOrderedRing K] in
/-- **C66 (errors).** A signal of another length is a `ValueError`, an empty record a `ZeroDivisionError`. -/
theorem C66_errors (m : ℕ) (signal : List K) (rows : List (List K)) (w : Option (List K)) (ps : Option (List (ℤ × ℤ))) :
    (signal.length ≠ rows.length → residualScatter m signal rows w ps = .error .valueError) ∧
    (residualScatter m signal rows w ps = .error .zeroDivision ↔ signal = [] ∧ rows = []) := by
  constructor
  · intro h
    unfold residualScatter
    rw [if_pos h]
  · unfold residualScatter
    by_cases h : signal.length ≠ rows.length
    · rw [if_pos h]
      simp only [Except.error.injEq, reduceCtorEq, false_iff]
      rintro ⟨rfl, rfl⟩
      exact h rfl
    · rw [if_neg h]
      push Not at h
      by_cases h2 : rows = []
      · rw [if_pos h2]
        subst h2
        simpa using h
      · rw [if_neg h2]
        simp only
        split
        · simp [h2]
        · simp [h2]

example : residualScatter 2 [3, (1 / 2 : ℚ)] [[1, 0], [0, 0]] none (some [(0, 1), (1, 2)]) =
    .ok ([(0, 1), (1, 2)], [[3, 1 / 2], [1, 1 / 2]], [[1, 1 / 2], [1, 1 / 2]]) := by decide +kernel

example : Covered (1 / 8 : ℚ) [1 / 2, 1 / 4, 1 / 8] := by
  refine ⟨?_, ?_, ?_, trivial⟩ <;> decide +kernel

end Verif
