import Verif.Model.Bitact
import Verif.Theorems.DoutPlots

/-! # C171: MATLAB `bitact` beside `analyze_bit_activity` -/

namespace Verif

open Model

variable {K : Type} [Field K] [LinearOrder K] [IsStrictOrderedRing K] [FloorRing K]

omit [IsStrictOrderedRing K] [FloorRing K] in
/-- **C171 (same numbers).** On every matrix with a row, `bitact` and `analyze_bit_activity` return the same percentages. -/
theorem C171_same (rows : List (List K)) (hne : rows ≠ []) : ∃ u, bitActivity rows = .ok u ∧ mlBitact rows = some u := by
  obtain ⟨r, rest, rfl⟩ := List.exists_cons_of_ne_nil hne
  exact ⟨_, rfl, rfl⟩

omit [IsStrictOrderedRing K] in
private theorem bitactText_some (b : ℕ) (u : K) (t : BitactText K) : bitactText b u = some t ↔ (95 < u ∨ u < 5) ∧ t = ⟨b, u + 3, fmtFixed u 1 "%"⟩ := by
  unfold bitactText
  split_ifs with h1 h2
  · simp [h1, eq_comm]
  · simp [h2, eq_comm]
  · simp [h1, h2]

omit [IsStrictOrderedRing K] in
private theorem mem_texts (usage : List K) (t : BitactText K) :
    t ∈ bitactTexts true usage ↔ ∃ i < usage.length, (95 < usage.getD i 0 ∨ usage.getD i 0 < 5) ∧ t = ⟨i + 1, usage.getD i 0 + 3, fmtFixed (usage.getD i 0) 1 "%"⟩ := by
  simp only [bitactTexts, if_true, List.mem_filterMap, List.mem_range, bitactText_some]

omit [FloorRing K] in
private theorem extreme_iff (u : K) : (95 < u ∨ u < 5) ↔ 45 < |u - 50| := by
  rw [lt_abs]
  constructor
  · rintro (h | h)
    · left; linarith
    · right; linarith
  · rintro (h | h)
    · left; linarith
    · right; linarith

/-- **C171 (annotated bits).** For a matrix of zeros and ones, bit `j` (from 0) carries a text exactly when it is 1 in more than 95 % or fewer than 5 % of the samples; the text, read
back, is its percentage to 0.05 points, and every bar lies inside the axis. Without the option there is no text. -/
theorem C171_texts (M : ℕ) (rows : List (List K)) (h : BitMatrix M rows) (hne : rows ≠ []) :
    ∃ u, mlBitact rows = some u ∧ u.length = M ∧ bitactTexts false u = [] ∧
      (∀ j < M, (bitactLimits : K × K).1 ≤ u.getD j 0 ∧ u.getD j 0 ≤ (bitactLimits : K × K).2) ∧
      (∀ j < M, (∃ t ∈ bitactTexts true u, t.x = j + 1) ↔
        95 * rows.length < 100 * (rows.countP fun r => decide (r.getD j 0 = 1)) ∨ 100 * (rows.countP fun r => decide (r.getD j 0 = 1)) < 5 * rows.length) ∧
      (∀ t ∈ bitactTexts true u, 1 ≤ t.x ∧ t.x ≤ M ∧ |readText t.label - 100 * ((rows.countP fun r => decide (r.getD (t.x - 1) 0 = 1) : ℕ) : K) / rows.length| ≤ 1 / 20) := by
  obtain ⟨u, hu, hlen, hval⟩ := C43_bit_activity M rows h hne
  obtain ⟨u', hu', hml⟩ := C171_same rows hne
  rw [hu] at hu'
  cases hu'
  have hN : (0 : K) < rows.length := by exact_mod_cast List.length_pos_iff.mpr hne
  refine ⟨u, hml, hlen, rfl, fun j hj => ⟨(hval j hj).2.1, (hval j hj).2.2.1⟩, fun j hj => ?_, fun t ht => ?_⟩
  · have hv := (hval j hj).1
    have e1 : 95 < u.getD j 0 ↔ 95 * rows.length < 100 * (rows.countP fun r => decide (r.getD j 0 = 1)) := by
      rw [hv, lt_div_iff₀ hN]; exact_mod_cast Iff.rfl
    have e2 : u.getD j 0 < 5 ↔ 100 * (rows.countP fun r => decide (r.getD j 0 = 1)) < 5 * rows.length := by
      rw [hv, div_lt_iff₀ hN]; exact_mod_cast Iff.rfl
    rw [← e1, ← e2]
    constructor
    · rintro ⟨t, ht, hx⟩
      obtain ⟨i, hi, hc, rfl⟩ := (mem_texts u t).mp ht
      have : i = j := by simpa using hx
      exact this ▸ hc
    · intro hc
      exact ⟨_, (mem_texts u _).mpr ⟨j, hlen ▸ hj, hc, rfl⟩, rfl⟩
  · obtain ⟨i, hi, -, rfl⟩ := (mem_texts u t).mp ht
    refine ⟨by simp, by simp only; omega, ?_⟩
    have := fmt_error (u.getD i 0) 1 "%" 1 (by simp [unitOf]) one_pos
    rw [mul_one] at this
    simp only [Nat.add_sub_cancel]
    rw [← (hval i (hlen ▸ hi)).1]
    exact le_trans this (by norm_num)

/-- **C171 (against the Python plot).** `bitact` puts a text somewhere exactly when the one bit Python highlights is more than 45 points from 50 %; that bit is then among those with a
text. Python labels one bit always, `bitact` any number from none to all. -/
theorem C171_highlight (usage : List K) (hne : usage ≠ []) :
    (bitactTexts true usage ≠ [] ↔ 45 < |usage.getD (activityMark usage) 0 - 50|) ∧
    (bitactTexts true usage ≠ [] → ∃ t ∈ bitactTexts true usage, t.x = activityMark usage + 1) := by
  obtain ⟨hlt, hmax, -, -⟩ := C98_activity_mark usage hne
  have key : 45 < |usage.getD (activityMark usage) 0 - 50| → ∃ t ∈ bitactTexts true usage, t.x = activityMark usage + 1 := fun h =>
    ⟨_, (mem_texts usage _).mpr ⟨_, hlt, (extreme_iff _).mpr h, rfl⟩, rfl⟩
  have back : bitactTexts true usage ≠ [] → 45 < |usage.getD (activityMark usage) 0 - 50| := by
    intro h
    obtain ⟨t, ht⟩ := List.exists_mem_of_ne_nil _ h
    obtain ⟨i, hi, hc, -⟩ := (mem_texts usage t).mp ht
    refine lt_of_lt_of_le ((extreme_iff _).mp hc) (hmax _ ?_)
    rw [List.getD_eq_getElem _ _ hi]
    exact List.getElem_mem hi
  refine ⟨⟨back, fun h => ?_⟩, fun h => key (back h)⟩
  obtain ⟨t, ht, -⟩ := key h
  exact List.ne_nil_of_mem ht

/-- **C171 (texts off the axis).** The text of a bit stands above the axis exactly when the bit is 1 in more than 97 % of the samples; the text of a bit stuck at 1 always does. -/
theorem C171_height (usage : List K) (t : BitactText K) (ht : t ∈ bitactTexts true usage) :
    (bitactLimits : K × K).2 < t.y ↔ 97 < usage.getD (t.x - 1) 0 := by
  obtain ⟨i, -, -, rfl⟩ := (mem_texts usage t).mp ht
  simp only [bitactLimits, Nat.add_sub_cancel]
  constructor <;> intro h <;> linarith

/-- Three bits, the first stuck at 1 and the last at 0: two texts in MATLAB, one highlight in Python. -/
example : mlBitact [[(1 : ℚ), 0, 0], [1, 1, 0]] = some [100, 50, 0] ∧ (bitactTexts true [(100 : ℚ), 50, 0]).map (fun t => (t.x, t.y)) = [(1, 103), (3, 3)] ∧
    activityMark [(100 : ℚ), 50, 0] = 0 := by decide +kernel

example : BitMatrix 3 [[(1 : ℚ), 0, 0], [1, 1, 0]] := by
  intro r hr
  rcases List.mem_cons.mp hr with rfl | hr
  · simp
  · rw [List.mem_singleton.mp hr]; simp

end Verif
