import Verif.Model.DoutPlots
import Verif.Theorems.NumText
import Verif.Theorems.WeightRadix
import Verif.Theorems.Dout
import Mathlib.Tactic.Linarith
import Mathlib.Data.List.GetD

/-!
# C98: the plots of the digital-output reports show what was computed
-/

namespace Verif

open Model

variable {K : Type} [Field K] [LinearOrder K] [IsStrictOrderedRing K] [FloorRing K]

/-! ## Bit activity -/

/-- Visible length of a bar from 0 to `u` on the axis `(lo, hi)` (specification). -/
def barShown (lim : K × K) (u : K) : K := max 0 (min u lim.2 - lim.1)

/-- **C98 (highlighted bit).** The highlighted bar is the first of those farthest from 50 %, and the text over it, read back, is its deviation to within
0.005 percentage points. -/
theorem C98_activity_mark (usage : List K) (hne : usage ≠ []) :
    activityMark usage < usage.length ∧ (∀ u ∈ usage, |u - 50| ≤ |usage.getD (activityMark usage) 0 - 50|) ∧
    (∀ j < activityMark usage, |usage.getD j 0 - 50| < |usage.getD (activityMark usage) 0 - 50|) ∧
    |readText (activityLabel usage) - (usage.getD (activityMark usage) 0 - 50)| ≤ 1 / 200 := by
  have hlt : activityMark usage < usage.length := by
    have := argmax_lt (usage.map fun u => |u - 50|) (by simpa using hne)
    simpa [activityMark] using this
  have hm : (usage.map fun u => |u - 50|)[argmax (usage.map fun u => |u - 50|)]? = some |usage.getD (activityMark usage) 0 - 50| := by
    show (usage.map fun u => |u - 50|)[activityMark usage]? = _
    rw [List.getElem?_map, List.getElem?_eq_getElem hlt, List.getD_eq_getElem _ _ hlt]
    rfl
  refine ⟨hlt, ?_, ?_, ?_⟩
  · intro u hu
    exact argmax_max _ _ hm _ (List.mem_map_of_mem hu)
  · intro j hj
    refine argmax_first _ _ hm j _ hj ?_
    rw [List.getElem?_map, List.getElem?_eq_getElem (by omega), List.getD_eq_getElem _ _ (by omega)]
    rfl
  · have := fmt_error (usage.getD (activityMark usage) 0 - 50) 2 "%" 1 (by simp [unitOf]) one_pos
    unfold activityLabel
    rw [mul_one] at this
    refine le_trans this (by norm_num)

example : activityMark [(50 : ℚ), 47, 53, 51] = 1 ∧ activityLabel [(50 : ℚ), 47, 53, 51] = ⟨-300, 2, "%"⟩ := by decide +kernel

omit [FloorRing K] in
/-- **C98 (fixed activity axis).** Every bar ends inside the axis exactly when the highlighted one deviates by at most ten points; a bar ending inside is as long as its
activity minus 40, a bit that is 1 in at most 40 % of the samples shows no bar at all, and all bits at 60 % or more show the same bar. -/
theorem C98_activity_axis (usage : List K) (hne : usage ≠ []) :
    ((∀ u ∈ usage, (activityLimits : K × K).1 ≤ u ∧ u ≤ (activityLimits : K × K).2) ↔ |usage.getD (activityMark usage) 0 - 50| ≤ 10) ∧
    (∀ u : K, 40 ≤ u → u ≤ 60 → barShown activityLimits u = u - 40) ∧
    (∀ u : K, barShown activityLimits u = 0 ↔ u ≤ 40) ∧ (∀ u : K, 60 ≤ u → barShown activityLimits u = 20) ∧
    ((activityLimits : K × K).1 ≤ activityLabelHeight usage ∧ activityLabelHeight usage ≤ (activityLimits : K × K).2 ↔
      392 / 10 ≤ usage.getD (activityMark usage) 0 ∧ usage.getD (activityMark usage) 0 ≤ 592 / 10) := by
  have hlt : activityMark usage < usage.length := by
    have := argmax_lt (usage.map fun u => |u - 50|) (by simpa using hne)
    simpa [activityMark] using this
  have hm : (usage.map fun u => |u - 50|)[argmax (usage.map fun u => |u - 50|)]? = some |usage.getD (activityMark usage) 0 - 50| := by
    show (usage.map fun u => |u - 50|)[activityMark usage]? = _
    rw [List.getElem?_map, List.getElem?_eq_getElem hlt, List.getD_eq_getElem _ _ hlt]
    rfl
  simp only [activityLimits, barShown, activityLabelHeight]
  refine ⟨⟨fun h => ?_, fun h u hu => ?_⟩, ?_, ?_, ?_, ?_⟩
  · have := h (usage.getD (activityMark usage) 0) (by rw [List.getD_eq_getElem _ _ hlt]; exact List.getElem_mem hlt)
    rw [abs_le]
    constructor <;> linarith [this.1, this.2]
  · have := le_trans (argmax_max _ _ hm _ (List.mem_map_of_mem hu)) h
    rw [abs_le] at this
    constructor <;> linarith [this.1, this.2]
  · intro u h1 h2
    rw [min_eq_left h2, max_eq_right (by linarith)]
  · intro u
    constructor
    · intro h
      by_contra hu
      push Not at hu
      have h1 : 0 < min u 60 - 40 := by
        rw [sub_pos, lt_min_iff]
        exact ⟨hu, by norm_num⟩
      rw [max_eq_right h1.le] at h
      exact absurd h h1.ne'
    · intro h
      rw [min_eq_left (by linarith), max_eq_left (by linarith)]
  · intro u h
    rw [min_eq_right h, max_eq_right (by norm_num)]
    norm_num
  · constructor
    · rintro ⟨h1, h2⟩
      constructor <;> linarith
    · rintro ⟨h1, h2⟩
      constructor <;> linarith

example : barShown activityLimits (45 : ℚ) = 5 ∧ barShown activityLimits (30 : ℚ) = 0 ∧ barShown activityLimits (95 : ℚ) = barShown activityLimits (60 : ℚ) := by
  decide +kernel

/-- **C98 (a dead bit is not drawn).** In a bit matrix with a bit that is never 1 the highlighted bit is one that never changes; if no bit is constantly 1, the highlighted bar has no visible
part and its text lies below the axis. -/
theorem C98_dead_bit (M : ℕ) (rows : List (List K)) (h : BitMatrix M rows) (hne : rows ≠ []) (j : ℕ) (hj : j < M) (hz : ∀ r ∈ rows, r.getD j 0 = 0) :
    ∃ u, bitActivity rows = .ok u ∧
      ((∀ r ∈ rows, r.getD (activityMark u) 0 = 0) ∨ (∀ r ∈ rows, r.getD (activityMark u) 0 = 1)) ∧
      ((∀ i < M, ∃ r ∈ rows, r.getD i 0 ≠ 1) →
        barShown activityLimits (u.getD (activityMark u) 0) = 0 ∧ activityLabelHeight u < (activityLimits : K × K).1) := by
  obtain ⟨u, hu, hl, hval⟩ := C43_bit_activity M rows h hne
  have hune : u ≠ [] := by
    intro h0
    rw [h0] at hl
    simp at hl
    omega
  obtain ⟨h1, h2, _, _⟩ := C98_activity_mark u hune
  have hj0 : u.getD j 0 = 0 := (hval j hj).2.2.2.2.mpr hz
  have hfar := h2 (u.getD j 0) (by rw [List.getD_eq_getElem _ _ (by omega)]; exact List.getElem_mem _)
  rw [hj0] at hfar
  have h50 : |(0 : K) - 50| = 50 := by rw [zero_sub, abs_neg]; exact abs_of_pos (by norm_num)
  rw [h50] at hfar
  have hmem := hval (activityMark u) (by omega)
  have hcase : u.getD (activityMark u) 0 = 0 ∨ u.getD (activityMark u) 0 = 100 := by
    rcases le_abs.mp hfar with hc | hc
    · right
      linarith [hmem.2.2.1]
    · left
      linarith [hmem.2.1]
  refine ⟨u, hu, ?_, ?_⟩
  · rcases hcase with hc | hc
    · exact Or.inl (hmem.2.2.2.2.mp hc)
    · exact Or.inr (hmem.2.2.2.1.mp hc)
  · intro hno
    have hc : u.getD (activityMark u) 0 = 0 := by
      rcases hcase with hc | hc
      · exact hc
      · obtain ⟨r, hr, hr1⟩ := hno (activityMark u) (by omega)
        exact absurd (hmem.2.2.2.1.mp hc r hr) hr1
    refine ⟨((C98_activity_axis u hune).2.2.1 _).mpr (by rw [hc]; norm_num), ?_⟩
    unfold activityLabelHeight
    rw [hc]
    show (0 : K) + 8 / 10 < 40
    norm_num

example : BitMatrix 2 [[(1 : ℚ), 0], [0, 0], [1, 0]] ∧ (∀ r ∈ [[(1 : ℚ), 0], [0, 0], [1, 0]], r.getD 1 0 = 0) ∧
    (∀ i < 2, ∃ r ∈ [[(1 : ℚ), 0], [0, 0], [1, 0]], r.getD i 0 ≠ 1) := by
  unfold BitMatrix
  decide +kernel

/-! ## ENOB sweep -/

omit [LinearOrder K] [IsStrictOrderedRing K] [FloorRing K] in
private theorem delta_getD (e : List K) (i : ℕ) (hi : i < e.length) :
    (enobDelta e).getD i 0 = if i = 0 then e.getD 0 0 else e.getD i 0 - e.getD (i - 1) 0 := by
  unfold enobDelta
  cases i with
  | zero =>
    cases e with
    | nil => simp at hi
    | cons a l => simp
  | succ i =>
    rw [List.getD_cons_succ, if_neg (by omega), List.getD_eq_getElem _ _ (by simp; omega), List.getElem_zipWith, List.getElem_tail,
      List.getD_eq_getElem _ _ hi, List.getD_eq_getElem _ _ (by omega)]
    rfl

omit [LinearOrder K] [IsStrictOrderedRing K] [FloorRing K] in
/-- **C98 (gains add up).** The annotated gains, summed from the first bit on, give the ENOB at every point. -/
theorem C98_enob_gains (e : List K) (hne : e ≠ []) :
    (enobDelta e).length = e.length ∧ ∀ i < e.length, ∑ j ∈ Finset.range (i + 1), (enobDelta e).getD j 0 = e.getD i 0 := by
  have h0 : 0 < e.length := List.length_pos_iff.mpr hne
  constructor
  · simp [enobDelta]
    omega
  · intro i
    induction i with
    | zero =>
      intro hi
      rw [Finset.sum_range_one, delta_getD e 0 hi, if_pos rfl]
    | succ i ih =>
      intro hi
      rw [Finset.sum_range_succ, ih (by omega), delta_getD e (i + 1) hi, if_neg (by omega)]
      simp

example : enobDelta [(1 : ℚ), 3, 5 / 2] = [1, 2, -1 / 2] := by decide +kernel

/-- **C98 (gain texts).** The number in a text, read back, is the gain to within 0.005 bit; the text of a later point starts with a plus sign whatever the
gain, so a loss of more than 0.005 bit is printed as a plus followed by a negative number. -/
theorem C98_enob_text (i : ℕ) (d : K) :
    |readText (enobText i d).2 - d| ≤ 1 / 200 ∧ ((enobText i d).1 = "+" ↔ i ≠ 0) ∧ ((enobText i d).1 = "" ↔ i = 0) ∧
    (d < -(1 / 200) → (enobText i d).2.digits < 0) := by
  unfold enobText
  have h1 := fmt_error d 2 "" 1 (by simp [unitOf]) one_pos
  rw [mul_one] at h1
  refine ⟨le_trans h1 (by norm_num), ?_, ?_, ?_⟩
  · by_cases hi : i = 0 <;> simp [hi]
  · by_cases hi : i = 0 <;> simp [hi]
  · intro hd
    simp only [fmtFixed]
    have h2 := abs_sub_rint_le (d * 10 ^ 2)
    rw [abs_le] at h2
    have hx : d * 10 ^ 2 < -(1 / 2) := by linarith
    generalize d * 10 ^ 2 = x at h2 hx
    have h3 : (rint x : K) < 0 := by linarith [h2.1]
    exact_mod_cast h3

example : enobText 2 (-1 / 2 : ℚ) = ("+", ⟨-50, 2, ""⟩) := by decide +kernel

omit [FloorRing K] in
/-- **C98 (gain colour).** The red component of a later point's text lies between 0 and 1, is 0 exactly for gains of at least one bit, 1 exactly when nothing is
gained, and never grows with the gain; the first text is black. -/
theorem C98_enob_colour (i : ℕ) (hi : i ≠ 0) (d d' : K) :
    0 ≤ enobRed i d ∧ enobRed i d ≤ 1 ∧ (enobRed i d = 0 ↔ 1 ≤ d) ∧ (enobRed i d = 1 ↔ d ≤ 0) ∧ (d ≤ d' → enobRed i d' ≤ enobRed i d) ∧
    enobRed 0 d = 0 := by
  unfold enobRed
  rw [if_neg hi, if_neg hi, if_pos rfl]
  have h1 : max 0 (min 1 d) ≤ 1 := max_le zero_le_one (min_le_left _ _)
  refine ⟨by linarith, by linarith [le_max_left 0 (min 1 d)], ?_, ?_, ?_, rfl⟩
  · constructor
    · intro h
      by_contra hd
      push Not at hd
      rw [min_eq_right hd.le] at h
      rcases max_cases 0 d with hc | hc <;> linarith [hc.1]
    · intro h
      rw [min_eq_left h, max_eq_right zero_le_one]
      ring
  · constructor
    · intro h
      by_contra hd
      push Not at hd
      have : 0 < min 1 d := lt_min one_pos hd
      rw [max_eq_right this.le] at h
      linarith
    · intro h
      rw [min_eq_right (by linarith), max_eq_left h]
      ring
  · intro h
    linarith [max_le_max (le_refl (0 : K)) (min_le_min (le_refl (1 : K)) h)]

example : enobRed 3 (1 / 4 : ℚ) = 3 / 4 ∧ enobRed 3 (-1 : ℚ) = 1 ∧ enobRed 3 (2 : ℚ) = 0 := by decide +kernel

omit [FloorRing K] in
/-- **C98 (ENOB axis).** Every point lies inside the axis, at least half a bit above its lower end and two bits below its upper end, and every text starts
above its point; all texts start inside the axis exactly when the ENOB values span at most 100/3 bits. -/
theorem C98_enob_axis (a : K) (l : List K) :
    (∀ v ∈ a :: l, (enobLimits a l).1 + 1 / 2 ≤ v ∧ v + 2 ≤ (enobLimits a l).2 ∧ v ≤ v + enobOffset a l) ∧
    ((∀ v ∈ a :: l, v + enobOffset a l ≤ (enobLimits a l).2) ↔ ∀ v ∈ a :: l, ∀ w ∈ a :: l, v - w ≤ 100 / 3) := by
  unfold enobLimits enobOffset
  have hmx := le_maxOf a l
  have hmn := minOf_le a l
  have hle : minOf a l ≤ maxOf a l := hmx _ (minOf_mem a l)
  refine ⟨fun v hv => ⟨by simp only; linarith [hmn v hv], by simp only; linarith [hmx v hv], by linarith⟩, ?_⟩
  simp only
  constructor
  · intro h v hv w hw
    have h1 := h _ (maxOf_mem a l)
    linarith [hmx v hv, hmn w hw]
  · intro h v hv
    have h1 := h _ (maxOf_mem a l) _ (minOf_mem a l)
    linarith [hmx v hv]

example : enobLimits (5 : ℚ) [8, 10] = (9 / 2, 12) ∧ enobOffset (5 : ℚ) [8, 10] = 3 / 10 := by decide +kernel

/-! ## Overflow -/

/-- **C98 (overflow dots).** Whenever the report succeeds, every sample appears exactly once in every column: red and shifted left if its residue at the checked
column is at least 1, yellow and shifted right if it is at most 0, blue otherwise. The checked column is the one whose tick reads `ofb`, or `ofb - M` when
`ofb` exceeds the number of bits. -/
theorem C98_overflow_dots (M : ℕ) (rows : List (List K)) (w : List K) (ofb : ℤ) (r : Overflow K) (hr : analyzeOverflow M rows w (some ofb) = .ok r) :
    ∃ c < M, overflowTick M c = (if ofb ≤ M then ofb else ofb - M) ∧ r.ovfZero.length = rows.length ∧ r.ovfOne.length = rows.length ∧
      ∀ n < rows.length, ∀ ii : ℕ, (overflowDots (r.ovfZero.getD n false) (r.ovfOne.getD n false) ii : List (Dot × K)) =
        (if 1 ≤ (residues rows w c).getD n 0 then [(.red, (ii : K) + 1 - 1 / 5)]
          else if (residues rows w c).getD n 0 ≤ 0 then [(.yellow, (ii : K) + 1 + 1 / 5)] else [(.blue, (ii : K) + 1)]) := by
  unfold analyzeOverflow at hr
  by_cases h1 : w.length ≠ M
  · rw [if_pos h1] at hr
    cases hr
  by_cases h2 : M ≠ 0 ∧ rows = []
  · rw [if_neg h1, if_pos h2] at hr
    cases hr
  rw [if_neg h1, if_neg h2] at hr
  simp only [Option.getD_some] at hr
  by_cases h3 : (M : ℤ) - ofb < -M ∨ (M : ℤ) ≤ (M : ℤ) - ofb
  · rw [if_pos h3] at hr
    cases hr
  rw [if_neg h3] at hr
  simp only [not_or, not_lt, not_le] at h3
  injection hr with hr
  refine ⟨(if (M : ℤ) - ofb < 0 then (M : ℤ) - ofb + M else (M : ℤ) - ofb).toNat, ?_, ?_, ?_, ?_, ?_⟩
  · split_ifs <;> omega
  · unfold overflowTick
    split_ifs <;> omega
  · rw [← hr]
    simp [residues]
  · rw [← hr]
    simp [residues]
  · intro n hn ii
    rw [← hr]
    simp only
    generalize hcol : (if (M : ℤ) - ofb < 0 then (M : ℤ) - ofb + M else (M : ℤ) - ofb).toNat = c
    have hlen : (residues rows w c).length = rows.length := by simp [residues]
    rw [List.getD_eq_getElem _ _ (by simpa [residues] using hn), List.getD_eq_getElem _ _ (by simpa [residues] using hn),
      List.getD_eq_getElem _ _ (by omega), List.getElem_map, List.getElem_map]
    generalize (residues rows w c)[n]'(by omega) = d
    unfold overflowDots
    by_cases hd1 : 1 ≤ d
    · have hd0 : ¬ d ≤ 0 := by
        intro h0
        linarith
      simp only [hd1, hd0, decide_true, decide_false, Bool.false_or, Bool.not_true, if_true]
      simp
      norm_num
    · by_cases hd0 : d ≤ 0
      · simp only [hd1, hd0, decide_true, decide_false, if_true, if_false]
        simp
        norm_num
      · simp [hd1, hd0]

example : ∃ r, analyzeOverflow 2 [[(1 : ℚ), 1], [0, 1], [1, 0]] [2, 1] (some 1) = .ok r ∧ r.ovfZero = [false, false, true] ∧ r.ovfOne = [true, true, false] := by
  refine ⟨_, rfl, ?_⟩
  decide +kernel

omit [FloorRing K] in
/-- **C98 (dots stay in their column).** A dot is at most 0.2 from its column's tick, so no other tick is as near, and the transparency lies between 0.01 and 1, rising
to opaque for at most ten samples. -/
theorem C98_overflow_layout (zero one : Bool) (ii : ℕ) (N : ℕ) (hN : N ≠ 0) :
    (∀ p ∈ (overflowDots zero one ii : List (Dot × K)), |p.2 - ((ii : K) + 1)| ≤ 1 / 5 ∧ ∀ jj : ℕ, jj ≠ ii → |p.2 - ((ii : K) + 1)| < |p.2 - ((jj : K) + 1)|) ∧
    (1 / 100 : K) ≤ overflowAlpha N ∧ (overflowAlpha N : K) ≤ 1 ∧ ((overflowAlpha N : K) = 1 ↔ N ≤ 10) := by
  have hNp : (0 : K) < N := by
    have : 0 < N := Nat.pos_of_ne_zero hN
    exact_mod_cast this
  refine ⟨?_, ?_, ?_, ?_⟩
  · intro p hp
    have hx : |p.2 - ((ii : K) + 1)| ≤ 1 / 5 := by
      unfold overflowDots at hp
      cases zero <;> cases one <;> simp at hp
      · rw [hp]; simp
      · rw [hp]
        show |(ii : K) + 1 - 2 / 10 - (ii + 1)| ≤ 1 / 5
        rw [show (ii : K) + 1 - 2 / 10 - (ii + 1) = -(1 / 5) by ring, abs_neg, abs_of_pos (by norm_num)]
      · rw [hp]
        show |(ii : K) + 1 + 2 / 10 - (ii + 1)| ≤ 1 / 5
        rw [show (ii : K) + 1 + 2 / 10 - (ii + 1) = (1 / 5) by ring, abs_of_pos (by norm_num)]
      · rcases hp with hp | hp <;> rw [hp]
        · show |(ii : K) + 1 - 2 / 10 - (ii + 1)| ≤ 1 / 5
          rw [show (ii : K) + 1 - 2 / 10 - (ii + 1) = -(1 / 5) by ring, abs_neg, abs_of_pos (by norm_num)]
        · show |(ii : K) + 1 + 2 / 10 - (ii + 1)| ≤ 1 / 5
          rw [show (ii : K) + 1 + 2 / 10 - (ii + 1) = (1 / 5) by ring, abs_of_pos (by norm_num)]
    refine ⟨hx, ?_⟩
    intro jj hj
    have hd : (1 : K) ≤ |(jj : K) - ii| := by
      have h1 : (1 : ℤ) ≤ |(jj : ℤ) - ii| := Int.one_le_abs (by omega)
      have h2 : ((1 : ℤ) : K) ≤ ((|(jj : ℤ) - ii| : ℤ) : K) := Int.cast_le.mpr h1
      push_cast at h2
      exact h2
    have htri : |(jj : K) - ii| ≤ |p.2 - ((ii : K) + 1)| + |p.2 - ((jj : K) + 1)| := by
      have : (jj : K) - ii = (p.2 - ((ii : K) + 1)) - (p.2 - ((jj : K) + 1)) := by ring
      rw [this]
      exact abs_sub _ _
    linarith
  · unfold overflowAlpha
    exact le_min (le_max_right _ _) (by norm_num)
  · exact min_le_right _ _
  · unfold overflowAlpha
    rw [min_eq_right_iff, le_max_iff]
    constructor
    · rintro (h | h)
      · rw [le_div_iff₀ hNp, one_mul] at h
        exact_mod_cast h
      · norm_num at h
    · intro h
      left
      rw [le_div_iff₀ hNp, one_mul]
      exact_mod_cast h

example : (overflowDots true false 2 : List (Dot × ℚ)) = [(.yellow, 16 / 5)] ∧ (overflowAlpha 40 : ℚ) = 1 / 4 := by decide +kernel

/-! ## Weight radix -/

/-- What `np.argsort(abs_weights)[::-1]` guarantees (library contract): every index once, magnitudes not increasing. -/
def DescendingOrder (w : List ℝ) (idx : List ℕ) : Prop :=
  idx.Perm (List.range w.length) ∧ idx.Pairwise fun i j => |w.getD j 0| ≤ |w.getD i 0|

private theorem range_map_getD (w : List ℝ) : (List.range w.length).map (fun i => |w.getD i 0|) = w.map fun x => |x| := by
  apply List.ext_getElem
  · simp
  · intro i h1 h2
    rw [List.length_map, List.length_range] at h1
    simp only [List.getElem_map, List.getElem_range]
    rw [List.getD_eq_getElem _ _ h1]

/-- **C98 (MSB and LSB labels).** The label `MSB` sits under a bit of largest weight and `LSB` under a bit whose weight is the smallest significant one, the one the resolution is referred
to; both are existing bits, and when they are the same bit only `MSB` is written. -/
theorem C98_radix_labels (w s : List ℝ) (k : ℕ) (h : Descending w s) (hk : LastSignificant s k) (idx : List ℕ) (hi : DescendingOrder w idx) :
    ∃ m l, m < w.length ∧ l < w.length ∧ |w.getD m 0| = s.getD 0 0 ∧ (∀ x ∈ w, |x| ≤ |w.getD m 0|) ∧ |w.getD l 0| = s.getD k 0 ∧
      radixLabels idx w = ("MSB", m + 1, |w.getD m 0| / (3 / 2)) :: (if m = l then [] else [("LSB", l + 1, |w.getD l 0| / (3 / 2))]) := by
  have hperm : (idx.map fun i => |w.getD i 0|).Perm (w.map fun x => |x|) := by
    rw [← range_map_getD]
    exact hi.1.map _
  have hsorted : (idx.map fun i => |w.getD i 0|).Pairwise (· ≥ ·) := by
    rw [List.pairwise_map]
    exact hi.2
  have hs : idx.map (fun i => |w.getD i 0|) = s :=
    (hperm.trans h.1.symm).eq_of_pairwise (le := (· ≥ ·)) (fun a b _ _ h1 h2 => le_antisymm h2 h1) hsorted h.2
  have hlen : idx.length = s.length := by rw [← hs]; simp
  have hlw : idx.length = w.length := by rw [hi.1.length_eq]; simp
  have hnn : ∀ x ∈ s, 0 ≤ x := by
    intro x hx
    rw [← hs] at hx
    obtain ⟨y, _, rfl⟩ := List.mem_map.mp hx
    exact abs_nonneg _
  have hb := break_eq s hnn h.2 k hk
  have hget : ∀ i < s.length, |w.getD (idx.getD i 0) 0| = s.getD i 0 ∧ idx.getD i 0 < w.length := by
    intro i his
    constructor
    · conv_rhs => rw [← hs]
      rw [List.getD_eq_getElem (l := List.map _ _) _ (by rw [List.length_map]; omega), List.getElem_map, List.getD_eq_getElem (l := idx) _ (by omega)]
    · have : idx.getD i 0 ∈ idx := by
        rw [List.getD_eq_getElem _ _ (by omega)]
        exact List.getElem_mem _
      simpa using hi.1.mem_iff.mp this
  have hk0 := hk.1
  refine ⟨idx.getD 0 0, idx.getD k 0, (hget 0 (by omega)).2, (hget k hk0).2, (hget 0 (by omega)).1, ?_, (hget k hk0).1, ?_⟩
  · intro x hx
    rw [(hget 0 (by omega)).1]
    have hxs : |x| ∈ s := h.1.mem_iff.mpr (List.mem_map_of_mem hx)
    obtain ⟨i, hi2, hxi⟩ := List.getElem_of_mem hxs
    rw [← hxi, List.getD_eq_getElem _ _ (by omega)]
    by_cases hi0 : i = 0
    · subst hi0; exact le_refl _
    · exact List.pairwise_iff_getElem.mp h.2 0 i (by omega) hi2 (by omega)
  · unfold radixLabels radixMarks
    simp only
    rw [hs, hb]
    by_cases hml : idx.getD 0 0 = idx.getD k 0
    · rw [if_pos hml, if_neg (by rw [hml]; simp)]
    · rw [if_neg hml, if_pos (fun h => hml h.symm)]

example : Descending [(4 : ℝ), -2, 1] [4, 2, 1] ∧ LastSignificant [(4 : ℝ), 2, 1] 2 ∧ DescendingOrder [(4 : ℝ), -2, 1] [0, 1, 2] := by
  refine ⟨⟨by norm_num, by norm_num [List.pairwise_cons]⟩, ⟨by norm_num, by norm_num, ?_, by norm_num⟩, ⟨List.Perm.refl _, by norm_num [List.pairwise_cons]⟩⟩
  intro i hi
  interval_cases i <;> norm_num

omit [IsStrictOrderedRing K] [FloorRing K] in
/-- **C98 (weight markers).** Every bit carries exactly one marker: the positive one when its weight is not negative, the negative one otherwise. -/
theorem C98_radix_markers (w : List K) (i : ℕ) :
    (i ∈ radixPositive w ↔ i < w.length ∧ 0 ≤ w.getD i 0) ∧ (i ∈ radixNegative w ↔ i < w.length ∧ w.getD i 0 < 0) ∧
    (radixPositive w).Nodup ∧ (radixNegative w).Nodup ∧ (radixPositive w).length + (radixNegative w).length = w.length := by
  refine ⟨by simp [radixPositive], by simp [radixNegative], List.nodup_range.filter _, List.nodup_range.filter _, ?_⟩
  unfold radixPositive radixNegative
  have := List.length_eq_length_filter_add (l := List.range w.length) fun i => decide (w.getD i 0 < 0)
  rw [List.length_range] at this
  omega

example : radixPositive [(4 : ℚ), -2, 0] = [0, 2] ∧ radixNegative [(4 : ℚ), -2, 0] = [1] := by decide +kernel

/-- **C98 (radix texts).** Over every bit but the first stands the ratio of the previous weight to its own, to within 0.005, at one and a half times
its weight; a bit of weight zero has no finite ratio to print. -/
theorem C98_radix_text (w : List K) (b : ℕ) (h0 : b ≠ 0) (hb : b < w.length) :
    (w.getD b 0 ≠ 0 → ∃ t, radixText w b = some (b + 1, |w.getD b 0| * (3 / 2), t) ∧ abs (readText t - |w.getD (b - 1) 0| / |w.getD b 0|) ≤ 1 / 200) ∧
    (w.getD b 0 = 0 → radixText w b = none) ∧ radixText w 0 = none := by
  have hget : (radixList w).getD b none = ratioEntry |w.getD (b - 1) 0| |w.getD b 0| := by
    unfold radixList
    rw [List.getD_eq_getElem _ _ (by simpa using hb)]
    simp only [List.getElem_map, List.getElem_range]
    rw [if_neg h0, List.getD_eq_getElem _ _ (by simp; omega), List.getD_eq_getElem _ _ (by simpa using hb), List.getElem_map, List.getElem_map,
      List.getD_eq_getElem _ _ hb, List.getD_eq_getElem _ _ (by omega)]
  have h00 : (radixList w).getD 0 none = none := by
    unfold radixList
    rw [List.getD_eq_getElem _ _ (by simp; omega)]
    simp
  refine ⟨?_, ?_, ?_⟩
  · intro hw
    unfold radixText
    rw [hget, ratioEntry, if_neg (by simpa using hw)]
    refine ⟨_, rfl, ?_⟩
    have := fmt_error (|w.getD (b - 1) 0| / |w.getD b 0|) 2 "" 1 (by simp [unitOf]) one_pos
    rw [mul_one] at this
    exact le_trans this (by norm_num)
  · intro hw
    unfold radixText
    rw [hget, ratioEntry, if_pos (by simpa using hw)]
    rfl
  · unfold radixText
    rw [h00]
    rfl

example : radixText [(4 : ℚ), -3, 1] 1 = some (2, 9 / 2, ⟨133, 2, ""⟩) := by decide +kernel

/-! ## Residual scatter -/

/-- **C98 (scatter grid).** With at least one pair the grid has at most four columns, every pair gets its own cell inside the grid, and the unused cells do not fill a row; without
pairs the plot fails with a division by zero. -/
theorem C98_scatter_grid (n : ℕ) :
    (n = 0 → scatterGrid (K := K) n = .error .zeroDivision) ∧
    (n ≠ 0 → ∃ cols rows, scatterGrid (K := K) n = .ok (cols, rows) ∧ 1 ≤ cols ∧ cols ≤ 4 ∧ n ≤ rows * cols ∧ rows * cols < n + cols ∧
      (∀ k < n, (scatterCell cols k).1 < rows ∧ (scatterCell cols k).2 < cols) ∧
      ∀ k k' : ℕ, scatterCell cols k = scatterCell cols k' → k = k') := by
  constructor
  · rintro rfl
    rfl
  · intro hn
    have hc : min n 4 ≠ 0 := by omega
    have hcp : 0 < min n 4 := by omega
    have hcK : (0 : K) < (min n 4 : ℕ) := by exact_mod_cast hcp
    unfold scatterGrid
    simp only
    rw [if_neg hc]
    have hnn : 0 ≤ ⌈(n : K) / (min n 4 : ℕ)⌉ := Int.ceil_nonneg (by positivity)
    generalize hz : ⌈(n : K) / (min n 4 : ℕ)⌉ = z at hnn
    have hcast : ((z.toNat : ℕ) : K) = (z : K) := by
      have : ((z.toNat : ℕ) : ℤ) = z := Int.toNat_of_nonneg hnn
      exact_mod_cast congrArg (Int.cast : ℤ → K) this
    have h1 : n ≤ z.toNat * min n 4 := by
      have : (n : K) / (min n 4 : ℕ) ≤ z := by rw [← hz]; exact Int.le_ceil _
      rw [div_le_iff₀ hcK, ← hcast] at this
      exact_mod_cast this
    have h2 : z.toNat * min n 4 < n + min n 4 := by
      have : (z : K) < (n : K) / (min n 4 : ℕ) + 1 := by rw [← hz]; exact Int.ceil_lt_add_one _
      have h3 := mul_lt_mul_of_pos_right this hcK
      rw [add_mul, div_mul_cancel₀ _ hcK.ne', one_mul, ← hcast] at h3
      exact_mod_cast h3
    refine ⟨_, _, rfl, hcp, by omega, h1, h2, ?_, ?_⟩
    · intro k hk
      unfold scatterCell
      refine ⟨?_, Nat.mod_lt _ hcp⟩
      rw [Nat.div_lt_iff_lt_mul hcp]
      omega
    · intro k k' hkk
      unfold scatterCell at hkk
      simp only [Prod.mk.injEq] at hkk
      rw [← Nat.div_add_mod k (min n 4), ← Nat.div_add_mod k' (min n 4), hkk.1, hkk.2]

example : scatterGrid (K := ℚ) 6 = .ok (4, 2) ∧ scatterCell 4 5 = (1, 1) := by decide +kernel

omit [FloorRing K] in
/-- **C98 (scatter transparency).** Opaque up to 1000 samples, never below 0.1. -/
theorem C98_scatter_alpha (n : ℕ) (hn : n ≠ 0) :
    (1 / 10 : K) ≤ scatterAlpha n ∧ (scatterAlpha n : K) ≤ 1 ∧ ((scatterAlpha n : K) = 1 ↔ n ≤ 1000) ∧ ((scatterAlpha n : K) = 1 / 10 ↔ 10000 ≤ n) := by
  have hNp : (0 : K) < n := by
    have : 0 < n := Nat.pos_of_ne_zero hn
    exact_mod_cast this
  unfold scatterAlpha
  refine ⟨le_min (le_max_right _ _) (by norm_num), min_le_right _ _, ?_, ?_⟩
  · rw [min_eq_right_iff, le_max_iff]
    constructor
    · rintro (h | h)
      · rw [le_div_iff₀ hNp, one_mul] at h
        exact_mod_cast h
      · norm_num at h
    · intro h
      left
      rw [le_div_iff₀ hNp, one_mul]
      exact_mod_cast h
  · constructor
    · intro h
      have h1 : (1000 : K) / n ≤ 1 / 10 := by
        rcases min_choice (max (1000 / (n : K)) (1 / 10)) 1 with hc | hc
        · rw [hc] at h
          rw [← h]
          exact le_max_left _ _
        · rw [hc] at h
          norm_num at h
      rw [div_le_iff₀ hNp] at h1
      have h2 : (10000 : K) ≤ n := by linarith
      exact_mod_cast h2
    · intro h
      have h2 : (10000 : K) ≤ n := by exact_mod_cast h
      rw [max_eq_right (by rw [div_le_iff₀ hNp]; linarith), min_eq_left (by norm_num)]

example : (scatterAlpha 4000 : ℚ) = 1 / 4 := by decide +kernel

end Verif
