import Verif.Model.Dout
import Mathlib.Tactic.Positivity
import Mathlib.Data.List.GetD
import Mathlib.Algebra.BigOperators.Intervals
import Mathlib.Algebra.Order.BigOperators.Group.List

/-!
# C43, C44: bit activity and overflow check
-/

namespace Verif

open Model

variable {K : Type} [Field K] [LinearOrder K] [IsStrictOrderedRing K]

/-- A matrix of zeros and ones with `M` columns. -/
def BitMatrix (M : ℕ) (rows : List (List K)) : Prop := ∀ r ∈ rows, r.length = M ∧ ∀ b ∈ r, b = 0 ∨ b = 1

private theorem sum_bits (l : List K) (h : ∀ b ∈ l, b = 0 ∨ b = 1) : l.sum = ((l.countP fun b => decide (b = 1) : ℕ) : K) := by
  induction l with
  | nil => simp
  | cons a t ih =>
    rw [List.sum_cons, List.countP_cons, ih (fun b hb => h b (by simp [hb]))]
    rcases h a (by simp) with rfl | rfl
    · simp
    · simp [add_comm]

private theorem countP_col (rows : List (List K)) (j : ℕ) :
    ((column rows j).countP fun b => decide (b = 1)) = rows.countP fun r => decide (r.getD j 0 = 1) := by
  unfold column
  rw [List.countP_map]
  rfl

private theorem col_bits (M : ℕ) (rows : List (List K)) (h : BitMatrix M rows) (j : ℕ) : ∀ b ∈ column rows j, b = 0 ∨ b = 1 := by
  intro b hb
  unfold column at hb
  rw [List.mem_map] at hb
  obtain ⟨r, hr, rfl⟩ := hb
  by_cases hj : j < r.length
  · rw [List.getD_eq_getElem r 0 hj]
    exact (h r hr).2 _ (List.getElem_mem _)
  · left
    exact List.getD_eq_default r 0 (by omega)

/-- **C43.** For every non-empty matrix of zeros and ones the report has one value per column, equal to 100 times the share of ones.
It lies in `[0, 100]`, is 100 exactly if the bit is always one and 0 exactly if it never is. -/
theorem C43_bit_activity (M : ℕ) (rows : List (List K)) (h : BitMatrix M rows) (hne : rows ≠ []) :
    ∃ u, bitActivity rows = .ok u ∧ u.length = M ∧ ∀ j < M,
      u.getD j 0 = 100 * ((rows.countP fun r => decide (r.getD j 0 = 1) : ℕ) : K) / rows.length ∧ 0 ≤ u.getD j 0 ∧ u.getD j 0 ≤ 100 ∧
      (u.getD j 0 = 100 ↔ ∀ r ∈ rows, r.getD j 0 = 1) ∧ (u.getD j 0 = 0 ↔ ∀ r ∈ rows, r.getD j 0 = 0) := by
  obtain ⟨r0, rest, rfl⟩ := List.exists_cons_of_ne_nil hne
  refine ⟨_, rfl, by simp [(h r0 (by simp)).1], ?_⟩
  intro j hj
  set rows := r0 :: rest with hrows
  have hN : (0 : K) < rows.length := by rw [hrows]; simp; positivity
  have hval : ((List.range r0.length).map fun j => (column rows j).sum / rows.length * 100).getD j 0
      = 100 * ((rows.countP fun r => decide (r.getD j 0 = 1) : ℕ) : K) / rows.length := by
    rw [List.getD_eq_getElem _ _ (by simp [(h r0 (by rw [hrows]; simp)).1, hj])]
    simp only [List.getElem_map, List.getElem_range]
    rw [sum_bits _ (col_bits M rows h j), countP_col]
    ring
  rw [hval]
  set c := rows.countP fun r => decide (r.getD j 0 = 1) with hc
  have hcl : (c : K) ≤ rows.length := by exact_mod_cast List.countP_le_length
  refine ⟨rfl, by positivity, ?_, ?_, ?_⟩
  · rw [div_le_iff₀ hN]
    linarith
  · rw [div_eq_iff hN.ne']
    constructor
    · intro h1
      have h2 : (c : K) = rows.length := by linarith
      have h3 : c = rows.length := by exact_mod_cast h2
      rw [hc, List.countP_eq_length] at h3
      intro r hr
      simpa using h3 r hr
    · intro h1
      have h3 : c = rows.length := by
        rw [hc, List.countP_eq_length]
        intro r hr
        simpa using h1 r hr
      rw [h3]
  · rw [div_eq_zero_iff]
    have hbit : ∀ r ∈ rows, r.getD j 0 = 0 ∨ r.getD j 0 = 1 := fun r hr => col_bits M rows h j _ (List.mem_map_of_mem hr)
    constructor
    · rintro (h1 | h1)
      · have h2 : (c : K) = 0 := by linarith
        have h3 : c = 0 := by exact_mod_cast h2
        rw [hc, List.countP_eq_zero] at h3
        intro r hr
        rcases hbit r hr with h4 | h4
        · exact h4
        · exact absurd h4 (by simpa using h3 r hr)
      · exact absurd h1 hN.ne'
    · intro h1
      left
      have h3 : c = 0 := by
        rw [hc, List.countP_eq_zero]
        intro r hr
        rw [h1 r hr]
        simp
      rw [h3]
      simp

example : bitActivity [[1, 0, 1], [1, 0, (0 : ℚ)]] = .ok [100, 0, 50] := by decide +kernel

/-! ## Overflow -/

private theorem tail_bounds (row w : List K) (hl : row.length = w.length) (hb : ∀ b ∈ row, b = 0 ∨ b = 1) (hw : ∀ x ∈ w, 0 < x) :
    0 ≤ (row.zipWith (· * ·) w).sum ∧ (row.zipWith (· * ·) w).sum ≤ w.sum ∧
    ((row.zipWith (· * ·) w).sum ≤ 0 ↔ ∀ b ∈ row, b = 0) ∧ (w.sum ≤ (row.zipWith (· * ·) w).sum ↔ ∀ b ∈ row, b = 1) := by
  induction row generalizing w with
  | nil =>
    cases w with
    | nil => simp
    | cons x t => simp at hl
  | cons b t ih =>
    cases w with
    | nil => simp at hl
    | cons x u =>
      obtain ⟨h1, h2, h3, h4⟩ := ih u (by simpa using hl) (fun y hy => hb y (by simp [hy])) (fun y hy => hw y (by simp [hy]))
      have hx := hw x (by simp)
      simp only [List.zipWith_cons_cons, List.sum_cons, List.mem_cons, forall_eq_or_imp]
      rcases hb b (by simp) with rfl | rfl
      · refine ⟨by linarith, by linarith, ?_, ?_⟩
        · rw [← h3]
          simp
        · constructor
          · intro h
            exfalso
            linarith
          · rintro ⟨h, _⟩
            exact absurd h zero_ne_one
      · refine ⟨by linarith, by linarith, ?_, ?_⟩
        · constructor
          · intro h
            exfalso
            linarith
          · rintro ⟨h, _⟩
            exact absurd h one_ne_zero
        · rw [← h4]
          simp

private theorem drop_facts (M : ℕ) (row w : List K) (hr : row.length = M ∧ ∀ b ∈ row, b = 0 ∨ b = 1) (hl : w.length = M)
    (hw : ∀ x ∈ w, 0 < x) (i : ℕ) (hi : i < M) :
    0 < (w.drop i).sum ∧ 0 ≤ tailDot row w i / (w.drop i).sum ∧ tailDot row w i / (w.drop i).sum ≤ 1 ∧
    (tailDot row w i / (w.drop i).sum ≤ 0 ↔ ∀ b ∈ row.drop i, b = 0) ∧ (1 ≤ tailDot row w i / (w.drop i).sum ↔ ∀ b ∈ row.drop i, b = 1) := by
  have hw' : ∀ x ∈ w.drop i, 0 < x := fun x hx => hw x (List.mem_of_mem_drop hx)
  obtain ⟨h1, h2, h3, h4⟩ := tail_bounds (row.drop i) (w.drop i) (by simp [hr.1, hl]) (fun b hb => hr.2 b (List.mem_of_mem_drop hb)) hw'
  have hpos : 0 < (w.drop i).sum := by
    apply List.sum_pos _ hw'
    intro h0
    rw [List.drop_eq_nil_iff] at h0
    omega
  refine ⟨hpos, div_nonneg h1 hpos.le, (div_le_one hpos).mpr h2, ?_, ?_⟩
  · rw [← h3, div_le_iff₀ hpos, zero_mul]
    rfl
  · rw [← h4, le_div_iff₀ hpos, one_mul]
    rfl

private theorem foldMin_le (a : K) (l : List K) : foldMin a l ≤ a ∧ (∀ x ∈ l, foldMin a l ≤ x) ∧ (foldMin a l = a ∨ foldMin a l ∈ l) := by
  unfold foldMin
  induction l generalizing a with
  | nil => simp
  | cons x t ih =>
    obtain ⟨h1, h2, h3⟩ := ih (min a x)
    rw [List.foldl_cons]
    refine ⟨h1.trans (min_le_left _ _), ?_, ?_⟩
    · intro y hy
      rcases List.mem_cons.mp hy with rfl | hy
      · exact h1.trans (min_le_right _ _)
      · exact h2 y hy
    · rcases h3 with h3 | h3
      · rw [h3]
        rcases min_choice a x with h | h
        · left; exact h
        · right; rw [h]; simp
      · right; simp [h3]

private theorem le_foldMax (a : K) (l : List K) : a ≤ foldMax a l ∧ (∀ x ∈ l, x ≤ foldMax a l) ∧ (foldMax a l = a ∨ foldMax a l ∈ l) := by
  unfold foldMax
  induction l generalizing a with
  | nil => simp
  | cons x t ih =>
    obtain ⟨h1, h2, h3⟩ := ih (max a x)
    rw [List.foldl_cons]
    refine ⟨(le_max_left _ _).trans h1, ?_, ?_⟩
    · intro y hy
      rcases List.mem_cons.mp hy with rfl | hy
      · exact (le_max_right _ _).trans h1
      · exact h2 y hy
    · rcases h3 with h3 | h3
      · rw [h3]
        rcases max_choice a x with h | h
        · left; exact h
        · right; rw [h]; simp
      · right; simp [h3]

omit [IsStrictOrderedRing K] in
private theorem foldMin_mem (l : List K) (h : l ≠ []) [IsStrictOrderedRing K] : foldMin (l.headD 0) l ∈ l := by
  obtain ⟨a, t, rfl⟩ := List.exists_cons_of_ne_nil h
  rcases (foldMin_le ((a :: t).headD 0) (a :: t)).2.2 with h | h
  · rw [h]; simp
  · exact h

omit [IsStrictOrderedRing K] in
private theorem foldMax_mem (l : List K) (h : l ≠ []) [IsStrictOrderedRing K] : foldMax (l.headD 0) l ∈ l := by
  obtain ⟨a, t, rfl⟩ := List.exists_cons_of_ne_nil h
  rcases (le_foldMax ((a :: t).headD 0) (a :: t)).2.2 with h | h
  · rw [h]; simp
  · exact h

/-- The normalised residue of a sample from bit `i` on: the weighted share of the remaining bits. Written without the model. -/
def tailShare (w : List K) (row : List K) (i : ℕ) : K :=
  (∑ j ∈ Finset.Ico i w.length, row.getD j 0 * w.getD j 0) / ∑ j ∈ Finset.Ico i w.length, w.getD j 0

private theorem sum_drop (l : List K) (i : ℕ) : (l.drop i).sum = ∑ j ∈ Finset.Ico i l.length, l.getD j 0 := by
  induction l generalizing i with
  | nil => simp
  | cons a t ih =>
    cases i with
    | zero =>
      have := ih 0
      simp only [List.drop_zero, List.sum_cons] at this ⊢
      rw [this, List.length_cons, ← Finset.range_eq_Ico, ← Finset.range_eq_Ico, Finset.sum_range_succ']
      simp [add_comm]
    | succ i =>
      rw [List.drop_succ_cons, ih, List.length_cons, Finset.sum_Ico_eq_sum_range, Finset.sum_Ico_eq_sum_range]
      rw [show t.length + 1 - (i + 1) = t.length - i by omega]
      apply Finset.sum_congr rfl
      intro k _
      rw [show i + 1 + k = (i + k) + 1 by omega, List.getD_cons_succ]

private theorem share_eq (w row : List K) (h : row.length = w.length) (i : ℕ) : tailDot row w i / (w.drop i).sum = tailShare w row i := by
  unfold tailDot tailShare
  rw [sum_drop w i]
  congr 1
  rw [← List.drop_zipWith, sum_drop]
  simp only [List.length_zipWith, h, min_self]
  apply Finset.sum_congr rfl
  intro j hj
  have hj' := (Finset.mem_Ico.mp hj).2
  rw [List.getD_eq_getElem _ _ (by simp [h, hj']), List.getD_eq_getElem _ _ (by omega), List.getD_eq_getElem _ _ hj', List.getElem_zipWith]

/-- **C44.** For 0/1 codes and positive weights the report succeeds. At every bit its range is contained in `[0, 1]`, covers the
residue of every sample and is attained. The percentages count exactly the samples whose remaining bits are all zero (all one). -/
theorem C44_overflow (M : ℕ) (hM : M ≠ 0) (rows : List (List K)) (h : BitMatrix M rows) (hne : rows ≠ []) (w : List K) (hl : w.length = M)
    (hw : ∀ x ∈ w, 0 < x) (ofb : Option ℤ) (ho : ∀ o, ofb = some o → 1 ≤ o ∧ o ≤ M) :
    ∃ r, analyzeOverflow M rows w ofb = .ok r ∧ r.rangeMin.length = M ∧ r.rangeMax.length = M ∧ r.percentZero.length = M ∧ r.percentOne.length = M ∧
      (∀ i < M,
        0 ≤ r.rangeMin.getD i 0 ∧ r.rangeMax.getD i 0 ≤ 1 ∧
        (∀ row ∈ rows, r.rangeMin.getD i 0 ≤ tailShare w row i ∧ tailShare w row i ≤ r.rangeMax.getD i 0) ∧
        (∃ row ∈ rows, tailShare w row i = r.rangeMin.getD i 0) ∧ (∃ row ∈ rows, tailShare w row i = r.rangeMax.getD i 0) ∧
        r.percentZero.getD i 0 = 100 * ((rows.countP fun row => decide (∀ b ∈ row.drop i, b = 0) : ℕ) : K) / rows.length ∧
        r.percentOne.getD i 0 = 100 * ((rows.countP fun row => decide (∀ b ∈ row.drop i, b = 1) : ℕ) : K) / rows.length) ∧
      r.ovfZero = rows.map (fun row => decide (∀ b ∈ row.drop (M - (ofb.getD M).toNat), b = 0)) ∧
      r.ovfOne = rows.map (fun row => decide (∀ b ∈ row.drop (M - (ofb.getD M).toNat), b = 1)) := by
  have hofb : 1 ≤ ofb.getD (M : ℤ) ∧ ofb.getD (M : ℤ) ≤ M := by
    cases ofb with
    | none => simp; omega
    | some o => simpa using ho o rfl
  have hidx : ¬ ((M : ℤ) - ofb.getD M < -M ∨ (M : ℤ) ≤ M - ofb.getD M) := by omega
  unfold analyzeOverflow
  rw [if_neg (by simp [hl]), if_neg (by simp [hne])]
  simp only [hidx, if_false]
  refine ⟨_, rfl, by simp, by simp, by simp, by simp, ?_, ?_, ?_⟩
  · intro i hi
    have hpos : 0 < (w.drop i).sum := by
      obtain ⟨r0, _, h0⟩ := List.exists_cons_of_ne_nil hne
      exact (drop_facts M r0 w (h r0 (by simp [h0])) hl hw i hi).1
    have hshare : ∀ row ∈ rows, tailDot row w i / (w.drop i).sum = tailShare w row i := fun row hrow => share_eq w row ((h row hrow).1.trans hl.symm) i
    have hs : (rows.map fun r => tailDot r w i) ≠ [] := by simpa using hne
    simp only [List.getD_eq_getElem _ _ (show i < ((List.range M).map _).length by simpa using hi), List.getElem_map, List.getElem_range]
    obtain ⟨r1, hr1, e1⟩ := List.mem_map.mp (foldMin_mem _ hs)
    obtain ⟨r2, hr2, e2⟩ := List.mem_map.mp (foldMax_mem _ hs)
    have hcount : ∀ (p q : K → Bool) (pr : List K → Bool), (∀ row ∈ rows, p (tailDot row w i / (w.drop i).sum) = pr row) →
        percentOf p (residues rows w i) = 100 * ((rows.countP pr : ℕ) : K) / rows.length := by
      intro p q pr hp
      unfold percentOf residues
      rw [← List.countP_eq_length_filter, List.countP_map, List.length_map]
      rw [List.countP_congr (q := pr) (by intro row hrow; simp [hp row hrow])]
      ring
    refine ⟨?_, ?_, ?_, ?_, ?_, ?_, ?_⟩
    · rw [← e1]
      exact (drop_facts M r1 w (h r1 hr1) hl hw i hi).2.1
    · rw [← e2]
      exact (drop_facts M r2 w (h r2 hr2) hl hw i hi).2.2.1
    · intro row hrow
      rw [← hshare row hrow]
      constructor
      · exact div_le_div_of_nonneg_right ((foldMin_le _ _).2.1 _ (List.mem_map_of_mem (f := fun r => tailDot r w i) hrow)) hpos.le
      · exact div_le_div_of_nonneg_right ((le_foldMax _ _).2.1 _ (List.mem_map_of_mem (f := fun r => tailDot r w i) hrow)) hpos.le
    · exact ⟨r1, hr1, by rw [← hshare r1 hr1, e1]⟩
    · exact ⟨r2, hr2, by rw [← hshare r2 hr2, e2]⟩
    · apply hcount _ (fun _ => true)
      intro row hrow
      exact decide_eq_decide.mpr (drop_facts M row w (h row hrow) hl hw i hi).2.2.2.1
    · apply hcount _ (fun _ => true)
      intro row hrow
      exact decide_eq_decide.mpr (drop_facts M row w (h row hrow) hl hw i hi).2.2.2.2
  all_goals
    have hneg : ¬ ((M : ℤ) - ofb.getD M < 0) := by omega
    have hnat : ((M : ℤ) - ofb.getD M).toNat = M - (ofb.getD (M : ℤ)).toNat := by omega
    simp only [hneg, if_false, hnat]
    unfold residues
    rw [List.map_map]
    apply List.map_congr_left
    intro row hrow
  · exact decide_eq_decide.mpr (drop_facts M row w (h row hrow) hl hw _ (by omega)).2.2.2.1
  · exact decide_eq_decide.mpr (drop_facts M row w (h row hrow) hl hw _ (by omega)).2.2.2.2

/-- **C44 (rails grow towards the LSB).** A sample at a rail for some bit is at that rail for every later bit, so both percentages never
decrease from MSB to LSB. -/
theorem C44_percent_monotone (M : ℕ) (rows : List (List K)) (h : BitMatrix M rows) (hne : rows ≠ []) (w : List K) (hl : w.length = M)
    (hw : ∀ x ∈ w, 0 < x) (ofb : Option ℤ) (ho : ∀ o, ofb = some o → 1 ≤ o ∧ o ≤ M) (r : Overflow K) (hr : analyzeOverflow M rows w ofb = .ok r)
    (i j : ℕ) (hij : i ≤ j) (hj : j < M) :
    r.percentZero.getD i 0 ≤ r.percentZero.getD j 0 ∧ r.percentOne.getD i 0 ≤ r.percentOne.getD j 0 := by
  obtain ⟨r', h1, _, _, _, _, h2, _⟩ := C44_overflow M (by omega) rows h hne w hl hw ofb ho
  rw [h1] at hr
  injection hr with hr
  subst hr
  have hN : (0 : K) < rows.length := by
    have := List.length_pos_of_ne_nil hne
    exact_mod_cast this
  have key : ∀ v : K, (rows.countP fun row => decide (∀ b ∈ row.drop i, b = v)) ≤ rows.countP fun row => decide (∀ b ∈ row.drop j, b = v) := by
    intro v
    apply List.countP_mono_left
    intro row _ hall
    simp only [decide_eq_true_eq] at hall ⊢
    intro b hb
    apply hall
    obtain ⟨k, rfl⟩ := Nat.exists_eq_add_of_le hij
    rw [← List.drop_drop] at hb
    exact List.mem_of_mem_drop hb
  obtain ⟨_, _, _, _, _, hz, ho'⟩ := h2 i (by omega)
  obtain ⟨_, _, _, _, _, hz2, ho2⟩ := h2 j hj
  rw [hz, ho', hz2, ho2]
  constructor
  · apply div_le_div_of_nonneg_right _ hN.le
    exact mul_le_mul_of_nonneg_left (by exact_mod_cast key 0) (by norm_num)
  · apply div_le_div_of_nonneg_right _ hN.le
    exact mul_le_mul_of_nonneg_left (by exact_mod_cast key 1) (by norm_num)

private theorem foldMin_scale (c : K) (hc : 0 < c) (l : List K) (a : K) : foldMin (c * a) (l.map fun x => c * x) = c * foldMin a l := by
  unfold foldMin
  induction l generalizing a with
  | nil => rfl
  | cons x t ih => rw [List.map_cons, List.foldl_cons, List.foldl_cons, ← mul_min_of_nonneg _ _ hc.le, ih]

private theorem foldMax_scale (c : K) (hc : 0 < c) (l : List K) (a : K) : foldMax (c * a) (l.map fun x => c * x) = c * foldMax a l := by
  unfold foldMax
  induction l generalizing a with
  | nil => rfl
  | cons x t ih => rw [List.map_cons, List.foldl_cons, List.foldl_cons, ← mul_max_of_nonneg _ _ hc.le, ih]

omit [IsStrictOrderedRing K] in
private theorem tailDot_scale (c : K) (row w : List K) (i : ℕ) : tailDot row (w.map fun x => c * x) i = c * tailDot row w i := by
  unfold tailDot
  rw [← List.map_drop]
  generalize row.drop i = r
  generalize w.drop i = v
  induction r generalizing v with
  | nil => simp
  | cons x t ih =>
    cases v with
    | nil => simp
    | cons y u =>
      rw [List.map_cons, List.zipWith_cons_cons, List.zipWith_cons_cons, List.sum_cons, List.sum_cons, ih]
      ring

/-- **C44 (unit of the weights).** Only the ratios of the weights matter: a common positive factor changes nothing in the report. -/
theorem C44_scaling (M : ℕ) (rows : List (List K)) (w : List K) (c : K) (hc : 0 < c) (ofb : Option ℤ) :
    analyzeOverflow M rows (w.map fun x => c * x) ofb = analyzeOverflow M rows w ofb := by
  have htot : ∀ i, ((w.map fun x => c * x).drop i).sum = c * (w.drop i).sum := by
    intro i
    rw [← List.map_drop, List.sum_map_mul_left, List.map_id']
  have hres : ∀ i, residues rows (w.map fun x => c * x) i = residues rows w i := by
    intro i
    unfold residues
    apply List.map_congr_left
    intro r _
    rw [tailDot_scale, htot, mul_div_mul_left _ _ hc.ne']
  have hsum : ∀ i, (rows.map fun r => tailDot r (w.map fun x => c * x) i) = (rows.map fun r => tailDot r w i).map fun x => c * x := by
    intro i
    rw [List.map_map]
    apply List.map_congr_left
    intro r _
    exact tailDot_scale c r w i
  have hhead : ∀ l : List K, (l.map fun x => c * x).headD 0 = c * l.headD 0 := by
    intro l
    cases l <;> simp
  unfold analyzeOverflow
  simp only [List.length_map, hres, hsum, hhead, htot, foldMin_scale c hc, foldMax_scale c hc, mul_div_mul_left _ _ hc.ne']

example : analyzeOverflow 2 [[1, 0], [1, 1]] [6, (3 : ℚ)] none = analyzeOverflow 2 [[1, 0], [1, 1]] [2, 1] none := by
  have := C44_scaling 2 [[1, 0], [1, 1]] [2, (1 : ℚ)] 3 (by norm_num) none
  norm_num at this
  exact this

omit [IsStrictOrderedRing K] in
/-- **C44 (errors).** A wrong weight count or a record without samples is a `ValueError`; a checked bit outside `1 .. 2M` is an
`IndexError`; everything else succeeds. Positions `M+1 .. 2M`, beyond the documented range, wrap around silently. -/
theorem C44_errors (M : ℕ) (rows : List (List K)) (w : List K) (ofb : Option ℤ) :
    (analyzeOverflow M rows w ofb = .error .valueError ↔ w.length ≠ M ∨ (M ≠ 0 ∧ rows = [])) ∧
    (analyzeOverflow M rows w ofb = .error .indexError ↔ w.length = M ∧ (M = 0 ∨ rows ≠ []) ∧ ¬ (1 ≤ ofb.getD M ∧ ofb.getD M ≤ 2 * M)) := by
  unfold analyzeOverflow
  by_cases h1 : w.length ≠ M
  · rw [if_pos h1]
    simp [h1]
  · rw [if_neg h1]
    by_cases h2 : M ≠ 0 ∧ rows = []
    · rw [if_pos h2]
      simp [h2]
    · rw [if_neg h2]
      simp only
      push Not at h1
      by_cases h3 : (M : ℤ) - ofb.getD M < -M ∨ (M : ℤ) ≤ M - ofb.getD M
      · rw [if_pos h3]
        constructor
        · simp only [Except.error.injEq, reduceCtorEq, false_iff]
          tauto
        · simp only [true_iff]
          refine ⟨h1, by tauto, by omega⟩
      · rw [if_neg h3]
        constructor
        · simp only [reduceCtorEq, false_iff]
          tauto
        · simp only [reduceCtorEq, false_iff]
          rintro ⟨_, _, h4⟩
          apply h4
          omega

/-- Two samples of a three-bit converter with a redundant bit. -/
example : BitMatrix 3 [[1, 1, 1], [0, 0, (1 : ℚ)]] ∧ (∀ x ∈ [4, 2, (2 : ℚ)], 0 < x) := by
  constructor
  · intro r hr
    fin_cases hr <;> simp
  · decide +kernel

example : (analyzeOverflow 3 [[1, 1, 1], [0, 0, (1 : ℚ)]] [4, 2, 2] none).toOption.map (fun r => (r.rangeMin, r.rangeMax, r.percentZero, r.percentOne)) =
    some ([1 / 4, 1 / 2, 1], [1, 1, 1], [0, 0, 0], [50, 50, 100]) := by decide +kernel

end Verif
