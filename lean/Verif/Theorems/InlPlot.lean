import Verif.Model.InlPlot
import Verif.Theorems.PlotAxes
import Verif.Theorems.NumText
import Verif.Theorems.SineInl

/-!
# C102: the INL/DNL reports with their plots
-/

namespace Verif

open Model

variable {K : Type} [Field K] [LinearOrder K] [IsStrictOrderedRing K] [FloorRing K]

/-! ## Specification -/

/-- A point lies inside the frame of its curve. -/
def Spec.Shown (c : Curve K) (p : K × K) : Prop := c.xlim.1 ≤ p.1 ∧ p.1 ≤ c.xlim.2 ∧ c.ylim.1 ≤ p.2 ∧ p.2 ≤ c.ylim.2

/-- Where a code is drawn: as a fraction of full scale if the resolution is given, else at its own value. -/
def Spec.place (numBits : Option ℕ) (c : ℤ) : K :=
  match numBits with
  | some b => (c : K) / 2 ^ b
  | none => (c : K)

/-- The curve joins the values `data`, drawn at the codes `code`, and if it has a title the two numbers in it are the extremes of the values to half a
hundredth. -/
def Spec.Draws (c : Curve K) (numBits : Option ℕ) (code : List ℤ) (data : List K) (title : Bool) : Prop :=
  c.points.length = data.length ∧ (∀ i < data.length, c.points.getD i (0, 0) = (Spec.place numBits (code.getD i 0), data.getD i 0)) ∧
    (title = false → c.title = none) ∧
    (title = true → ∃ t lo hi, c.title = some t ∧ lo ∈ data ∧ hi ∈ data ∧ (∀ x ∈ data, lo ≤ x ∧ x ≤ hi) ∧
      |readText t.1 - lo| ≤ 1 / 200 ∧ |readText t.2 - hi| ≤ 1 / 200)

/-! ## Auxiliary facts -/

omit [Field K] [IsStrictOrderedRing K] [FloorRing K] in
private theorem ends_of_fold [Zero K] (l : List K) (h : l ≠ []) :
    foldMin (l.headD 0) l ∈ l ∧ foldMax (l.headD 0) l ∈ l ∧ ∀ x ∈ l, foldMin (l.headD 0) l ≤ x ∧ x ≤ foldMax (l.headD 0) l := by
  have kmin : ∀ (l : List K) (a : K), l.foldl min a ≤ a ∧ (∀ z ∈ l, l.foldl min a ≤ z) ∧ (l.foldl min a = a ∨ l.foldl min a ∈ l) := by
    intro l
    induction l with
    | nil => intro a; simp
    | cons x t ih =>
      intro a
      obtain ⟨h1, h2, h3⟩ := ih (min a x)
      rw [List.foldl_cons]
      refine ⟨h1.trans (min_le_left _ _), ?_, ?_⟩
      · intro y hy
        rcases List.mem_cons.mp hy with rfl | hy
        · exact h1.trans (min_le_right _ _)
        · exact h2 y hy
      · rcases h3 with h3 | h3
        · rw [h3]
          rcases min_choice a x with h | h
          · left; exact h
          · right; rw [h]; simp
        · right; simp [h3]
  have kmax : ∀ (l : List K) (a : K), a ≤ l.foldl max a ∧ (∀ z ∈ l, z ≤ l.foldl max a) ∧ (l.foldl max a = a ∨ l.foldl max a ∈ l) := by
    intro l
    induction l with
    | nil => intro a; simp
    | cons x t ih =>
      intro a
      obtain ⟨h1, h2, h3⟩ := ih (max a x)
      rw [List.foldl_cons]
      refine ⟨(le_max_left _ _).trans h1, ?_, ?_⟩
      · intro y hy
        rcases List.mem_cons.mp hy with rfl | hy
        · exact (le_max_right _ _).trans h1
        · exact h2 y hy
      · rcases h3 with h3 | h3
        · rw [h3]
          rcases max_choice a x with h | h
          · left; exact h
          · right; rw [h]; simp
        · right; simp [h3]
  obtain ⟨a, t, rfl⟩ := List.exists_cons_of_ne_nil h
  obtain ⟨_, h2, h3⟩ := kmin (a :: t) a
  obtain ⟨_, h5, h6⟩ := kmax (a :: t) a
  refine ⟨?_, ?_, fun x hx => ⟨h2 x hx, h5 x hx⟩⟩
  · rcases h3 with h3 | h3
    · show (a :: t).foldl min a ∈ _
      rw [h3]; simp
    · exact h3
  · rcases h6 with h6 | h6
    · show (a :: t).foldl max a ∈ _
      rw [h6]; simp
    · exact h6

private theorem ends_of_int (l : List ℤ) (h : l ≠ []) : (intMin l ∈ l ∧ ∀ z ∈ l, intMin l ≤ z) ∧ intMax l ∈ l ∧ ∀ z ∈ l, z ≤ intMax l := by
  obtain ⟨h1, h2, h3⟩ := ends_of_fold (K := ℤ) l h
  exact ⟨⟨h1, fun z hz => (h3 z hz).1⟩, h2, fun z hz => (h3 z hz).2⟩

private theorem unit_none : (unitOf "" : K) = 1 := by
  unfold unitOf
  simp

private theorem text_near (v : K) : |readText (fmtFixed v 2 "") - v| ≤ 1 / 200 := by
  have := fmt_error v 2 "" 1 unit_none one_pos
  norm_num at this ⊢
  exact this

omit [LinearOrder K] [IsStrictOrderedRing K] [FloorRing K] in
private theorem curveX_eq (numBits : Option ℕ) (code : List ℤ) : (curveX numBits code : List K) = code.map (Spec.place numBits) := by
  cases numBits <;> rfl

private theorem plot_draws (code : List ℤ) (data : List K) (numBits : Option ℕ) (title : Bool) (h1 : code.length = data.length) (h2 : data ≠ []) :
    ∃ c, plotCurve code data numBits title = .ok c ∧ Spec.Draws c numBits code data title ∧ c.xlim = curveXLimits numBits code ∧
      c.ylim = dnlLimits (foldMin (data.headD 0) data) (foldMax (data.headD 0) data) := by
  refine ⟨_, by unfold plotCurve; rw [if_neg (not_not.mpr h1), if_neg h2], ⟨?_, ?_, ?_, ?_⟩, rfl, rfl⟩
  · simp [curveX_eq, h1]
  · intro i hi
    simp only [curveX_eq]
    have hi' : i < code.length := by omega
    rw [List.getD_eq_getElem _ _ (by simp [h1, hi]), List.getElem_zip, List.getElem_map, List.getD_eq_getElem _ _ hi', List.getD_eq_getElem _ _ hi]
  · intro ht
    simp [ht]
  · intro ht
    obtain ⟨e1, e2, e3⟩ := ends_of_fold data h2
    exact ⟨(fmtFixed (foldMin (data.headD 0) data) 2 "", fmtFixed (foldMax (data.headD 0) data) 2 ""), foldMin (data.headD 0) data, foldMax (data.headD 0) data,
      if_pos ht, e1, e2, e3, text_near _, text_near _⟩

/-! ## Ramp -/

/-- **C102 (ramp: report and plot).** `analyze_inl_from_ramp` refuses any other input type; otherwise it fails exactly when `compute_inl_from_ramp` does and
returns its result, whether or not a plot is drawn: plotting never fails. The upper curve joins the DNL values at their codes, the lower one the INL values at
their transitions, with the extremes in the titles. -/
theorem C102_ramp (codes : List K) (numBits : Option ℤ) (codeMin : ℤ) (codeMax : Option ℤ) (endpoint : Endpoint) (exclude showTitle : Bool) :
    (∀ createPlot, analyzeInlRamp codes numBits codeMin codeMax false endpoint exclude createPlot showTitle = .error .valueError) ∧
    (∀ e createPlot, analyzeInlRamp codes numBits codeMin codeMax true endpoint exclude createPlot showTitle = .error e ↔
      inlFromRamp codes numBits codeMin codeMax endpoint exclude = .error e) ∧
    ∀ r, inlFromRamp codes numBits codeMin codeMax endpoint exclude = .ok r →
      analyzeInlRamp codes numBits codeMin codeMax true endpoint exclude false showTitle = .ok (r, none) ∧
      ∃ c : Curve K × Curve K, analyzeInlRamp codes numBits codeMin codeMax true endpoint exclude true showTitle = .ok (r, some c) ∧
        Spec.Draws c.1 (numBits.map Int.toNat) r.code r.dnl showTitle ∧ Spec.Draws c.2 (numBits.map Int.toNat) r.transitionCode r.inl showTitle := by
  have key : ∀ r, inlFromRamp codes numBits codeMin codeMax endpoint exclude = .ok r →
      ∃ c : Curve K × Curve K, analyzeInlRamp codes numBits codeMin codeMax true endpoint exclude true showTitle = .ok (r, some c) ∧
        Spec.Draws c.1 (numBits.map Int.toNat) r.code r.dnl showTitle ∧ Spec.Draws c.2 (numBits.map Int.toNat) r.transitionCode r.inl showTitle := by
    intro r hr
    obtain ⟨a, m, hm, _, _, _, h1, _, h2, _, h3, h4, _⟩ := C46_ramp_bookkeeping codes numBits codeMin codeMax endpoint exclude r hr
    obtain ⟨c1, e1, d1, _⟩ := plot_draws r.code r.dnl (numBits.map Int.toNat) showTitle (by rw [h1, h2]) (List.ne_nil_of_length_pos (by omega))
    obtain ⟨c2, e2, d2, _⟩ := plot_draws r.transitionCode r.inl (numBits.map Int.toNat) showTitle (by rw [h3, h4]) (List.ne_nil_of_length_pos (by omega))
    refine ⟨(c1, c2), ?_, d1, d2⟩
    simp [analyzeInlRamp, hr, plotDnlInl, e1, e2]
  refine ⟨fun p => by simp [analyzeInlRamp], fun e p => ?_, fun r hr => ⟨by simp [analyzeInlRamp, hr], key r hr⟩⟩
  cases hr : inlFromRamp codes numBits codeMin codeMax endpoint exclude with
  | error e' => simp [analyzeInlRamp, hr]
  | ok r =>
    obtain ⟨c, hc, _⟩ := key r hr
    cases p
    · simp [analyzeInlRamp, hr]
    · rw [hc]; simp

/-- **C102 (ramp: what is visible).** Without a given resolution every point of both curves lies inside its frame. With it, every point does exactly when the
analysed codes and transitions lie between 0 and full scale. -/
theorem C102_ramp_visible (codes : List K) (numBits : Option ℤ) (codeMin : ℤ) (codeMax : Option ℤ) (endpoint : Endpoint) (exclude showTitle : Bool)
    (r : RampInl K) (c : Curve K × Curve K) (h : analyzeInlRamp codes numBits codeMin codeMax true endpoint exclude true showTitle = .ok (r, some c)) :
    ((∀ p ∈ c.1.points, Spec.Shown c.1 p) ∧ ∀ p ∈ c.2.points, Spec.Shown c.2 p) ↔
      ∀ b, numBits = some b → 0 ≤ firstCode codeMin r.codeMax exclude ∧ lastCode codeMin r.codeMax exclude + 1 ≤ 2 ^ b.toNat := by
  obtain ⟨r', hr⟩ : ∃ r', inlFromRamp codes numBits codeMin codeMax endpoint exclude = .ok r' := by
    cases hr : inlFromRamp codes numBits codeMin codeMax endpoint exclude with
    | error e => simp [analyzeInlRamp, hr] at h
    | ok r' => exact ⟨r', rfl⟩
  obtain ⟨a, m, hm, _, ha, hb, h1, _, h2, _, h3, h4, _, _, hcode, _, _, htr, _⟩ := C46_ramp_bookkeeping codes numBits codeMin codeMax endpoint exclude r' hr
  obtain ⟨c1, e1, d1, x1, y1⟩ := plot_draws r'.code r'.dnl (numBits.map Int.toNat) showTitle (by rw [h1, h2]) (List.ne_nil_of_length_pos (by omega))
  obtain ⟨c2, e2, d2, x2, y2⟩ := plot_draws r'.transitionCode r'.inl (numBits.map Int.toNat) showTitle (by rw [h3, h4]) (List.ne_nil_of_length_pos (by omega))
  have hfin : r' = r ∧ (c1, c2) = c := by
    simp [analyzeInlRamp, hr, plotDnlInl, e1, e2] at h
    exact h
  obtain ⟨rfl, rfl⟩ := hfin
  obtain ⟨s1, s2⟩ := C92_ramp_shown codes numBits codeMin codeMax endpoint exclude r' hr
  obtain ⟨_, q1, q2, q3, q4⟩ := ramp_parts codes numBits codeMin codeMax endpoint exclude r' hr
  have hp1 : ∀ p, p ∈ c1.points ↔ ∃ i < m, p = (Spec.place (numBits.map Int.toNat) (a + i), r'.dnl.getD i 0) := by
    intro p
    obtain ⟨dl, dp, _⟩ := d1
    constructor
    · intro hp
      obtain ⟨i, hi, rfl⟩ := List.getElem_of_mem hp
      refine ⟨i, by omega, ?_⟩
      rw [← (hcode i (by omega)).1, ← dp i (by omega), List.getD_eq_getElem _ _ hi]
    · rintro ⟨i, hi, rfl⟩
      rw [← (hcode i (by omega)).1, ← dp i (by omega), List.getD_eq_getElem _ _ (by omega)]
      exact List.getElem_mem _
  have hp2 : ∀ p, p ∈ c2.points ↔ ∃ i ≤ m, p = (Spec.place (numBits.map Int.toNat) (a + i), r'.inl.getD i 0) := by
    intro p
    obtain ⟨dl, dp, _⟩ := d2
    constructor
    · intro hp
      obtain ⟨i, hi, rfl⟩ := List.getElem_of_mem hp
      refine ⟨i, by omega, ?_⟩
      rw [← (htr i (by omega)).1, ← dp i (by omega), List.getD_eq_getElem _ _ hi]
    · rintro ⟨i, hi, rfl⟩
      rw [← (htr i (by omega)).1, ← dp i (by omega), List.getD_eq_getElem _ _ (by omega)]
      exact List.getElem_mem _
  have hy1 : ∀ i < m, c1.ylim.1 ≤ r'.dnl.getD i 0 ∧ r'.dnl.getD i 0 ≤ c1.ylim.2 := by
    intro i hi
    rw [y1, ← q1, ← q2, List.getD_eq_getElem _ _ (by omega)]
    exact s1 _ (List.getElem_mem _)
  have hy2 : ∀ i ≤ m, c2.ylim.1 ≤ r'.inl.getD i 0 ∧ r'.inl.getD i 0 ≤ c2.ylim.2 := by
    intro i hi
    rw [y2, ← q3, ← q4, List.getD_eq_getElem _ _ (by omega)]
    exact s2 _ (List.getElem_mem _)
  have hiff : ((∀ p ∈ c1.points, Spec.Shown c1 p) ∧ ∀ p ∈ c2.points, Spec.Shown c2 p) ↔
      (∀ i < m, c1.xlim.1 ≤ Spec.place (numBits.map Int.toNat) (a + i) ∧ Spec.place (numBits.map Int.toNat) (a + i) ≤ c1.xlim.2) ∧
      ∀ i ≤ m, c2.xlim.1 ≤ Spec.place (numBits.map Int.toNat) (a + i) ∧ Spec.place (numBits.map Int.toNat) (a + i) ≤ c2.xlim.2 := by
    constructor
    · rintro ⟨z1, z2⟩
      refine ⟨fun i hi => ?_, fun i hi => ?_⟩
      · have := z1 _ ((hp1 _).mpr ⟨i, hi, rfl⟩)
        exact ⟨this.1, this.2.1⟩
      · have := z2 _ ((hp2 _).mpr ⟨i, hi, rfl⟩)
        exact ⟨this.1, this.2.1⟩
    · rintro ⟨z1, z2⟩
      constructor
      · intro p hp
        obtain ⟨i, hi, rfl⟩ := (hp1 p).mp hp
        exact ⟨(z1 i hi).1, (z1 i hi).2, (hy1 i hi).1, (hy1 i hi).2⟩
      · intro p hp
        obtain ⟨i, hi, rfl⟩ := (hp2 p).mp hp
        exact ⟨(z2 i hi).1, (z2 i hi).2, (hy2 i hi).1, (hy2 i hi).2⟩
  rw [hiff, x1, x2]
  cases numBits with
  | none =>
    refine ⟨fun _ b hb => by simp at hb, fun _ => ⟨fun i hi => ?_, fun i hi => ?_⟩⟩
    · obtain ⟨⟨_, z1⟩, _, z2⟩ := ends_of_int r'.code (List.ne_nil_of_length_pos (by omega))
      have hmem : a + (i : ℤ) ∈ r'.code := by
        rw [← (hcode i hi).1, List.getD_eq_getElem _ _ (by omega)]
        exact List.getElem_mem _
      exact ⟨Int.cast_le.mpr (z1 _ hmem), Int.cast_le.mpr (z2 _ hmem)⟩
    · obtain ⟨⟨_, z1⟩, _, z2⟩ := ends_of_int r'.transitionCode (List.ne_nil_of_length_pos (by omega))
      have hmem : a + (i : ℤ) ∈ r'.transitionCode := by
        rw [← (htr i hi).1, List.getD_eq_getElem _ _ (by omega)]
        exact List.getElem_mem _
      exact ⟨Int.cast_le.mpr (z1 _ hmem), Int.cast_le.mpr (z2 _ hmem)⟩
  | some b =>
    have hpw : (0 : K) < 2 ^ b.toNat := by positivity
    have hpl : ∀ z : ℤ, ((0 : K) ≤ Spec.place ((some b).map Int.toNat) z ↔ 0 ≤ z) ∧ ((Spec.place ((some b).map Int.toNat) z : K) ≤ 1 ↔ z ≤ 2 ^ b.toNat) := by
      intro z
      show ((0 : K) ≤ (z : K) / 2 ^ b.toNat ↔ 0 ≤ z) ∧ ((z : K) / 2 ^ b.toNat ≤ 1 ↔ z ≤ 2 ^ b.toNat)
      rw [div_nonneg_iff, div_le_one hpw]
      constructor
      · constructor
        · rintro (⟨h, _⟩ | ⟨_, h⟩)
          · exact_mod_cast h
          · exact absurd h (not_le.mpr hpw)
        · intro h
          exact Or.inl ⟨by exact_mod_cast h, hpw.le⟩
      · constructor
        · intro h; exact_mod_cast h
        · intro h; exact_mod_cast h
    constructor
    · rintro ⟨_, z2⟩ b' hb'
      obtain rfl : b = b' := by simpa using hb'
      have u0 := z2 0 (by omega)
      have um := z2 m le_rfl
      have v0 := (hpl _).1.mp u0.1
      have vm := (hpl _).2.mp um.2
      constructor <;> omega
    · intro hz
      obtain ⟨w1, w2⟩ := hz b rfl
      refine ⟨fun i hi => ⟨(hpl _).1.mpr (by omega), (hpl _).2.mpr (by omega)⟩, fun i hi => ⟨(hpl _).1.mpr (by omega), (hpl _).2.mpr (by omega)⟩⟩

/-- **C102 (unsigned ramp).** With the resolution given and the default code range everything is visible. -/
theorem C102_ramp_default (codes : List K) (b : ℤ) (endpoint : Endpoint) (exclude showTitle : Bool)
    (r : RampInl K) (c : Curve K × Curve K) (h : analyzeInlRamp codes (some b) 0 none true endpoint exclude true showTitle = .ok (r, some c)) :
    (∀ p ∈ c.1.points, Spec.Shown c.1 p) ∧ ∀ p ∈ c.2.points, Spec.Shown c.2 p := by
  rw [C102_ramp_visible codes (some b) 0 none endpoint exclude showTitle r c h]
  intro b' hb'
  obtain rfl : b = b' := by simpa using hb'
  obtain ⟨r', hr⟩ : ∃ r', inlFromRamp codes (some b) 0 none endpoint exclude = .ok r' := by
    cases hr : inlFromRamp codes (some b) 0 none endpoint exclude with
    | error e => simp [analyzeInlRamp, hr] at h
    | ok r' => exact ⟨r', rfl⟩
  obtain ⟨_, _, h3⟩ := C102_ramp codes (some b) 0 none endpoint exclude showTitle
  obtain ⟨_, c', hc, _⟩ := h3 r' hr
  rw [hc] at h
  simp only [Except.ok.injEq, Prod.mk.injEq] at h
  obtain ⟨rfl, _⟩ := h
  obtain ⟨a, m, hm, htop, ha, hb, _⟩ := C46_ramp_bookkeeping codes (some b) 0 none endpoint exclude r' hr
  have : r'.codeMax = 0 + 2 ^ b.toNat - 1 := by
    unfold TopCode at htop
    simpa using htop
  have hp : (0 : ℤ) < 2 ^ b.toNat := by positivity
  unfold firstCode lastCode
  rw [this]
  split_ifs <;> constructor <;> omega

/-- **C102 (signed ramp, not shown).** A two-bit ramp over the signed codes -2 .. 1 is analysed, but the curves are drawn at -1/4 and beyond on an axis from 0 to
1: half of the DNL is invisible. -/
theorem C102_signed_hidden : ∃ (r : RampInl ℚ) (c : Curve ℚ × Curve ℚ),
    analyzeInlRamp [-2, -1, -1, 0, 0, (1 : ℚ)] (some 2) (-2) none true .endpoints true true true = .ok (r, some c) ∧
      c.1.points = [(-1 / 4, 0), (0, 0)] ∧ c.1.xlim = (0, 1) ∧ ¬ Spec.Shown c.1 (-1 / 4, 0) := by
  have key : (analyzeInlRamp [-2, -1, -1, 0, 0, (1 : ℚ)] (some 2) (-2) none true .endpoints true true true).toOption.map
      (fun p => p.2.map fun c => (c.1.points, c.1.xlim)) = some (some ([(-1 / 4, 0), (0, 0)], (0, 1))) := by decide +kernel
  cases h : analyzeInlRamp [-2, -1, -1, 0, 0, (1 : ℚ)] (some 2) (-2) none true .endpoints true true true with
  | error e => rw [h] at key; simp [Except.toOption] at key
  | ok p =>
    obtain ⟨r, c⟩ := p
    rw [h] at key
    cases c with
    | none => simp [Except.toOption] at key
    | some c =>
      simp only [Except.toOption, Option.map_some, Option.some.injEq, Prod.mk.injEq] at key
      refine ⟨r, c, rfl, key.1, key.2, fun hs => ?_⟩
      have := hs.1
      rw [key.2] at this
      norm_num at this

/-- A two-bit ramp from 0 meets the hypotheses: the report has both inner codes and all points are visible. -/
example : (analyzeInlRamp [0, 1, 1, 1, 2, (3 : ℚ)] (some 2) 0 none true .endpoints true true true).toOption.map
    (fun p => p.2.map fun c => (c.1.points, c.2.points)) =
    some (some ([(1 / 4, 1 / 2), (1 / 2, -1 / 2)], [(1 / 4, 0), (1 / 2, 1 / 2), (3 / 4, 0)])) := by
  decide +kernel

example : (analyzeInlRamp [0, 1, 1, 1, 2, (3 : ℚ)] (some 2) 0 none true .endpoints true true true).toOption.map
    (fun p => p.2.map fun c => (c.1.ylim, c.1.title)) = some (some ((-1, 1), some (⟨-50, 2, ""⟩, ⟨50, 2, ""⟩))) := by
  decide +kernel

/-! ## Sine -/

private theorem diffs_len (l : List ℝ) : (diffs l).length = l.length - 1 := by
  simp [diffs]

private theorem sine_lengths (data : List ℝ) (isFloat : Bool) (numBits : Option ℕ) (fullScale : Option ℝ) (clipPercent : ℝ) (r : SineInl)
    (h : inlFromSine data isFloat numBits fullScale clipPercent = .ok r) : r.code.length = r.dnl.length ∧ r.inl.length = r.dnl.length := by
  unfold inlFromSine at h
  split_ifs at h
  simp only [Except.ok.injEq] at h
  subst h
  refine ⟨?_, by simp [cumsum]⟩
  simp [sineDnl, diffs_len, cosTransform, cumsum, histogram, List.length_dropLast]

/-- **C102 (sine: report and plot).** `analyze_inl_from_sine` without a plot returns the result of `compute_inl_from_sine` and fails with it. With a plot it
returns the same result, the curves joining DNL and INL at the returned codes, except that a result without any code, which the computation returns, makes the
plot fail. -/
theorem C102_sine (data : List ℝ) (isFloat : Bool) (numBits : Option ℕ) (fullScale : Option ℝ) (clipPercent : ℝ) (showTitle : Bool) :
    (∀ e, inlFromSine data isFloat numBits fullScale clipPercent = .error e →
      ∀ createPlot, analyzeInlSine data isFloat numBits fullScale clipPercent createPlot showTitle = .error e) ∧
    ∀ r, inlFromSine data isFloat numBits fullScale clipPercent = .ok r →
      analyzeInlSine data isFloat numBits fullScale clipPercent false showTitle = .ok (r, none) ∧
      (r.code = [] → analyzeInlSine data isFloat numBits fullScale clipPercent true showTitle = .error .valueError) ∧
      (r.code ≠ [] → ∃ c : Curve ℝ × Curve ℝ, analyzeInlSine data isFloat numBits fullScale clipPercent true showTitle = .ok (r, some c) ∧
        Spec.Draws c.1 numBits r.code r.dnl showTitle ∧ Spec.Draws c.2 numBits r.code r.inl showTitle) := by
  refine ⟨fun e he p => by simp [analyzeInlSine, he], fun r hr => ⟨by simp [analyzeInlSine, hr], fun h0 => ?_, fun h0 => ?_⟩⟩
  · obtain ⟨l1, l2⟩ := sine_lengths data isFloat numBits fullScale clipPercent r hr
    have hd : r.dnl = [] := by rw [h0] at l1; exact List.eq_nil_of_length_eq_zero l1.symm
    simp [analyzeInlSine, hr, plotDnlInl, plotCurve, h0, hd]
  · obtain ⟨l1, l2⟩ := sine_lengths data isFloat numBits fullScale clipPercent r hr
    have hpos := List.length_pos_iff.mpr h0
    obtain ⟨c1, e1, d1, _⟩ := plot_draws r.code r.dnl numBits showTitle l1 (List.ne_nil_of_length_pos (by omega))
    obtain ⟨c2, e2, d2, _⟩ := plot_draws r.code r.inl numBits showTitle (by omega) (List.ne_nil_of_length_pos (by omega))
    exact ⟨(c1, c2), by simp [analyzeInlSine, hr, plotDnlInl, e1, e2], d1, d2⟩

/-- **C102 (sine: plot of a narrow record).** On integer codes the computation always succeeds, but the call with a plot fails when fewer than three codes are
kept. -/
theorem C102_sine_narrow (zs : List ℤ) (hne : zs ≠ []) (numBits : Option ℕ) (fullScale : Option ℝ) (clipPercent : ℝ) (showTitle : Bool) (lo hi : ℤ)
    (hk : KeptRange zs clipPercent lo hi) :
    (∃ r, analyzeInlSine (zs.map fun (z : ℤ) => (z : ℝ)) false numBits fullScale clipPercent false showTitle = .ok (r, none)) ∧
    (analyzeInlSine (zs.map fun (z : ℤ) => (z : ℝ)) false numBits fullScale clipPercent true showTitle = .error .valueError ↔ hi ≤ lo + 1) := by
  obtain ⟨r, lo', hi', hk', hr, hl, _, hc, _⟩ := C48_sine_bookkeeping zs hne numBits fullScale clipPercent
  have hsame : lo' = lo ∧ hi' = hi := by
    obtain ⟨mn, mx, ⟨a1, a2⟩, ⟨a3, a4⟩, a5, a6⟩ := hk
    obtain ⟨mn', mx', ⟨b1, b2⟩, ⟨b3, b4⟩, b5, b6⟩ := hk'
    obtain rfl : mn' = mn := le_antisymm (b2 _ a1) (a2 _ b1)
    obtain rfl : mx' = mx := le_antisymm (a4 _ b3) (b4 _ a3)
    rw [a6, a5, b6, b5]
    exact ⟨rfl, rfl⟩
  obtain ⟨rfl, rfl⟩ := hsame
  obtain ⟨_, h⟩ := C102_sine (zs.map fun (z : ℤ) => (z : ℝ)) false numBits fullScale clipPercent showTitle
  obtain ⟨h1, h2, h3⟩ := h r hr
  refine ⟨⟨r, h1⟩, ?_⟩
  by_cases h0 : r.code = []
  · have : r.code.length = 0 := by rw [h0]; rfl
    exact ⟨fun _ => by omega, fun _ => h2 h0⟩
  · obtain ⟨c, e, _⟩ := h3 h0
    have := List.length_pos_iff.mpr h0
    rw [e]
    constructor
    · intro hh; cases hh
    · intro hh; omega

/-- Two adjacent codes: fine without a plot, an error with it. -/
example : (∃ r, analyzeInlSine ([3, 4, 4].map fun (z : ℤ) => (z : ℝ)) false none none 0 false true = .ok (r, none)) ∧
    analyzeInlSine ([3, 4, 4].map fun (z : ℤ) => (z : ℝ)) false none none 0 true true = .error .valueError := by
  have hk : KeptRange [3, 4, 4] 0 3 4 := ⟨3, 4, by simp, by simp, by rw [zero_mul]; simp [rint], by rw [zero_mul]; simp [rint]⟩
  obtain ⟨h1, h2⟩ := C102_sine_narrow [3, 4, 4] (by simp) none none 0 true 3 4 hk
  exact ⟨h1, h2.mpr (by norm_num)⟩

private theorem around_mean (l : List ℝ) (h : l ≠ []) : (∃ x ∈ l, x ≤ meanOf l) ∧ ∃ x ∈ l, meanOf l ≤ x := by
  have hn : (0 : ℝ) < l.length := by exact_mod_cast List.length_pos_iff.mpr h
  have e : l.sum = l.length * meanOf l := by
    unfold meanOf
    field_simp
  constructor
  · by_contra hc
    push Not at hc
    have := List.sum_lt_sum_of_ne_nil h (fun _ => meanOf l) id hc
    simp only [List.map_id, List.map_const', List.sum_replicate, nsmul_eq_mul] at this
    linarith
  · by_contra hc
    push Not at hc
    have := List.sum_lt_sum_of_ne_nil h id (fun _ => meanOf l) hc
    simp only [List.map_id, List.map_const', List.sum_replicate, nsmul_eq_mul] at this
    linarith

private theorem sineDnl_sides (counts : List ℕ) (h : sineDnl counts ≠ []) : (∃ x ∈ sineDnl counts, x ≤ 0) ∧ ∃ x ∈ sineDnl counts, 0 ≤ x := by
  unfold sineDnl at h ⊢
  simp only at h ⊢
  generalize ((diffs (cosTransform counts).dropLast).map fun x => x / (diffs (cosTransform counts).dropLast).sum).map
    (fun (x : ℝ) => x * (counts.length : ℝ) - 1) = q at h ⊢
  obtain ⟨⟨x, hx, h1⟩, y, hy, h2⟩ := around_mean q (by simpa using h)
  exact ⟨⟨_, List.mem_map.mpr ⟨x, hx, rfl⟩, max_le (by linarith) (by norm_num)⟩, _, List.mem_map.mpr ⟨y, hy, rfl⟩, le_max_of_le_left (by linarith)⟩

/-- **C102 (sine: DNL is visible).** On a record of integer codes with a sample inside the kept range, all points of the DNL curve lie inside its frame, if the
kept codes lie between 0 and full scale in case the resolution is given. -/
theorem C102_sine_dnl_visible (zs : List ℤ) (numBits : Option ℕ) (fullScale : Option ℝ) (clipPercent : ℝ) (showTitle : Bool) (lo hi : ℤ)
    (hk : KeptRange zs clipPercent lo hi) (hin : InteriorHit zs lo hi) (hb : ∀ b, numBits = some b → 0 ≤ lo ∧ hi ≤ 2 ^ b) :
    ∃ (r : SineInl) (c : Curve ℝ × Curve ℝ), analyzeInlSine (zs.map fun (z : ℤ) => (z : ℝ)) false numBits fullScale clipPercent true showTitle = .ok (r, some c) ∧
      c.1.points.length = (hi - lo - 1).toNat ∧ ∀ p ∈ c.1.points, Spec.Shown c.1 p := by
  have hne : zs ≠ [] := by
    obtain ⟨z, hz, _⟩ := hin
    exact List.ne_nil_of_mem hz
  obtain ⟨z0, _, z1, z2⟩ := hin
  obtain ⟨r, lo', hi', hk', hr, hl, hil, hc, hbk⟩ := C48_sine_bookkeeping zs hne numBits fullScale clipPercent
  have hsame : lo' = lo ∧ hi' = hi := by
    obtain ⟨mn, mx, ⟨a1, a2⟩, ⟨a3, a4⟩, a5, a6⟩ := hk
    obtain ⟨mn', mx', ⟨b1, b2⟩, ⟨b3, b4⟩, b5, b6⟩ := hk'
    obtain rfl : mn' = mn := le_antisymm (b2 _ a1) (a2 _ b1)
    obtain rfl : mx' = mx := le_antisymm (a4 _ b3) (b4 _ a3)
    rw [a6, a5, b6, b5]
    exact ⟨rfl, rfl⟩
  obtain ⟨rfl, rfl⟩ := hsame
  have hpos : 0 < r.dnl.length := by omega
  have hdne : r.dnl ≠ [] := List.ne_nil_of_length_pos hpos
  obtain ⟨c1, e1, d1, x1, y1⟩ := plot_draws r.code r.dnl numBits showTitle hc hdne
  obtain ⟨c2, e2, d2, _⟩ := plot_draws r.code r.inl numBits showTitle (by omega) (List.ne_nil_of_length_pos (by omega))
  refine ⟨r, (c1, c2), by simp [analyzeInlSine, hr, plotDnlInl, e1, e2], by rw [← hl]; exact d1.1, ?_⟩
  have hsides : (∃ x ∈ r.dnl, x ≤ 0) ∧ ∃ x ∈ r.dnl, 0 ≤ x := by
    have hr' := hr
    unfold inlFromSine at hr'
    rw [if_neg (by simpa using hne)] at hr'
    simp only [Except.ok.injEq] at hr'
    rw [← hr'] at hdne ⊢
    exact sineDnl_sides _ hdne
  obtain ⟨m1, m2, m3⟩ := ends_of_fold r.dnl hdne
  obtain ⟨⟨u, hu, hu0⟩, v, hv, hv0⟩ := hsides
  obtain ⟨f1, f2⟩ := (C92_dnl_limits _ _ ((m3 _ m1).2)).2.mpr (Or.inr ⟨(m3 u hu).1.trans hu0, hv0.trans (m3 v hv).2⟩)
  intro p hp
  obtain ⟨i, hi', rfl⟩ := List.getElem_of_mem hp
  have hi2 : i < r.dnl.length := by rw [← d1.1]; exact hi'
  have hpt := d1.2.1 i hi2
  rw [List.getD_eq_getElem _ _ hi'] at hpt
  simp only at hpt ⊢
  have hcode := (hbk i hi2).1
  have hdm : r.dnl.getD i 0 ∈ r.dnl := by
    rw [List.getD_eq_getElem _ _ hi2]
    exact List.getElem_mem _
  refine ⟨?_, ?_, ?_, ?_⟩
  · rw [hpt, x1, hcode]
    cases numBits with
    | none =>
      obtain ⟨⟨_, w1⟩, _, w2⟩ := ends_of_int r.code (List.ne_nil_of_length_pos (by omega))
      refine Int.cast_le.mpr (w1 _ ?_)
      rw [← hcode, List.getD_eq_getElem _ _ (by omega)]
      exact List.getElem_mem _
    | some b =>
      obtain ⟨w1, w2⟩ := hb b rfl
      have : (0 : ℝ) ≤ ((lo' + i : ℤ) : ℝ) := by exact_mod_cast (by omega : 0 ≤ lo' + (i : ℤ))
      exact div_nonneg this (by positivity)
  · rw [hpt, x1, hcode]
    cases numBits with
    | none =>
      obtain ⟨⟨_, w1⟩, _, w2⟩ := ends_of_int r.code (List.ne_nil_of_length_pos (by omega))
      refine Int.cast_le.mpr (w2 _ ?_)
      rw [← hcode, List.getD_eq_getElem _ _ (by omega)]
      exact List.getElem_mem _
    | some b =>
      obtain ⟨w1, w2⟩ := hb b rfl
      have : ((lo' + i : ℤ) : ℝ) ≤ 2 ^ b := by exact_mod_cast (by omega : lo' + (i : ℤ) ≤ 2 ^ b)
      exact (div_le_one (by positivity)).mpr this
  · rw [hpt, y1]
    exact f1.trans (m3 _ hdm).1
  · rw [hpt, y1]
    exact (m3 _ hdm).2.trans f2

example : ∃ (r : SineInl) (c : Curve ℝ × Curve ℝ), analyzeInlSine ([0, 1, 4].map fun (z : ℤ) => (z : ℝ)) false (some 2) none 0 true true = .ok (r, some c) ∧
    c.1.points.length = 3 ∧ ∀ p ∈ c.1.points, Spec.Shown c.1 p :=
  C102_sine_dnl_visible [0, 1, 4] (some 2) none 0 true 0 4
    ⟨0, 4, by simp, by simp, by rw [zero_mul]; simp [rint], by rw [zero_mul]; simp [rint]⟩ ⟨1, by simp, by norm_num, by norm_num⟩
    (fun b hb => by injection hb with hb; subst hb; norm_num)

/-- **C102 (sine: INL may be cut off).** On the codes 0, 1, 4 the INL runs from 10/3 down to 4/3, on an axis that starts at 8/5. -/
theorem C102_sine_inl_hidden : ∃ (r : SineInl) (c : Curve ℝ × Curve ℝ),
    analyzeInlSine ([0, 1, 4].map fun (z : ℤ) => (z : ℝ)) false none none 0 true true = .ok (r, some c) ∧
      (2, 4 / 3) ∈ c.2.points ∧ ¬ Spec.Shown c.2 (2, 4 / 3) := by
  have hk : KeptRange [0, 1, 4] 0 0 4 := ⟨0, 4, by simp, by simp, by rw [zero_mul]; simp [rint], by rw [zero_mul]; simp [rint]⟩
  have hin : InteriorHit [0, 1, 4] 0 4 := ⟨1, by simp, by norm_num, by norm_num⟩
  obtain ⟨r, hr, hl, hv⟩ := C48_sine_value [0, 1, 4] none none 0 0 4 hk hin
  obtain ⟨r', lo', hi', hk', hr', _, hil, hcl, hbk⟩ := C48_sine_bookkeeping [0, 1, 4] (by simp) none none 0
  obtain rfl : r = r' := by
    rw [hr] at hr'
    injection hr'
  have hl3 : r.dnl.length = 3 := by rw [hl]; rfl
  have hlo : lo' = 0 := by
    obtain ⟨mn, mx, ⟨a1, a2⟩, ⟨a3, a4⟩, a5, a6⟩ := hk
    obtain ⟨mn', mx', ⟨b1, b2⟩, ⟨b3, b4⟩, b5, b6⟩ := hk'
    obtain rfl : mn' = mn := le_antisymm (b2 _ a1) (a2 _ b1)
    obtain rfl : mx' = mx := le_antisymm (a4 _ b3) (b4 _ a3)
    rw [b6, b5, a6, a5]
  subst hlo
  have l0 : sineLevel [0, 1, 4] 0 = -Real.cos (Real.pi * 1 / 3) := by simp [sineLevel, atMost]
  have l1 : sineLevel [0, 1, 4] 1 = -Real.cos (Real.pi * 2 / 3) := by simp [sineLevel, atMost]
  have l2 : sineLevel [0, 1, 4] 2 = -Real.cos (Real.pi * 2 / 3) := by simp [sineLevel, atMost]
  have l3 : sineLevel [0, 1, 4] 3 = -Real.cos (Real.pi * 2 / 3) := by simp [sineLevel, atMost]
  have c1 : Real.cos (Real.pi * 1 / 3) = 1 / 2 := by rw [mul_one, Real.cos_pi_div_three]
  have c2 : Real.cos (Real.pi * 2 / 3) = -(1 / 2) := by
    rw [show Real.pi * 2 / 3 = Real.pi - Real.pi / 3 by ring, Real.cos_pi_sub, Real.cos_pi_div_three]
  have d0 : r.dnl.getD 0 0 = 10 / 3 := by
    rw [hv 0 (by omega)]
    norm_num [l0, l1, l2, l3, c1, c2]
  have d1 : r.dnl.getD 1 0 = -1 := by
    rw [hv 1 (by omega)]
    norm_num [l0, l1, l2, l3, c1, c2]
  have d2 : r.dnl.getD 2 0 = -1 := by
    rw [hv 2 (by omega)]
    norm_num [l0, l1, l2, l3, c1, c2]
  have i0 : r.inl.getD 0 0 = 10 / 3 := by
    rw [(hbk 0 (by omega)).2.2, Finset.sum_range_one, d0]
  have i1 : r.inl.getD 1 0 = 7 / 3 := by
    rw [(hbk 1 (by omega)).2.2]; simp only [Finset.sum_range_succ, Finset.sum_range_zero, d0, d1]; norm_num
  have i2 : r.inl.getD 2 0 = 4 / 3 := by
    rw [(hbk 2 (by omega)).2.2]; simp only [Finset.sum_range_succ, Finset.sum_range_zero, d0, d1, d2]; norm_num
  have hinl : r.inl = [10 / 3, 7 / 3, 4 / 3] := by
    apply List.ext_getElem
    · simp; omega
    · intro j h1 h2
      have hj : j < 3 := by simpa using h2
      rw [← List.getD_eq_getElem _ 0 h1]
      obtain rfl | rfl | rfl : j = 0 ∨ j = 1 ∨ j = 2 := by omega
      · rw [i0]; rfl
      · rw [i1]; rfl
      · rw [i2]; rfl
  obtain ⟨a, e1, p1, _⟩ := plot_draws r.code r.dnl none true hcl (List.ne_nil_of_length_pos (by omega))
  obtain ⟨b, e2, p2, x2, y2⟩ := plot_draws r.code r.inl none true (by omega) (List.ne_nil_of_length_pos (by omega))
  refine ⟨r, (a, b), ?_, ?_, ?_⟩
  · unfold analyzeInlSine plotDnlInl
    rw [hr]
    simp [e1, e2]
  · have := p2.2.1 2 (by omega)
    rw [(hbk 2 (by omega)).1, i2, List.getD_eq_getElem _ _ (by rw [p2.1]; omega)] at this
    have e : ((2 : ℝ), (4 / 3 : ℝ)) = b.points[2]'(by rw [p2.1]; omega) := by
      rw [this]
      simp [Spec.place]
    rw [e]
    exact List.getElem_mem _
  · intro hs
    have h3 := hs.2.2.1
    simp only [y2, hinl] at h3
    norm_num [foldMin, foldMax, dnlLimits] at h3

end Verif
