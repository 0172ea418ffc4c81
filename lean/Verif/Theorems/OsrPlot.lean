import Verif.Model.OsrPlot
import Verif.Theorems.Osr
import Verif.Theorems.Frequency
import Verif.Theorems.SineFit
import Mathlib.Data.List.GetD

/-!
# C97: the OSR sweep and its plot
-/

namespace Verif

open Model Finset

/-! ## The curves -/

/-- SNDR, SFDR and ENOB of one OSR value by the definition: signal power over the sum (the maximum) of the error bins `k` with
`k ≤ c - 1`, where `c` is the number of in-band bins. -/
def SweepPoint (amp : ℝ) (e : List ℝ) (n : ℕ) (osr sndr sfdr enob : ℝ) : Prop :=
  ∃ c spur, rfftInbandBinCount (n : ℤ) osr = .ok c ∧ (∃ k < c, spur = e.getD k 0) ∧ (∀ k < c, e.getD k 0 ≤ spur) ∧
    sndr = 10 * Real.logb 10 (amp ^ 2 / 2 / ∑ k ∈ range c, e.getD k 0) ∧ sfdr = 10 * Real.logb 10 (amp ^ 2 / 2 / spur) ∧
    enob = (sndr - 176 / 100) / (602 / 100)

private theorem getD_map_range (n : ℕ) (f : ℕ → ℝ) (i : ℕ) (hi : i < n) : ((List.range n).map f).getD i 0 = f i := by
  rw [List.getD_eq_getElem?_getD, List.getElem?_map, List.getElem?_range hi]
  rfl

/-- **C97 (values).** For every error spectrum and every list of positive OSR values in any order the sweep succeeds, returns the OSR values unchanged
and one value of each metric per OSR, equal to the definition evaluated for this OSR alone. -/
theorem C97_values (amp : ℝ) (e : List ℝ) (he : ∀ v ∈ e, 0 ≤ v) (n : ℕ) (hn : 0 < n) (hl : e.length = n / 2 + 1) (osr : List ℝ)
    (ho : ∀ v ∈ osr, 0 < v) (order : List ℕ) (hord : IsSweepOrder osr order) :
    ∃ c, sweepCurves amp e n osr order = .ok c ∧ c.osr = osr ∧ c.sndr.length = osr.length ∧ c.sfdr.length = osr.length ∧
      c.enob.length = osr.length ∧
      ∀ i < osr.length, SweepPoint amp e n (osr.getD i 0) (c.sndr.getD i 0) (c.sfdr.getD i 0) (c.enob.getD i 0) := by
  obtain ⟨out, hout, hall⟩ := C35_sweep_equals_direct e he (n : ℤ) (by exact_mod_cast hn) (by omega) osr ho order hord
  refine ⟨_, by unfold sweepCurves; rw [hout], rfl, by simp, by simp, by simp, ?_⟩
  intro i hi
  obtain ⟨c, r, hc, hr, h1, h2, h3⟩ := hall i hi
  refine ⟨c, r.2, hc, h2, h3, ?_, ?_, ?_⟩
  · simp only
    rw [getD_map_range _ _ _ hi, hr, Option.getD_some, sweepSndr, h1]
  · simp only
    rw [getD_map_range _ _ _ hi, hr, Option.getD_some, sweepSfdr]
  · simp only
    rw [List.map_map, getD_map_range _ _ _ hi, getD_map_range _ _ _ hi]
    rfl

/-- Positive noise and spur power of an OSR value. -/
private theorem spur_pos (e : List ℝ) (c : ℕ) (spur : ℝ) (h2 : ∀ k < c, e.getD k 0 ≤ spur) (hp : 0 < ∑ k ∈ range c, e.getD k 0) : 0 < spur := by
  by_contra hc
  push Not at hc
  have : ∑ k ∈ range c, e.getD k 0 ≤ 0 := sum_nonpos fun k hk => le_trans (h2 k (mem_range.mp hk)) hc
  linarith

private theorem db_mono (a x y : ℝ) (ha : 0 < a) (hy : 0 < y) (hxy : y ≤ x) :
    10 * Real.logb 10 (a / x) ≤ 10 * Real.logb 10 (a / y) := by
  have hx : 0 < x := lt_of_lt_of_le hy hxy
  have := Real.logb_le_logb_of_le (by norm_num : (1 : ℝ) < 10) (by positivity : 0 < a / x) (div_le_div_of_nonneg_left ha.le hy hxy)
  linarith

/-- **C97 (monotone).** More oversampling never lowers SNDR, SFDR or ENOB, and SFDR is never below SNDR; whenever the narrower band contains some error. -/
theorem C97_monotone (amp : ℝ) (hamp : 0 < amp) (e : List ℝ) (he : ∀ v ∈ e, 0 ≤ v) (n : ℕ) (hn : 0 < n) (hl : e.length = n / 2 + 1) (osr : List ℝ)
    (ho : ∀ v ∈ osr, 0 < v) (order : List ℕ) (hord : IsSweepOrder osr order) (c : OsrCurves) (hc : sweepCurves amp e n osr order = .ok c)
    (i j : ℕ) (hi : i < osr.length) (hj : j < osr.length) (hij : osr.getD i 0 ≤ osr.getD j 0)
    (hpos : ∀ m, rfftInbandBinCount (n : ℤ) (osr.getD j 0) = .ok m → 0 < ∑ k ∈ range m, e.getD k 0) :
    c.sndr.getD i 0 ≤ c.sndr.getD j 0 ∧ c.sfdr.getD i 0 ≤ c.sfdr.getD j 0 ∧ c.enob.getD i 0 ≤ c.enob.getD j 0 ∧
      c.sndr.getD j 0 ≤ c.sfdr.getD j 0 := by
  obtain ⟨c', hc', -, -, -, -, hall⟩ := C97_values amp e he n hn hl osr ho order hord
  rw [hc] at hc'
  injection hc' with hc'
  subst hc'
  have hoi : 0 < osr.getD i 0 := by
    rw [List.getD_eq_getElem _ _ hi]
    exact ho _ (List.getElem_mem hi)
  obtain ⟨ci, si, hci, ⟨ki, hki, hsi⟩, hmi, h1, h2, h3⟩ := hall i hi
  obtain ⟨cj, sj, hcj, ⟨kj, hkj, hsj⟩, hmj, g1, g2, g3⟩ := hall j hj
  have hle : cj ≤ ci := C25_antitone (n : ℤ) _ _ hoi hij ci cj hci hcj
  have hnn : ∀ k, 0 ≤ e.getD k 0 := by
    intro k
    by_cases hk : k < e.length
    · rw [List.getD_eq_getElem _ _ hk]
      exact he _ (List.getElem_mem hk)
    · rw [List.getD_eq_default _ _ (by omega)]
  have hpj := hpos cj hcj
  have hsum : ∑ k ∈ range cj, e.getD k 0 ≤ ∑ k ∈ range ci, e.getD k 0 :=
    sum_le_sum_of_subset_of_nonneg (range_mono hle) fun k _ _ => hnn k
  have hsp : 0 < sj := spur_pos e cj sj hmj hpj
  have hA : 0 < amp ^ 2 / 2 := by positivity
  have r1 : c.sndr.getD i 0 ≤ c.sndr.getD j 0 := by
    rw [h1, g1]
    exact db_mono _ _ _ hA hpj hsum
  refine ⟨r1, ?_, ?_, ?_⟩
  · rw [h2, g2]
    exact db_mono _ _ _ hA hsp (by rw [hsj]; exact hmi kj (by omega))
  · rw [h3, g3]
    gcongr
  · rw [g1, g2]
    exact db_mono _ _ _ hA hsp (by rw [hsj]; exact single_le_sum (f := fun k => e.getD k 0) (fun k _ => hnn k) (mem_range.mpr hkj))

private theorem sweepSpectrum_nonneg (err : ℕ → ℝ) (n : ℕ) : ∀ v ∈ sweepSpectrum err n, 0 ≤ v := by
  intro v hv
  unfold sweepSpectrum at hv
  obtain ⟨k, -, rfl⟩ := List.mem_map.mp hv
  positivity

private theorem sweepSpectrum_length (err : ℕ → ℝ) (n : ℕ) : (sweepSpectrum err n).length = n / 2 + 1 := by
  unfold sweepSpectrum
  simp

/-- **C97 (run).** With at least two samples and positive (or default) OSR values `sweep_performance_vs_osr` succeeds for every record, whatever
the least-squares routine returns; the curves are those of the error left by the four-parameter sine fit, relative to its amplitude. Fewer samples and
non-positive OSR values are `ValueError`. -/
theorem C97_run (solve : Lstsq) (argsort : List ℝ → List ℕ) (hsort : ∀ l, IsSweepOrder l (argsort l)) (n : ℕ) (x : ℕ → ℝ) (osr : Option (List ℝ)) :
    (n < 2 → sweepRun solve argsort n x osr = .error .valueError) ∧
    ((∃ l, osr = some l ∧ ∃ v ∈ l, v ≤ 0) → sweepRun solve argsort n x osr = .error .valueError) ∧
    (2 ≤ n → (∀ l, osr = some l → ∀ v ∈ l, 0 < v) → ∃ l fit c, (∀ l', osr = some l' → l = l') ∧
      (osr = none → l.length = n / 2 ∧ ∀ i < n / 2, l.getD i 0 = (n : ℝ) / 2 / ((n / 2 - i : ℕ) : ℝ)) ∧
      fitCore solve n x none 1 (1 / 10 ^ 9) = .ok fit ∧ 0 < fit.frequency ∧ fit.frequency < 1 / 2 ∧
      sweepRun solve argsort n x osr = .ok (c, fit.frequency) ∧ c.osr = l ∧ c.sndr.length = l.length ∧ c.sfdr.length = l.length ∧
      c.enob.length = l.length ∧ ∀ i < l.length, SweepPoint fit.amplitude (sweepSpectrum (fun t => x t - fit.fitted t) n) n (l.getD i 0)
        (c.sndr.getD i 0) (c.sfdr.getD i 0) (c.enob.getD i 0)) := by
  have hfit_err : n < 2 → fitCore solve n x none 1 (1 / 10 ^ 9) = .error .valueError := by
    intro h
    unfold fitCore
    simp only [(C58_estimate n x).1 h]
  refine ⟨?_, ?_, ?_⟩
  · intro h
    unfold sweepRun sweepOsr
    cases osr with
    | some l => simp only [hfit_err h]
    | none =>
      simp only
      cases hc : rfftInbandBinCount (n : ℤ) (1 : ℝ) with
      | error er =>
        have := (C25_error_iff (n : ℤ) (1 : ℝ) er).mp hc
        simp only [this.2]
      | ok m => simp only [hfit_err h]
  · rintro ⟨l, rfl, v, hv, hv0⟩
    by_cases h : n < 2
    · unfold sweepRun sweepOsr
      simp only [hfit_err h]
    · unfold sweepRun sweepOsr
      simp only
      cases hf : fitCore solve n x none 1 (1 / 10 ^ 9) with
      | error er =>
        exfalso
        obtain ⟨f, hf', -⟩ := (C58_estimate n x).2 (by omega)
        unfold fitCore at hf
        simp only [hf'] at hf
        cases hf
      | ok fit =>
        simp only
        obtain ⟨i, hi, rfl⟩ := List.mem_iff_getElem.mp hv
        unfold sweepCurves
        rw [C35_nonpositive_osr _ (n : ℤ) (by exact_mod_cast (by omega : 0 < n)) l (argsort l) (hsort l) i hi (by
          rw [List.getD_eq_getElem _ _ hi]
          exact hv0)]
  · intro h hpos
    obtain ⟨f, hf', -⟩ := (C58_estimate n x).2 h
    obtain ⟨fit, hfit⟩ : ∃ fit, fitCore solve n x none 1 (1 / 10 ^ 9) = .ok fit := by
      unfold fitCore
      simp only [hf']
      exact ⟨_, rfl⟩
    obtain ⟨-, -, hfr, -⟩ := C58_iteration_control solve n x none 1 (1 / 10 ^ 9) fit hfit
    obtain ⟨-, hf0, hf1, -⟩ := hfr one_pos
    have hcase : ∃ l, sweepOsr n osr = .ok l ∧ (∀ v ∈ l, 0 < v) ∧ (∀ l', osr = some l' → l = l') ∧
        (osr = none → l.length = n / 2 ∧ ∀ i < n / 2, l.getD i 0 = (n : ℝ) / 2 / ((n / 2 - i : ℕ) : ℝ)) := by
      cases osr with
      | some l =>
        refine ⟨l, rfl, hpos l rfl, ?_, by simp⟩
        intro l' hl'
        injection hl'
      | none =>
        refine ⟨defaultOsr n, ?_, C35_default_osr_pos n (by omega), by simp, ?_⟩
        · unfold sweepOsr
          simp only [C25_osr_one (K := ℝ) (n : ℤ) (by exact_mod_cast (by omega : 0 < n))]
        · intro _
          unfold defaultOsr
          refine ⟨by simp, fun i hi => ?_⟩
          rw [getD_map_range _ _ _ hi]
    obtain ⟨l, hl, hlp, hl1, hl2⟩ := hcase
    obtain ⟨c, hc, h1, h2, h3, h4, h5⟩ := C97_values fit.amplitude (sweepSpectrum (fun t => x t - fit.fitted t) n) (sweepSpectrum_nonneg _ _) n
      (by omega) (sweepSpectrum_length _ _) l hlp (argsort l) (hsort l)
    refine ⟨l, fit, c, hl1, hl2, hfit, hf0, hf1, ?_, h1, h2, h3, h4, h5⟩
    unfold sweepRun
    rw [hl]
    simp only
    rw [hfit]
    simp only
    rw [hc]

/-! ## The axes -/

/-- **C97 (axes).** The main plot has limits for every non-empty sweep; both curves stay exactly 5 dB or more away from both limits, the limits are not wider than
that, and the right axis is aligned with the left one: a SNDR value and its ENOB are at the same height. -/
theorem C97_axes (c : OsrCurves) (hs : c.sndr ≠ []) (hf : c.sfdr ≠ []) :
    ∃ lo hi elo ehi, sweepLimits c = .ok ((lo, hi), (elo, ehi)) ∧ (∀ v, v ∈ c.sndr ∨ v ∈ c.sfdr → lo + 5 ≤ v ∧ v ≤ hi - 5) ∧
      (∃ v, (v ∈ c.sndr ∨ v ∈ c.sfdr) ∧ lo + 5 = v) ∧ (∃ v, (v ∈ c.sndr ∨ v ∈ c.sfdr) ∧ hi - 5 = v) ∧
      ∀ v : ℝ, ((v - 176 / 100) / (602 / 100) - elo) / (ehi - elo) = (v - lo) / (hi - lo) := by
  obtain ⟨osr, sndr, sfdr, enob⟩ := c
  cases sndr with
  | nil => exact absurd rfl hs
  | cons a l =>
    cases sfdr with
    | nil => exact absurd rfl hf
    | cons b m =>
      refine ⟨_, _, _, _, rfl, ?_, ?_, ?_, ?_⟩
      · rintro v (hv | hv)
        · have h1 := minOf_le a l v hv
          have h2 := le_maxOf a l v hv
          have h3 := min_le_left (minOf a l) (minOf b m)
          have h4 := le_max_left (maxOf a l) (maxOf b m)
          constructor <;> linarith
        · have h1 := minOf_le b m v hv
          have h2 := le_maxOf b m v hv
          have h3 := min_le_right (minOf a l) (minOf b m)
          have h4 := le_max_right (maxOf a l) (maxOf b m)
          constructor <;> linarith
      · rcases min_choice (minOf a l) (minOf b m) with h | h
        · exact ⟨_, Or.inl (minOf_mem a l), by rw [h]; ring⟩
        · exact ⟨_, Or.inr (minOf_mem b m), by rw [h]; ring⟩
      · rcases max_choice (maxOf a l) (maxOf b m) with h | h
        · exact ⟨_, Or.inl (maxOf_mem a l), by rw [h]; ring⟩
        · exact ⟨_, Or.inr (maxOf_mem b m), by rw [h]; ring⟩
      · intro v
        generalize min (minOf a l) (minOf b m) - 5 = lo
        generalize max (maxOf a l) (maxOf b m) + 5 = hi
        rw [← sub_div, ← sub_div, div_div_div_cancel_right₀ (by norm_num)]
        congr 1 <;> ring

/-! ## The vertical lines -/

private theorem mapM_error {α β : Type} (f : α → Py β) (err : PyErr) (l : List α) (hmono : ∀ a ∈ l, ∀ er, f a = .error er → er = err)
    (hex : ∃ a ∈ l, ∃ er, f a = .error er) : l.mapM f = .error err := by
  induction l with
  | nil => obtain ⟨a, ha, -⟩ := hex; simp at ha
  | cons a l ih =>
    rw [List.mapM_cons]
    cases ha : f a with
    | error er =>
      rw [hmono a (by simp) er ha]
      rfl
    | ok b =>
      obtain ⟨a', ha', er, her⟩ := hex
      have : a' ∈ l := by
        rcases List.mem_cons.mp ha' with rfl | h
        · rw [ha] at her; cases her
        · exact h
      rw [ih (fun a h => hmono a (List.mem_cons_of_mem _ h)) ⟨a', this, er, her⟩]
      rfl

private theorem mapM_ok {α β : Type} (f : α → Py β) (l : List α) (g : α → β) (h : ∀ a ∈ l, f a = .ok (g a)) : l.mapM f = .ok (l.map g) := by
  induction l with
  | nil => rfl
  | cons a l ih =>
    rw [List.mapM_cons, h a (by simp), ih fun a ha => h a (List.mem_cons_of_mem _ ha)]
    rfl

private theorem mem_orders (H h : ℕ) : h ∈ (List.range (H + 1)).drop 2 ↔ 2 ≤ h ∧ h ≤ H := by
  rw [List.mem_drop_iff_getElem]
  constructor
  · rintro ⟨j, hj, rfl⟩
    simp only [List.length_range] at hj
    rw [List.getElem_range]
    omega
  · rintro ⟨h1, h2⟩
    exact ⟨h - 2, by simp; omega, by rw [List.getElem_range]; omega⟩

private theorem fold_zero_iff (f : ℝ) (h : ℕ) : 2 * foldFrequency (f * h) 1 = 0 ↔ ∃ z : ℤ, f * h = z := by
  unfold foldFrequency
  rw [div_one, one_mul]
  constructor
  · intro h0
    have : |f * h - (rint (f * h) : ℝ)| = 0 := by linarith
    exact ⟨rint (f * h), by linarith [abs_eq_zero.mp this]⟩
  · rintro ⟨z, hz⟩
    rw [hz, rint_intCast]
    simp

/-- **C97 (failure on DC harmonics).** The plot raises `ZeroDivisionError` exactly when a requested harmonic of the fitted frequency folds onto DC. -/
theorem C97_plot_fails_iff (osr : List ℝ) (f : ℝ) (H : ℕ) :
    sweepMarks osr f H = .error .zeroDivision ↔ ∃ h : ℕ, 2 ≤ h ∧ h ≤ H ∧ ∃ z : ℤ, f * h = z := by
  classical
  constructor
  · intro he
    by_contra hno
    push Not at hno
    have hok : ((List.range (H + 1)).drop 2).mapM (harmonicMark osr f) = .ok (((List.range (H + 1)).drop 2).map fun (h : ℕ) =>
        if markShown osr (1 / (2 * foldFrequency (f * h) 1)) then some (h, 1 / (2 * foldFrequency (f * h) 1)) else none) := by
      apply mapM_ok
      intro h hh
      obtain ⟨h2, hH⟩ := (mem_orders H h).mp hh
      unfold harmonicMark
      simp only
      rw [if_neg]
      rw [fold_zero_iff]
      rintro ⟨z, hz⟩
      exact hno h h2 hH z hz
    unfold sweepMarks at he
    rw [hok] at he
    cases he
  · rintro ⟨h, h2, hH, hz⟩
    unfold sweepMarks
    rw [mapM_error (harmonicMark osr f) .zeroDivision _ (by
      intro a _ er her
      unfold harmonicMark at her
      simp only at her
      split_ifs at her with h0
      · injection her with her
        exact her.symm) ⟨h, (mem_orders H h).mpr ⟨h2, hH⟩, .zeroDivision, by
          unfold harmonicMark
          simp only
          rw [if_pos ((fold_zero_iff f h).mpr hz)]⟩]

/-- A quarter-rate tone makes the plot fail with the default five harmonics. -/
theorem C97_quarter_rate_fails (osr : List ℝ) : sweepMarks osr (1 / 4) 5 = .error .zeroDivision :=
  (C97_plot_fails_iff osr (1 / 4) 5).mpr ⟨4, by norm_num, by norm_num, 1, by norm_num⟩

/-- **C97 (vertical lines).** Otherwise the lines are exactly those of the fundamental and of the orders `2 .. H` whose OSR position is inside the swept
range; the position is `1/(2·f_h)` with the frequency `f_h` at which the harmonic appears after folding into `0 .. 1/2`. -/
theorem C97_marks (osr : List ℝ) (f : ℝ) (hf0 : 0 < f) (hf1 : f ≤ 1 / 2) (H : ℕ) (l : List (ℕ × ℝ)) (hl : sweepMarks osr f H = .ok l) (h : ℕ) (o : ℝ) :
    (h, o) ∈ l ↔ (h = 1 ∨ 2 ≤ h ∧ h ≤ H) ∧ (∃ a ∈ osr, a ≤ o) ∧ (∃ b ∈ osr, o ≤ b) ∧
      ∃ fh, 0 < fh ∧ fh ≤ 1 / 2 ∧ (∃ z : ℤ, f * h = z + fh ∨ f * h = z - fh) ∧ o = 1 / (2 * fh) := by
  classical
  have hnz : ∀ g : ℕ, 2 ≤ g → g ≤ H → ¬ 2 * foldFrequency (f * g) 1 = 0 := by
    intro g h1 h2 h0
    have := (C97_plot_fails_iff osr f H).mpr ⟨g, h1, h2, (fold_zero_iff f g).mp h0⟩
    rw [hl] at this
    cases this
  have hok : ((List.range (H + 1)).drop 2).mapM (harmonicMark osr f) = .ok (((List.range (H + 1)).drop 2).map fun (h : ℕ) =>
      if markShown osr (1 / (2 * foldFrequency (f * h) 1)) then some (h, 1 / (2 * foldFrequency (f * h) 1)) else none) := by
    apply mapM_ok
    intro g hg
    obtain ⟨h2, hH⟩ := (mem_orders H g).mp hg
    unfold harmonicMark
    simp only
    rw [if_neg (hnz g h2 hH)]
  unfold sweepMarks at hl
  rw [hok] at hl
  injection hl with hl
  have huniq : ∀ (g : ℕ) (fh : ℝ), 0 < fh → fh ≤ 1 / 2 → (∃ z : ℤ, f * g = z + fh ∨ f * g = z - fh) → foldFrequency (f * g) 1 = fh := by
    intro g fh h0 h1 hz
    symm
    apply C04_fold_unique (f * g) 1 fh one_pos
    refine ⟨h0.le, h1, ?_⟩
    obtain ⟨z, hz⟩ := hz
    refine ⟨z, ?_⟩
    rw [mul_one]
    exact hz
  have hfold : ∀ g : ℕ, 0 ≤ foldFrequency (f * g) 1 ∧ foldFrequency (f * g) 1 ≤ 1 / 2 ∧
      ∃ z : ℤ, f * g = z + foldFrequency (f * g) 1 ∨ f * g = z - foldFrequency (f * g) 1 := by
    intro g
    obtain ⟨h0, h1, z, hz⟩ := C04_fold_is_alias (f * g) 1 one_pos
    rw [mul_one] at hz
    exact ⟨h0, h1, z, hz⟩
  have hf1' : foldFrequency (f * (1 : ℕ)) 1 = f := huniq 1 f hf0 hf1 ⟨0, by left; push_cast; ring⟩
  rw [← hl, List.mem_append, List.mem_filterMap]
  constructor
  · rintro (hm | ⟨a, ha, hao⟩)
    · split_ifs at hm with hs
      · rw [List.mem_singleton] at hm
        injection hm with hm1 hm2
        subst hm1 hm2
        exact ⟨Or.inl rfl, hs.1, hs.2, f, hf0, hf1, ⟨0, by left; push_cast; ring⟩, rfl⟩
      · simp at hm
    · obtain ⟨g, hg, hga⟩ := List.mem_map.mp ha
      obtain ⟨h2, hH⟩ := (mem_orders H g).mp hg
      simp only [id] at hao
      subst hao
      split_ifs at hga with hs
      injection hga with hga
      injection hga with e1 e2
      subst e1 e2
      obtain ⟨q0, q1, q2⟩ := hfold g
      exact ⟨Or.inr ⟨h2, hH⟩, hs.1, hs.2, _, lt_of_le_of_ne q0 (fun h0 => hnz g h2 hH (by rw [← h0]; ring)), q1, q2, rfl⟩
  · rintro ⟨hh, ha, hb, fh, h0, h1, hz, rfl⟩
    have hfh := huniq h fh h0 h1 hz
    rcases hh with rfl | ⟨h2, hH⟩
    · left
      rw [hf1'] at hfh
      subst hfh
      rw [if_pos ⟨ha, hb⟩]
      simp
    · right
      refine ⟨some (h, 1 / (2 * fh)), List.mem_map.mpr ⟨h, (mem_orders H h).mpr ⟨h2, hH⟩, ?_⟩, rfl⟩
      rw [hfh, if_pos ⟨ha, hb⟩]

/-- **C97 (meaning of the lines).** A line at OSR `o` for a tone on bin `k ≥ 1` of the record is the border between the OSR values that keep the bin
in band and those that do not: `osr ≤ o` counts it as noise and distortion, `osr > o` (beyond the `3e-12` tolerance of the bin count) does not. -/
theorem C97_line_is_band_edge (n k : ℕ) (hk : 1 ≤ k) (hkn : k ≤ n / 2) (osr : ℝ) (ho : 0 < osr) (c : ℕ)
    (hc : rfftInbandBinCount (n : ℤ) osr = .ok c) :
    (osr ≤ 1 / (2 * ((k : ℝ) / n)) → k < c) ∧ (1 / (2 * ((k : ℝ) / n)) < osr * (1 - 3 / 10 ^ 12) → ¬ k < c) := by
  have hn : 0 < n := by omega
  have hnR : (0 : ℝ) < n := by exact_mod_cast hn
  have hkR : (1 : ℝ) ≤ k := by exact_mod_cast hk
  have hmark : 1 / (2 * ((k : ℝ) / n)) = n / (2 * k) := by field_simp
  obtain ⟨h1, h2⟩ := C25_counts_band (n : ℤ) osr (by exact_mod_cast hn) ho c hc k
  simp only [Int.cast_natCast] at h1 h2
  rw [hmark]
  constructor
  · intro h
    apply h1 (by omega)
    rw [le_div_iff₀ (by positivity)] at h ⊢
    linarith
  · intro h hlt
    obtain ⟨-, h3⟩ := h2 hlt
    rw [div_lt_iff₀ (by positivity)] at h
    set E := (n : ℝ) / (2 * osr) with hE
    have hEn : (n : ℝ) = E * (2 * osr) := by rw [hE]; field_simp
    have hE1 : E < k * (1 - 3 / 10 ^ 12) := by
      rw [hEn] at h
      have : osr * (2 * E) < osr * (2 * (k * (1 - 3 / 10 ^ 12))) := by linarith
      have := lt_of_mul_lt_mul_left this ho.le
      linarith
    nlinarith

/-! ## The slope -/

private theorem getD_pos (l : List ℝ) (h : ∀ v ∈ l, 0 < v) (i : ℕ) (hi : i < l.length) : 0 < l.getD i 0 := by
  rw [List.getD_eq_getElem _ _ hi]
  exact h _ (List.getElem_mem hi)

/-- **C97 (slope).** For ascending OSR values and a nondecreasing SNDR no slope is negative. -/
theorem C97_slope_nonneg (osr sndr : List ℝ) (ho : ∀ v ∈ osr, 0 < v) (hasc : ∀ i j, i ≤ j → j < osr.length → osr.getD i 0 ≤ osr.getD j 0)
    (hmono : ∀ i j, i ≤ j → j < osr.length → sndr.getD i 0 ≤ sndr.getD j 0) (w i : ℕ) (hi : i < osr.length) : 0 ≤ localSlope osr sndr w i := by
  unfold localSlope
  simp only
  split_ifs with h
  · have hlo : i - w ≤ min (osr.length - 1) (i + w) := by omega
    have hhi : min (osr.length - 1) (i + w) < osr.length := by omega
    have h1 := hmono _ _ hlo hhi
    have h2 := Real.logb_le_logb_of_le (by norm_num : (1 : ℝ) < 10) (getD_pos osr ho _ (by omega)) (hasc _ _ hlo hhi)
    exact div_nonneg (by linarith) (by linarith)
  · exact le_refl _

/-- **C97 (white-noise limit).** The displayed slope exceeds the line "White Noise Limit" at 10 dB per decade exactly when the average in-band noise density
(noise power times OSR, up to a constant) falls between the two ends of the secant, equals it exactly when the density is the same, and is below it
exactly when the density rises. -/
theorem C97_white_noise_limit (amp : ℝ) (hamp : 0 < amp) (osr sndr : List ℝ) (noise : ℕ → ℝ) (w i lo hi : ℕ) (hlo : lo = i - w)
    (hhi : hi = min (osr.length - 1) (i + w)) (hs1 : sndr.getD lo 0 = sweepSndr amp (noise lo)) (hs2 : sndr.getD hi 0 = sweepSndr amp (noise hi))
    (hn1 : 0 < noise lo) (hn2 : 0 < noise hi) (ho1 : 0 < osr.getD lo 0)
    (hd : 1 / 10 ^ 15 < Real.logb 10 (osr.getD hi 0) - Real.logb 10 (osr.getD lo 0)) (ho2 : 0 < osr.getD hi 0) :
    (10 < localSlope osr sndr w i ↔ noise hi * osr.getD hi 0 < noise lo * osr.getD lo 0) ∧
      (localSlope osr sndr w i = 10 ↔ noise hi * osr.getD hi 0 = noise lo * osr.getD lo 0) ∧
      (localSlope osr sndr w i < 10 ↔ noise lo * osr.getD lo 0 < noise hi * osr.getD hi 0) := by
  have hval : localSlope osr sndr w i = (sndr.getD hi 0 - sndr.getD lo 0) / (Real.logb 10 (osr.getD hi 0) - Real.logb 10 (osr.getD lo 0)) := by
    unfold localSlope
    simp only
    rw [← hlo, ← hhi, if_pos (lt_of_lt_of_le hd (le_abs_self _))]
  have hA : amp ^ 2 / 2 ≠ 0 := by positivity
  have hnum : sndr.getD hi 0 - sndr.getD lo 0 = 10 * (Real.logb 10 (noise lo) - Real.logb 10 (noise hi)) := by
    rw [hs1, hs2, sweepSndr, sweepSndr, Real.logb_div hA hn1.ne', Real.logb_div hA hn2.ne']
    ring
  have hl1 : Real.logb 10 (noise lo * osr.getD lo 0) = Real.logb 10 (noise lo) + Real.logb 10 (osr.getD lo 0) := Real.logb_mul hn1.ne' ho1.ne'
  have hl2 : Real.logb 10 (noise hi * osr.getD hi 0) = Real.logb 10 (noise hi) + Real.logb 10 (osr.getD hi 0) := Real.logb_mul hn2.ne' ho2.ne'
  have hp1 : 0 < noise lo * osr.getD lo 0 := by positivity
  have hp2 : 0 < noise hi * osr.getD hi 0 := by positivity
  have hd0 : 0 < Real.logb 10 (osr.getD hi 0) - Real.logb 10 (osr.getD lo 0) := lt_trans (by norm_num) hd
  have hgt : 10 < localSlope osr sndr w i ↔ noise hi * osr.getD hi 0 < noise lo * osr.getD lo 0 := by
    rw [hval, hnum, lt_div_iff₀ hd0, ← Real.logb_lt_logb_iff (by norm_num : (1 : ℝ) < 10) hp2 hp1, hl1, hl2]
    constructor <;> intro h <;> linarith
  have hlt : localSlope osr sndr w i < 10 ↔ noise lo * osr.getD lo 0 < noise hi * osr.getD hi 0 := by
    rw [hval, hnum, div_lt_iff₀ hd0, ← Real.logb_lt_logb_iff (by norm_num : (1 : ℝ) < 10) hp1 hp2, hl1, hl2]
    constructor <;> intro h <;> linarith
  refine ⟨hgt, ?_, hlt⟩
  constructor
  · intro h
    by_contra hne
    rcases lt_or_gt_of_ne hne with h' | h'
    · exact absurd (hgt.mpr h') (by rw [h]; exact lt_irrefl _)
    · exact absurd (hlt.mpr h') (by rw [h]; exact lt_irrefl _)
  · intro h
    by_contra hne
    rcases lt_or_gt_of_ne hne with h' | h'
    · exact absurd (hlt.mp h') (by rw [h]; exact lt_irrefl _)
    · exact absurd (hgt.mp h') (by rw [h]; exact lt_irrefl _)

private theorem count_default (n m : ℕ) (hn : 0 < n) (hm : 0 < m) (hmn : m ≤ n / 2) :
    rfftInbandBinCount (n : ℤ) ((n : ℝ) / 2 / (m : ℝ)) = .ok (m + 1) := by
  have hnR : (0 : ℝ) < n := by exact_mod_cast hn
  have hmR : (0 : ℝ) < m := by exact_mod_cast hm
  have ho : (0 : ℝ) < (n : ℝ) / 2 / m := by positivity
  have hedge : ((n : ℤ) : ℝ) / (2 * ((n : ℝ) / 2 / m)) = ((m : ℤ) : ℝ) := by
    push_cast
    field_simp
  unfold rfftInbandBinCount
  rw [if_neg (by omega), if_neg (not_le.mpr ho)]
  simp only [hedge, rint_intCast, ite_self, Int.floor_intCast]
  congr 1
  omega

/-- **C97 (white error).** With the default OSR values, a flat error spectrum and any smoothing width, every shown slope is positive and below the
"White Noise Limit" of 10 dB per decade. -/
theorem C97_white_error (amp : ℝ) (hamp : 0 < amp) (n : ℕ) (hn : 6 ≤ n) (hbig : n ≤ 10 ^ 14) (v : ℝ) (hv : 0 < v) (order : List ℕ)
    (hord : IsSweepOrder (defaultOsr n : List ℝ) order) (c : OsrCurves)
    (hc : sweepCurves amp (List.replicate (n / 2 + 1) v) n (defaultOsr n) order = .ok c) (smooth : Option ℕ) (hsm : smooth ≠ some 0) :
    ∃ l, slopeCurve false c.osr c.sndr smooth = some l ∧ l.length = n / 2 ∧ ∀ s ∈ l, 0 < s ∧ s < 10 := by
  have hlen : (defaultOsr n : List ℝ).length = n / 2 := by unfold defaultOsr; simp
  have hget : ∀ i < n / 2, (defaultOsr n : List ℝ).getD i 0 = (n : ℝ) / 2 / ((n / 2 - i : ℕ) : ℝ) := by
    intro i hi
    unfold defaultOsr
    rw [getD_map_range _ _ _ hi]
  obtain ⟨c', hc', h1, h2, -, -, hall⟩ := C97_values amp (List.replicate (n / 2 + 1) v) (by
    intro u hu
    rw [List.eq_of_mem_replicate hu]
    exact hv.le) n (by omega) (by simp) (defaultOsr n) (C35_default_osr_pos n (by omega)) order hord
  rw [hc] at hc'
  injection hc' with hc'
  subst hc'
  have hsndr : ∀ i < n / 2, c.sndr.getD i 0 = sweepSndr amp (((n / 2 - i : ℕ) + 1 : ℝ) * v) := by
    intro i hi
    obtain ⟨m, spur, hm, -, -, hs, -, -⟩ := hall i (by rw [hlen]; exact hi)
    rw [hget i hi, count_default n (n / 2 - i) (by omega) (by omega) (by omega)] at hm
    injection hm with hm
    rw [hs, sweepSndr]
    congr 3
    rw [← hm]
    have : ∀ k ∈ range (n / 2 - i + 1), (List.replicate (n / 2 + 1) v).getD k 0 = v := by
      intro k hk
      rw [mem_range] at hk
      rw [List.getD_eq_getElem _ _ (by simp; omega), List.getElem_replicate]
    rw [sum_congr rfl this, sum_const, card_range, nsmul_eq_mul]
    push_cast
    ring
  unfold slopeCurve
  rw [h1, hlen, if_pos ⟨rfl, by omega⟩]
  refine ⟨_, rfl, by simp, ?_⟩
  intro s hs
  obtain ⟨i, hi, rfl⟩ := List.mem_map.mp hs
  rw [List.mem_range] at hi
  set w := smoothWin (n / 2) smooth with hw
  have hw1 : 1 ≤ w := by
    rw [hw]
    unfold smoothWin
    cases smooth with
    | none => simp only; omega
    | some u =>
      have : u ≠ 0 := fun h => hsm (by rw [h])
      simp only
      omega
  set lo := i - w with hlo
  set hi' := min (n / 2 - 1) (i + w) with hhi
  have hlt : lo < hi' := by omega
  have hhlt : hi' < n / 2 := by omega
  set a := n / 2 - lo with ha
  set b := n / 2 - hi' with hb
  have hab : b + 1 ≤ a := by omega
  have hb1 : 1 ≤ b := by omega
  have haR : (b : ℝ) + 1 ≤ a := by exact_mod_cast hab
  have hbR : (1 : ℝ) ≤ b := by exact_mod_cast hb1
  have hnR : (0 : ℝ) < n := by exact_mod_cast (by omega : 0 < n)
  have haN : (a : ℝ) ≤ 10 ^ 14 := by exact_mod_cast (by omega : a ≤ 10 ^ 14)
  have hoa : (defaultOsr n : List ℝ).getD lo 0 = (n : ℝ) / 2 / a := hget lo (by omega)
  have hob : (defaultOsr n : List ℝ).getD hi' 0 = (n : ℝ) / 2 / b := hget hi' hhlt
  have hapos : (0 : ℝ) < a := by linarith
  have hbpos : (0 : ℝ) < b := by linarith
  have hden : Real.logb 10 ((defaultOsr n : List ℝ).getD hi' 0) - Real.logb 10 ((defaultOsr n : List ℝ).getD lo 0) = Real.logb 10 (a / b) := by
    rw [hoa, hob, Real.logb_div (by positivity) hbpos.ne', Real.logb_div (by positivity) hapos.ne', Real.logb_div hapos.ne' hbpos.ne']
    ring
  have hbig' : 1 / 10 ^ 15 < Real.logb 10 ((a : ℝ) / b) := by
    have h1' : 1 - (b : ℝ) / a ≤ Real.log (a / b) := by
      have := Real.one_sub_inv_le_log_of_pos (show (0 : ℝ) < a / b by positivity)
      rwa [inv_div] at this
    have h2' : 1 / 10 ^ 14 ≤ 1 - (b : ℝ) / a := by
      rw [show 1 - (b : ℝ) / a = (a - b) / a by field_simp, le_div_iff₀ hapos]
      have : (1 : ℝ) / 10 ^ 14 * a ≤ 1 / 10 ^ 14 * 10 ^ 14 := by gcongr
      have h3 : (1 : ℝ) / 10 ^ 14 * 10 ^ 14 = 1 := by norm_num
      linarith
    have h10 : Real.log 10 < 10 - 1 := Real.log_lt_sub_one_of_pos (by norm_num) (by norm_num)
    have h10p : 0 < Real.log 10 := Real.log_pos (by norm_num)
    unfold Real.logb
    rw [lt_div_iff₀ h10p]
    have : (1 : ℝ) / 10 ^ 15 * Real.log 10 < 1 / 10 ^ 15 * 10 := by
      apply mul_lt_mul_of_pos_left _ (by norm_num)
      linarith
    have h4 : (1 : ℝ) / 10 ^ 15 * 10 = 1 / 10 ^ 14 := by norm_num
    linarith
  have hd := hbig'
  rw [← hden] at hd
  have hsl := hsndr lo (by omega)
  have hsh := hsndr hi' hhlt
  rw [← ha] at hsl
  rw [← hb] at hsh
  constructor
  · have hval : localSlope (defaultOsr n) c.sndr w i = (c.sndr.getD hi' 0 - c.sndr.getD lo 0) / Real.logb 10 ((a : ℝ) / b) := by
      unfold localSlope
      simp only
      rw [hlen, ← hlo, ← hhi, hden, if_pos (lt_of_lt_of_le hbig' (le_abs_self _))]
    rw [hval]
    apply div_pos _ (lt_trans (by norm_num) hbig')
    rw [hsl, hsh, sweepSndr, sweepSndr, sub_pos]
    apply mul_lt_mul_of_pos_left _ (by norm_num)
    apply Real.logb_lt_logb (by norm_num) (by positivity)
    apply div_lt_div_of_pos_left (by positivity) (by positivity)
    apply mul_lt_mul_of_pos_right _ hv
    linarith
  · refine (C97_white_noise_limit amp hamp (defaultOsr n) c.sndr (fun j => ((n / 2 - j : ℕ) + 1 : ℝ) * v) w i lo hi' rfl (by rw [hlen]) ?_ ?_ ?_ ?_ ?_ hd ?_).2.2.mpr ?_
    · rw [hsl]
    · rw [hsh]
    · positivity
    · positivity
    · rw [hoa]; positivity
    · rw [hob]; positivity
    · rw [hoa, hob, ← ha, ← hb]
      rw [show ((a : ℝ) + 1) * v * ((n : ℝ) / 2 / a) = v * (n / 2) * (1 + 1 / a) by field_simp,
        show ((b : ℝ) + 1) * v * ((n : ℝ) / 2 / b) = v * (n / 2) * (1 + 1 / b) by field_simp]
      apply mul_lt_mul_of_pos_left _ (by positivity)
      have : (1 : ℝ) / a < 1 / b := one_div_lt_one_div_of_lt hbpos (by linarith)
      linarith

/-- **C97 (slope panel).** It is drawn exactly without own axes and with at least three points, has one value per OSR, and all of them are
inside the limits of its axis. -/
theorem C97_slope_panel (own : Bool) (osr sndr : List ℝ) (smooth : Option ℕ) :
    ((∃ l, slopeCurve own osr sndr smooth = some l) ↔ own = false ∧ 3 ≤ osr.length) ∧
      (∀ l, slopeCurve own osr sndr smooth = some l → l.length = osr.length) ∧
      (∀ (a : ℝ) (l : List ℝ), slopeCurve own osr sndr smooth = some (a :: l) →
        ∀ v ∈ a :: l, (slopeLimits a l).1 + 5 ≤ v ∧ v ≤ (slopeLimits a l).2 - 5) := by
  refine ⟨?_, ?_, ?_⟩
  · unfold slopeCurve
    split_ifs with h
    · simp [h]
    · simp only [reduceCtorEq, exists_false, false_iff]
      exact h
  · intro l hl
    unfold slopeCurve at hl
    split_ifs at hl
    injection hl with hl
    rw [← hl]
    simp
  · intro a l _ v hv
    have h1 := minOf_le a l v hv
    have h2 := le_maxOf a l v hv
    unfold slopeLimits
    simp only
    constructor <;> linarith

/-- **C97 (smoothing).** The smoothing half-width is the requested one as long as it fits twice into the sweep; by default it is the tenth of the number of
points (nearest integer), at least 5 from 11 points on. It never exceeds half the sweep and is zero only on request. -/
theorem C97_smoothing (len : ℕ) (hlen : 3 ≤ len) (smooth : Option ℕ) :
    2 * smoothWin len smooth ≤ len - 1 ∧ (∀ w, smooth = some w → smoothWin len smooth ≤ w ∧ (2 * w ≤ len - 1 → smoothWin len smooth = w)) ∧
      (smooth = none → 11 ≤ len → 5 ≤ smoothWin len smooth) ∧ (smooth = none → 55 ≤ len → |(smoothWin len smooth : ℝ) - len / 10| ≤ 1 / 2) ∧
      (smooth ≠ some 0 → 1 ≤ smoothWin len smooth) := by
  refine ⟨?_, ?_, ?_, ?_, ?_⟩
  · unfold smoothWin
    omega
  · rintro w rfl
    unfold smoothWin
    simp only
    omega
  · rintro rfl h
    unfold smoothWin
    simp only
    omega
  · rintro rfl h
    have hr := abs_sub_rint_le ((len : ℝ) / 10)
    set r := rint ((len : ℝ) / 10) with hrdef
    have hL : (55 : ℝ) ≤ len := by exact_mod_cast h
    have h1 := abs_le.mp hr
    have hr5 : (5 : ℝ) ≤ (r : ℝ) := by linarith [h1.2]
    have hr5' : 5 ≤ r := by exact_mod_cast hr5
    have hrl : 2 * (r : ℝ) ≤ len - 2 := by linarith [h1.1]
    have hrl' : 2 * r ≤ (len : ℤ) - 2 := by exact_mod_cast hrl
    have hw : smoothWin len none = r.toNat := by
      unfold smoothWin
      simp only
      rw [← hrdef]
      omega
    have hcast : ((r.toNat : ℕ) : ℝ) = (r : ℝ) := by exact_mod_cast Int.toNat_of_nonneg (by omega : 0 ≤ r)
    rw [hw, hcast, abs_sub_comm]
    exact hr
  · intro h0
    unfold smoothWin
    cases smooth with
    | none => simp only; omega
    | some u =>
      have : u ≠ 0 := fun h => h0 (by rw [h])
      simp only
      omega

/-! ## Cases meeting the hypotheses -/

/-- A sorting routine with the assumed property exists. -/
theorem exists_sweepOrder : ∃ argsort : List ℝ → List ℕ, ∀ l, IsSweepOrder l (argsort l) := by
  classical
  refine ⟨fun l => (List.range l.length).mergeSort fun i j => decide (l.getD j 0 ≤ l.getD i 0), fun l => ⟨List.mergeSort_perm _ _, ?_⟩⟩
  have := List.pairwise_mergeSort (le := fun i j => decide (l.getD j 0 ≤ l.getD i 0)) (by
    intro a b c h1 h2
    rw [decide_eq_true_eq] at h1 h2 ⊢
    exact le_trans h2 h1) (by
    intro a b
    rw [Bool.or_eq_true, decide_eq_true_eq, decide_eq_true_eq]
    exact le_total _ _) (List.range l.length)
  exact this.imp fun h => by simpa using h

/-- The sweep of any record of eight samples at its four default OSR values. -/
example (solve : Lstsq) (x : ℕ → ℝ) : ∃ argsort c f, sweepRun solve argsort 8 x none = .ok (c, f) ∧ c.osr.length = 4 := by
  obtain ⟨argsort, hs⟩ := exists_sweepOrder
  obtain ⟨l, fit, c, -, h2, -, -, -, h3, h4, -⟩ := (C97_run solve argsort hs 8 x none).2.2 (by norm_num) (by simp)
  exact ⟨argsort, c, fit.frequency, h3, by rw [h4, (h2 rfl).1]⟩

/-- Two OSR values, the larger one first; five error bins. -/
example : ∃ c, sweepCurves 1 [1, 2, 3, 4, 5] 8 [4, 1] [0, 1] = .ok c ∧ c.sndr.getD 1 0 ≤ c.sndr.getD 0 0 := by
  have hord : IsSweepOrder ([4, 1] : List ℝ) [0, 1] := ⟨by decide, by norm_num⟩
  obtain ⟨c, hc, -⟩ := C97_values 1 [1, 2, 3, 4, 5] (by norm_num) 8 (by norm_num) rfl [4, 1] (by norm_num) [0, 1] hord
  refine ⟨c, hc, (C97_monotone 1 one_pos [1, 2, 3, 4, 5] (by norm_num) 8 (by norm_num) rfl [4, 1] (by norm_num) [0, 1] hord c hc 1 0 (by norm_num)
    (by norm_num) (by norm_num) ?_).1⟩
  intro m hm
  obtain ⟨m', hm', h1, -⟩ := C25_count_range (8 : ℤ) (4 : ℝ) (by norm_num) (by norm_num)
  have : m = m' := by
    have hm2 : rfftInbandBinCount (8 : ℤ) (4 : ℝ) = .ok m := hm
    rw [hm2] at hm'
    injection hm'
  subst this
  apply sum_pos' (fun k _ => ?_) ⟨0, mem_range.mpr h1, by norm_num⟩
  rcases k with _ | _ | _ | _ | _ | k <;> norm_num

/-- Limits of two curves. -/
example : ∃ lo hi elo ehi, sweepLimits ⟨[1, 2], [40, 50], [45, 70], [6, 8]⟩ = .ok ((lo, hi), (elo, ehi)) ∧ lo + 5 ≤ 45 := by
  obtain ⟨lo, hi, elo, ehi, h, h1, -⟩ := C97_axes ⟨[1, 2], [40, 50], [45, 70], [6, 8]⟩ (by simp) (by simp)
  exact ⟨lo, hi, elo, ehi, h, (h1 45 (Or.inr (by simp))).1⟩

/-- A tone at one tenth of the rate, OSR 1 to 8: the fundamental is marked at OSR 5, the second harmonic at 2.5, harmonic 10 raises. -/
example : (∃ l, sweepMarks [1, 8] (1 / 10) 2 = .ok l ∧ (1, 5) ∈ l ∧ (2, 5 / 2) ∈ l) ∧ sweepMarks [1, 8] (1 / 10) 10 = .error .zeroDivision := by
  refine ⟨?_, (C97_plot_fails_iff _ _ _).mpr ⟨10, by norm_num, by norm_num, 1, by norm_num⟩⟩
  cases hm : sweepMarks [1, 8] (1 / 10) 2 with
  | error er =>
    exfalso
    have hno : ¬ sweepMarks [1, 8] (1 / 10) 2 = .error .zeroDivision := by
      rw [C97_plot_fails_iff]
      rintro ⟨h, h1, h2, z, hz⟩
      have : h = 2 := by omega
      subst this
      have h5 : (1 : ℝ) = 5 * z := by push_cast at hz; linarith
      have : (1 : ℤ) = 5 * z := by exact_mod_cast h5
      omega
    unfold sweepMarks at hm hno
    cases hk : ((List.range (2 + 1)).drop 2).mapM (harmonicMark [1, 8] (1 / 10)) with
    | ok l => rw [hk] at hm; cases hm
    | error e2 =>
      rw [show ((List.range (2 + 1)).drop 2) = [2] by decide] at hk
      rw [show ((List.range (2 + 1)).drop 2) = [2] by decide, hk] at hno
      simp only [List.mapM_cons, List.mapM_nil] at hk
      unfold harmonicMark at hk
      simp only at hk
      split_ifs at hk
      all_goals first
        | (cases hk; exact hno rfl)
        | cases hk
  | ok l =>
    refine ⟨l, rfl, ?_, ?_⟩
    · rw [C97_marks [1, 8] (1 / 10) (by norm_num) (by norm_num) 2 l hm]
      exact ⟨Or.inl rfl, ⟨1, by norm_num⟩, ⟨8, by norm_num⟩, 1 / 10, by norm_num, by norm_num, ⟨0, by norm_num⟩, by norm_num⟩
    · rw [C97_marks [1, 8] (1 / 10) (by norm_num) (by norm_num) 2 l hm]
      exact ⟨Or.inr (by norm_num), ⟨1, by norm_num⟩, ⟨8, by norm_num⟩, 1 / 5, by norm_num, by norm_num, ⟨0, by norm_num⟩, by norm_num⟩

/-- Bin 2 of 16 is in band at OSR 4 and out of band at OSR 5. -/
example : ∃ c c', rfftInbandBinCount (16 : ℤ) (4 : ℝ) = .ok c ∧ rfftInbandBinCount (16 : ℤ) (5 : ℝ) = .ok c' ∧ 2 < c ∧ ¬ 2 < c' := by
  obtain ⟨c, hc, -⟩ := C25_count_range (16 : ℤ) (4 : ℝ) (by norm_num) (by norm_num)
  obtain ⟨c', hc', -⟩ := C25_count_range (16 : ℤ) (5 : ℝ) (by norm_num) (by norm_num)
  exact ⟨c, c', hc, hc', (C97_line_is_band_edge 16 2 (by norm_num) (by norm_num) 4 (by norm_num) c hc).1 (by norm_num),
    (C97_line_is_band_edge 16 2 (by norm_num) (by norm_num) 5 (by norm_num) c' hc').2 (by norm_num)⟩

/-- A flat error spectrum of eight samples. -/
example : ∃ c l, sweepCurves 1 (List.replicate 5 1) 8 (defaultOsr 8) [3, 2, 1, 0] = .ok c ∧ slopeCurve false c.osr c.sndr none = some l ∧
    ∀ s ∈ l, 0 < s ∧ s < 10 := by
  have hord : IsSweepOrder (defaultOsr 8 : List ℝ) [3, 2, 1, 0] := by
    refine ⟨by decide, ?_⟩
    norm_num [defaultOsr, List.range_succ]
  obtain ⟨c, hc, -⟩ := C97_values 1 (List.replicate 5 1) (by norm_num) 8 (by norm_num) (by simp) (defaultOsr 8) (C35_default_osr_pos 8 (by norm_num)) _ hord
  obtain ⟨l, h1, -, h2⟩ := C97_white_error 1 one_pos 8 (by norm_num) (by norm_num) 1 one_pos _ hord c hc none (by simp)
  exact ⟨c, l, hc, h1, h2⟩

/-- Noise of density falling to a tenth per decade: the slope is above the limit. -/
example : 10 < localSlope [1, 10, 100] [sweepSndr 1 1, sweepSndr 1 (1 / 100), sweepSndr 1 (1 / 10000)] 1 1 :=
  (C97_white_noise_limit 1 one_pos [1, 10, 100] _ (fun i => 1 / 100 ^ i) 1 1 0 2 rfl rfl (by norm_num) (by norm_num) (by norm_num) (by norm_num)
    (by norm_num) (by
      simp only [List.getD_cons_zero, List.getD_cons_succ, Real.logb_one]
      rw [show (100 : ℝ) = 10 ^ 2 by norm_num, Real.logb_pow, Real.logb_self_eq_one (by norm_num)]
      norm_num) (by norm_num)).1.mpr (by norm_num)

/-- Ascending SNDR. -/
example : 0 ≤ localSlope [1, 2, 4] [50, 53, 56] 1 2 :=
  C97_slope_nonneg [1, 2, 4] [50, 53, 56] (by norm_num) (by
    intro i j h1 h2
    simp only [List.length_cons, List.length_nil] at h2
    interval_cases j <;> interval_cases i <;> norm_num) (by
    intro i j h1 h2
    simp only [List.length_cons, List.length_nil] at h2
    interval_cases j <;> interval_cases i <;> norm_num) 1 2 (by norm_num)

/-- The panel of a three-point sweep; default smoothing of a sweep with 55 points. -/
example : (∃ l, slopeCurve false [1, 2, 4] [50, 53, 56] none = some l) ∧ 5 ≤ smoothWin 55 none :=
  ⟨(C97_slope_panel false [1, 2, 4] [50, 53, 56] none).1.mpr ⟨rfl, by norm_num⟩, (C97_smoothing 55 (by norm_num) none).2.2.1 rfl (by norm_num)⟩

end Verif
