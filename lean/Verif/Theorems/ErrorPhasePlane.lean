import Verif.Model.ErrorPhasePlane
import Verif.Proofs.Percentile
import Verif.Theorems.StaticNonlin

/-!
# C80: residual phase plane
-/

namespace Verif

open Model Finset

/-! ## Specification -/

namespace Spec

/-- Samples strictly between two levels. -/
def Between (lo hi v : ℝ) : Prop := lo < v ∧ v < hi

/-- The record rises (falls) through sample `t`. -/
def Rising (N : ℕ) (y : ℕ → ℝ) (t : ℕ) : Prop := y (if t = 0 then 0 else t - 1) < y (if t + 1 = N then t else t + 1)

def Falling (N : ℕ) (y : ℕ → ℝ) (t : ℕ) : Prop := y (if t + 1 = N then t else t + 1) < y (if t = 0 then 0 else t - 1)

/-- The samples with property `P` take more than `d` different values. -/
def ManyValuesOn (N : ℕ) (P : ℕ → Prop) (y : ℕ → ℝ) (d : ℕ) : Prop := ∃ S : Finset ℝ, d < S.card ∧ ∀ v ∈ S, ∃ t < N, P t ∧ y t = v

end Spec

/-! ## Helpers -/

theorem grad_pos (N : ℕ) (hN : 2 ≤ N) (y : ℕ → ℝ) (t : ℕ) : 0 < gradientAt N y t ↔ Spec.Rising N y t := by
  unfold gradientAt Spec.Rising
  by_cases h0 : t = 0
  · subst h0
    rw [if_pos rfl, if_pos rfl, if_neg (by omega)]
    exact sub_pos
  · rw [if_neg h0, if_neg h0]
    by_cases h1 : t + 1 = N
    · rw [if_pos h1, if_pos h1]; exact sub_pos
    · rw [if_neg h1, if_neg h1]
      constructor
      · intro h; linarith
      · intro h; linarith

theorem grad_neg (N : ℕ) (hN : 2 ≤ N) (y : ℕ → ℝ) (t : ℕ) : gradientAt N y t < 0 ↔ Spec.Falling N y t := by
  unfold gradientAt Spec.Falling
  by_cases h0 : t = 0
  · subst h0
    rw [if_pos rfl, if_pos rfl, if_neg (by omega)]
    exact sub_neg
  · rw [if_neg h0, if_neg h0]
    by_cases h1 : t + 1 = N
    · rw [if_pos h1, if_pos h1]; exact sub_neg
    · rw [if_neg h1, if_neg h1]
      constructor
      · intro h; linarith
      · intro h; linarith

theorem fitCore_total (solve : Lstsq) (N : ℕ) (hN : 2 ≤ N) (y : ℕ → ℝ) (m : ℤ) (tol : ℝ) : ∃ fit, fitCore solve N y none m tol = .ok fit := by
  obtain ⟨f, hf⟩ : ∃ f, estimateFreq N y = .ok f := by
    unfold estimateFreq
    rw [if_neg (by omega)]
    simp only
    split_ifs <;> exact ⟨_, rfl⟩
  unfold fitCore
  simp only [hf]
  exact ⟨_, rfl⟩

theorem fitCore_short (solve : Lstsq) (N : ℕ) (hN : N < 2) (y : ℕ → ℝ) (m : ℤ) (tol : ℝ) : fitCore solve N y none m tol = .error .valueError := by
  unfold fitCore estimateFreq
  rw [if_pos hN]

theorem sum_idx (idx : List ℕ) (f : ℕ → ℝ) : ∑ i ∈ range idx.length, f (idx.getD i 0) = (idx.map f).sum := by
  induction idx with
  | nil => simp
  | cons a l ih => rw [List.length_cons, Finset.sum_range_succ', List.map_cons, List.sum_cons, ← ih]; simp [add_comm]

theorem idx_mem (idx : List ℕ) (t : ℕ) : t ∈ idx ↔ ∃ i < idx.length, idx.getD i 0 = t := by
  rw [List.mem_iff_getElem]
  constructor
  · rintro ⟨i, hi, h⟩; exact ⟨i, hi, by rw [List.getD_eq_getElem _ _ hi, h]⟩
  · rintro ⟨i, hi, h⟩; exact ⟨i, hi, by rw [← h, List.getD_eq_getElem _ _ hi]⟩

theorem many_ne_zero (N d : ℕ) (hd : 1 ≤ d) (u : ℕ → ℝ) (h : Spec.ManyValues N u d) : ∃ t < N, u t ≠ 0 := by
  classical
  obtain ⟨S, hc, hS⟩ := h
  have : ∃ v ∈ S, v ≠ 0 := by
    by_contra hcon
    push Not at hcon
    have hsub : S ⊆ {0} := fun v hv => by simp [hcon v hv]
    have := card_le_card hsub
    rw [card_singleton] at this
    omega
  obtain ⟨v, hv, h0⟩ := this
  obtain ⟨t, ht, rfl⟩ := hS v hv
  exact ⟨t, ht, h0⟩

/-- On data lying exactly on a polynomial the fit evaluates to that polynomial. -/
theorem polyfitAt_exact (solve : Lstsq) (hs : IsLstsq solve) (idx : List ℕ) (x r : ℕ → ℝ) (d : ℕ) (hd : 1 ≤ d) (p : ℕ → ℝ)
    (hm : ∃ S : Finset ℝ, d < S.card ∧ ∀ v ∈ S, ∃ t ∈ idx, x t = v) (hr : ∀ t ∈ idx, r t = Spec.poly p d (x t)) (v : ℝ) :
    polyval (polyfitAt solve idx x r d) v = Spec.poly p d v := by
  have hM : Spec.ManyValues idx.length (fun i => x (idx.getD i 0)) d := by
    obtain ⟨S, hc, hS⟩ := hm
    refine ⟨S, hc, fun v hv => ?_⟩
    obtain ⟨t, ht, h⟩ := hS v hv
    obtain ⟨i, hi, rfl⟩ := (idx_mem idx t).mp ht
    exact ⟨i, hi, h⟩
  obtain ⟨hlen, hopt⟩ := polyfit_spec solve hs idx.length (fun i => x (idx.getD i 0)) (fun i => r (idx.getD i 0)) d (many_ne_zero _ _ hd _ hM)
  have h0 := hopt p
  have hz : ∑ i ∈ range idx.length, (r (idx.getD i 0) - Spec.poly p d (x (idx.getD i 0))) ^ 2 = 0 := by
    apply sum_eq_zero
    intro i hi
    rw [hr _ ((idx_mem idx _).mpr ⟨i, mem_range.mp hi, rfl⟩)]
    ring
  rw [hz] at h0
  have h1 := (sum_eq_zero_iff_of_nonneg fun i _ => sq_nonneg _).mp (le_antisymm h0 (sum_nonneg fun i _ => sq_nonneg _))
  have h2 := poly_unique idx.length d (fun i => x (idx.getD i 0)) (fun i => (polyfitAt solve idx x r d).getD (d - i) 0) p hM (by
    intro i hi
    have := pow_eq_zero_iff (two_ne_zero) |>.mp (h1 i (mem_range.mpr hi))
    have h3 := hr (idx.getD i 0) ((idx_mem idx _).mpr ⟨i, hi, rfl⟩)
    unfold polyfitAt
    linarith)
  have hl : (polyfitAt solve idx x r d).length = d + 1 := hlen
  rw [polyval_eq, hl, Nat.add_sub_cancel, sum_vander d (fun j => (polyfitAt solve idx x r d).getD j 0)]
  unfold Spec.poly
  apply sum_congr rfl
  intro i hi
  have := mem_range.mp hi
  simp only
  rw [h2 i (by omega)]

/-- What an accepted call computes. -/
theorem errorPlane_ok (solve : Lstsq) (N : ℕ) (y : ℕ → ℝ) (order : ℤ) (detect : Bool) (unit : String) (r : ErrorPhasePlane)
    (h : analyzeErrorPhasePlane solve N y order detect unit = .ok r) :
    2 ≤ N ∧ 0 ≤ order ∧ ∃ fit lo hi, fitCore solve N y none 3 (1 / 10 ^ 9) = .ok fit ∧ percentile ((List.range N).map y) 2 = .ok lo ∧
      percentile ((List.range N).map y) 98 = .ok hi ∧
      ((List.range N).filter fun (t : ℕ) => decide (lo < y t) && decide (y t < hi)) ≠ [] ∧
      r = { residual := fit.residuals, fitted := fit.fitted,
            trend := polyfitAt solve ((List.range N).filter fun (t : ℕ) => decide (lo < y t) && decide (y t < hi)) y fit.residuals order.toNat,
            gap := if detect then hysteresisGap solve N y fit.residuals ((List.range N).filter fun (t : ℕ) => decide (lo < y t) && decide (y t < hi)) order.toNat else 0 } := by
  unfold analyzeErrorPhasePlane at h
  by_cases h1 : unit ∉ ["auto", "normalized_fs", "voltage", "code"]
  · rw [if_pos h1] at h; cases h
  rw [if_neg h1] at h
  by_cases h2 : unit = "auto" ∧ N = 0
  · rw [if_pos h2] at h; cases h
  rw [if_neg h2] at h
  have hN : 2 ≤ N := by
    by_contra hN
    rw [fitCore_short solve N (by omega)] at h
    cases h
  cases hf : fitCore solve N y none 3 (1 / 10 ^ 9) with
  | error e => rw [hf] at h; cases h
  | ok fit =>
    rw [hf] at h
    cases hl : percentile ((List.range N).map y) 2 with
    | error e => rw [hl] at h; cases h
    | ok lo =>
      cases hh : percentile ((List.range N).map y) 98 with
      | error e => rw [hl, hh] at h; cases h
      | ok hi =>
        rw [hl, hh] at h
        simp only at h
        by_cases h3 : order < 0
        · rw [if_pos h3] at h; cases h
        rw [if_neg h3] at h
        by_cases h4 : ((List.range N).filter fun (t : ℕ) => decide (lo < y t) && decide (y t < hi)) = []
        · rw [if_pos h4] at h; cases h
        rw [if_neg h4] at h
        injection h with h
        exact ⟨hN, by omega, fit, lo, hi, rfl, rfl, rfl, h4, h.symm⟩

/-! ## Theorems -/

/-- **C80 (display units).** The unit mode changes no returned value; only the four documented modes are accepted. -/
theorem C80_units (solve : Lstsq) (N : ℕ) (y : ℕ → ℝ) (order : ℤ) (detect : Bool) (u v : String) (hu : u ∈ ["auto", "normalized_fs", "voltage", "code"]) :
    (v ∈ ["auto", "normalized_fs", "voltage", "code"] → analyzeErrorPhasePlane solve N y order detect u = analyzeErrorPhasePlane solve N y order detect v) ∧
    (v ∉ ["auto", "normalized_fs", "voltage", "code"] → analyzeErrorPhasePlane solve N y order detect v = .error .valueError) := by
  have key : ∀ w, w ∈ ["auto", "normalized_fs", "voltage", "code"] → N = 0 → analyzeErrorPhasePlane solve N y order detect w = .error .valueError := by
    intro w hw hN
    unfold analyzeErrorPhasePlane
    rw [if_neg (not_not.mpr hw)]
    by_cases hA : w = "auto" ∧ N = 0
    · rw [if_pos hA]
    · rw [if_neg hA, fitCore_short solve N (by omega)]
  refine ⟨fun hv => ?_, fun hv => ?_⟩
  · by_cases hN : N = 0
    · rw [key u hu hN, key v hv hN]
    · unfold analyzeErrorPhasePlane
      rw [if_neg (not_not.mpr hu), if_neg (not_not.mpr hv), if_neg (fun h => hN h.2), if_neg (fun h => hN h.2)]
  · unfold analyzeErrorPhasePlane
    rw [if_pos hv]

/-- **C80 (residual and trend).** Residual plus fitted sine is the record, and the trend has the least squared deviation from the residual, over all
polynomials of the order, on the samples strictly between the 2nd and 98th percentile. -/
theorem C80_trend (solve : Lstsq) (hs : IsLstsq solve) (N : ℕ) (y : ℕ → ℝ) (order : ℤ) (detect : Bool) (unit : String) (r : ErrorPhasePlane)
    (h : analyzeErrorPhasePlane solve N y order detect unit = .ok r) :
    (∀ t, r.residual t + r.fitted t = y t) ∧ r.trend.length = order.toNat + 1 ∧
    ∃ lo hi, percentile ((List.range N).map y) 2 = .ok lo ∧ percentile ((List.range N).map y) 98 = .ok hi ∧
      ((∃ t < N, Spec.Between lo hi (y t) ∧ y t ≠ 0) → ∀ q : ℕ → ℝ,
        (((List.range N).filter fun (t : ℕ) => decide (lo < y t) && decide (y t < hi)).map fun t =>
          (r.residual t - Spec.poly (fun i => r.trend.getD (order.toNat - i) 0) order.toNat (y t)) ^ 2).sum
        ≤ (((List.range N).filter fun (t : ℕ) => decide (lo < y t) && decide (y t < hi)).map fun t => (r.residual t - Spec.poly q order.toNat (y t)) ^ 2).sum) := by
  obtain ⟨hN, ho, fit, lo, hi, hf, hl, hh, hne, rfl⟩ := errorPlane_ok solve N y order detect unit r h
  refine ⟨fun t => ?_, by simp [polyfitAt, polyfit], lo, hi, hl, hh, fun hex q => ?_⟩
  · have hres : ∀ t, fit.residuals t = y t - fit.fitted t := by
      unfold fitCore at hf
      split at hf
      · cases hf
      · injection hf with hf
        subst hf
        intro t
        rfl
    simp only [hres]
    ring
  · obtain ⟨t, ht, hb, h0⟩ := hex
    set idx := (List.range N).filter fun (t : ℕ) => decide (lo < y t) && decide (y t < hi) with hidx
    have hmem : t ∈ idx := by
      rw [hidx, List.mem_filter]
      exact ⟨List.mem_range.mpr ht, by simp [hb.1, hb.2]⟩
    obtain ⟨i, hi', rfl⟩ := (idx_mem idx t).mp hmem
    have := (polyfit_spec solve hs idx.length (fun i => y (idx.getD i 0)) (fun i => fit.residuals (idx.getD i 0)) order.toNat ⟨i, hi', h0⟩).2 q
    rw [← sum_idx, ← sum_idx]
    exact this

/-- **C80 (hysteresis is measured exactly).** If the residual is one polynomial of the sample value on rising samples and another one on falling samples, the
reported gap is the mean distance of the two polynomials over the record; in particular it is zero for a memoryless residual. -/
theorem C80_gap_exact (solve : Lstsq) (hs : IsLstsq solve) (N : ℕ) (y : ℕ → ℝ) (order : ℤ) (h1 : 1 ≤ order) (unit : String) (r : ErrorPhasePlane)
    (h : analyzeErrorPhasePlane solve N y order true unit = .ok r) (lo hi : ℝ)
    (hlo : percentile ((List.range N).map y) 2 = .ok lo) (hhi : percentile ((List.range N).map y) 98 = .ok hi) (p q : ℕ → ℝ)
    (hp : ∀ t < N, Spec.Rising N y t → Spec.Between lo hi (y t) → r.residual t = Spec.poly p order.toNat (y t))
    (hq : ∀ t < N, Spec.Falling N y t → Spec.Between lo hi (y t) → r.residual t = Spec.poly q order.toNat (y t))
    (hmp : Spec.ManyValuesOn N (fun t => Spec.Rising N y t ∧ Spec.Between lo hi (y t)) y (max 100 order.toNat))
    (hmq : Spec.ManyValuesOn N (fun t => Spec.Falling N y t ∧ Spec.Between lo hi (y t)) y (max 100 order.toNat)) :
    N * r.gap = ∑ t ∈ range N, |Spec.poly p order.toNat (y t) - Spec.poly q order.toNat (y t)| := by
  classical
  obtain ⟨hN, ho, fit, lo', hi', hf, hl, hh, hne, rfl⟩ := errorPlane_ok solve N y order true unit r h
  rw [hlo] at hl
  rw [hhi] at hh
  injection hl with hl
  injection hh with hh
  subst hl hh
  have big : ∀ (P : ℕ → Prop) (idx : List ℕ) (k : ℕ), Spec.ManyValuesOn N P y k → (∀ t < N, P t → t ∈ idx) →
      k < idx.length ∧ ∀ d ≤ k, ∃ S : Finset ℝ, d < S.card ∧ ∀ v ∈ S, ∃ t ∈ idx, y t = v := by
    intro P idx k hM hi
    obtain ⟨S, hc, hS⟩ := hM
    have hS' : ∀ v ∈ S, ∃ t ∈ idx, y t = v := fun v hv => by
      obtain ⟨t, ht, hP, hy⟩ := hS v hv
      exact ⟨t, hi t ht hP, hy⟩
    refine ⟨?_, fun d hd => ⟨S, by omega, hS'⟩⟩
    have hsub : S ⊆ (idx.map y).toFinset := fun v hv => by
      obtain ⟨t, ht, hy⟩ := hS' v hv
      rw [List.mem_toFinset, List.mem_map]
      exact ⟨t, ht, hy⟩
    have := (card_le_card hsub).trans (List.toFinset_card_le _)
    rw [List.length_map] at this
    omega
  simp only [if_true]
  unfold hysteresisGap
  simp only
  set valid := (List.range N).filter fun (t : ℕ) => decide (lo < y t) && decide (y t < hi) with hv
  set vr := valid.filter fun (t : ℕ) => decide (0 < gradientAt N y t) with hvr
  set vf := valid.filter fun (t : ℕ) => decide (gradientAt N y t < 0) with hvf
  have mr : ∀ t, t ∈ vr ↔ t < N ∧ Spec.Rising N y t ∧ Spec.Between lo hi (y t) := by
    intro t
    rw [hvr, hv, List.mem_filter, List.mem_filter, List.mem_range]
    simp only [Bool.and_eq_true, decide_eq_true_eq, grad_pos N hN, Spec.Between]
    tauto
  have mf : ∀ t, t ∈ vf ↔ t < N ∧ Spec.Falling N y t ∧ Spec.Between lo hi (y t) := by
    intro t
    rw [hvf, hv, List.mem_filter, List.mem_filter, List.mem_range]
    simp only [Bool.and_eq_true, decide_eq_true_eq, grad_neg N hN, Spec.Between]
    tauto
  obtain ⟨br, sr⟩ := big _ vr _ hmp fun t ht hP => (mr t).mpr ⟨ht, hP⟩
  obtain ⟨bf, sf⟩ := big _ vf _ hmq fun t ht hP => (mf t).mpr ⟨ht, hP⟩
  obtain ⟨br', -⟩ := big _ ((List.range N).filter fun (t : ℕ) => decide (0 < gradientAt N y t)) _ hmp fun t ht hP => by
    rw [List.mem_filter]
    exact ⟨List.mem_range.mpr ht, decide_eq_true ((grad_pos N hN y t).mpr hP.1)⟩
  obtain ⟨bf', -⟩ := big _ ((List.range N).filter fun (t : ℕ) => decide (gradientAt N y t < 0)) _ hmq fun t ht hP => by
    rw [List.mem_filter]
    exact ⟨List.mem_range.mpr ht, decide_eq_true ((grad_neg N hN y t).mpr hP.1)⟩
  rw [if_pos ⟨by omega, by omega⟩, if_pos ⟨by omega, by omega⟩]
  have e1 := polyfitAt_exact solve hs vr y fit.residuals order.toNat (by omega) p (sr _ (by omega)) fun t ht => by
    obtain ⟨a, b, c⟩ := (mr t).mp ht
    exact hp t a b c
  have e2 := polyfitAt_exact solve hs vf y fit.residuals order.toNat (by omega) q (sf _ (by omega)) fun t ht => by
    obtain ⟨a, b, c⟩ := (mf t).mp ht
    exact hq t a b c
  simp only [e1, e2]
  unfold colMean
  have : (N : ℝ) ≠ 0 := by exact_mod_cast (by omega : N ≠ 0)
  exact mul_div_cancel₀ _ this

/-- **C80 (no spurious hysteresis).** The gap is never negative; it is zero when detection is off and for every record of at most 201 samples. -/
theorem C80_gap_bounds (solve : Lstsq) (N : ℕ) (y : ℕ → ℝ) (order : ℤ) (detect : Bool) (unit : String) (r : ErrorPhasePlane)
    (h : analyzeErrorPhasePlane solve N y order detect unit = .ok r) :
    0 ≤ r.gap ∧ (detect = false → r.gap = 0) ∧ (N ≤ 201 → r.gap = 0) := by
  obtain ⟨hN, ho, fit, lo, hi, hf, hl, hh, hne, rfl⟩ := errorPlane_ok solve N y order detect unit r h
  refine ⟨?_, fun hd => by simp [hd], fun hs => ?_⟩
  · simp only
    split_ifs
    · unfold hysteresisGap
      simp only
      split_ifs
      · unfold colMean
        exact div_nonneg (sum_nonneg fun t _ => abs_nonneg _) (Nat.cast_nonneg _)
      · exact le_rfl
      · exact le_rfl
    · exact le_rfl
  · simp only
    split_ifs
    · unfold hysteresisGap
      simp only
      rw [if_neg]
      rintro ⟨a, b⟩
      have hle : ((List.range N).filter fun (t : ℕ) => decide (0 < gradientAt N y t)).length + ((List.range N).filter fun (t : ℕ) => decide (gradientAt N y t < 0)).length ≤ N := by
        have h1 : ((List.range N).filter fun (t : ℕ) => decide (gradientAt N y t < 0)).length
            ≤ ((List.range N).filter fun (t : ℕ) => !decide (0 < gradientAt N y t)).length := by
          rw [← List.countP_eq_length_filter, ← List.countP_eq_length_filter]
          apply List.countP_mono_left
          intro t _ ht
          simp only [decide_eq_true_eq] at ht
          simp only [Bool.not_eq_true', decide_eq_false_iff_not, not_lt]
          exact ht.le
        have h2 := List.length_eq_length_filter_add (l := List.range N) (fun (t : ℕ) => decide (0 < gradientAt N y t))
        rw [List.length_range] at h2
        omega
      omega
    · rfl

/-- **C80 (two-level records).** A record that takes only two values (a one-bit converter) is refused with a `TypeError`: no sample lies strictly between the two
percentiles. -/
theorem C80_two_level_refused (solve : Lstsq) (N : ℕ) (hN : 2 ≤ N) (y : ℕ → ℝ) (a b : ℝ) (hy : ∀ t < N, y t = a ∨ y t = b) (order : ℤ) (ho : 0 ≤ order) (detect : Bool)
    (unit : String) (hu : unit ∈ ["auto", "normalized_fs", "voltage", "code"]) : analyzeErrorPhasePlane solve N y order detect unit = .error .typeError := by
  wlog hab : a ≤ b generalizing a b
  · exact this b a (fun t ht => (hy t ht).symm) (by linarith)
  have hne : (List.range N).map y ≠ [] := by
    intro h
    have := congrArg List.length h
    simp at this
    omega
  obtain ⟨lo, hl, hl1, -⟩ := percentile_between _ hne 2 (by norm_num) (by norm_num)
  obtain ⟨hi, hh, -, hh2⟩ := percentile_between _ hne 98 (by norm_num) (by norm_num)
  have ha : a ≤ lo := hl1 a fun v hv => by
    obtain ⟨t, ht, rfl⟩ := List.mem_map.mp hv
    rcases hy t (List.mem_range.mp ht) with h | h <;> linarith
  have hb : hi ≤ b := hh2 b fun v hv => by
    obtain ⟨t, ht, rfl⟩ := List.mem_map.mp hv
    rcases hy t (List.mem_range.mp ht) with h | h <;> linarith
  have hv : ((List.range N).filter fun (t : ℕ) => decide (lo < y t) && decide (y t < hi)) = [] := by
    rw [List.filter_eq_nil_iff]
    intro t ht
    simp only [Bool.and_eq_true, decide_eq_true_eq, not_and, not_lt]
    intro h
    rcases hy t (List.mem_range.mp ht) with e | e <;> linarith
  obtain ⟨fit, hf⟩ : ∃ fit, fitCore solve N y none 3 (1 / 10 ^ 9) = .ok fit := fitCore_total solve N hN y 3 _
  unfold analyzeErrorPhasePlane
  rw [if_neg (not_not.mpr hu), if_neg (by omega), hf, hl, hh]
  simp only
  rw [if_neg (by omega), if_pos hv]

/-- Number of samples of a record picked by a test that holds on `a .. a + m - 1`. -/
theorem filter_map_ge (N : ℕ) (y : ℕ → ℝ) (P : ℝ → Bool) (a m : ℕ) (hb : a + m ≤ N) (h : ∀ t, a ≤ t → t < a + m → P (y t) = true) :
    m ≤ (((List.range N).map y).filter P).length := by
  rw [List.filter_map, List.length_map]
  have hsub : (List.range' a m).Sublist ((List.range N).filter (P ∘ y)) := by
    have h1 : (List.range' a m).Sublist (List.range N) := by
      rw [List.range_eq_range', show N = a + (m + (N - a - m)) by omega, ← List.range'_append_1, ← List.range'_append_1]
      simp only [Nat.zero_add]
      exact (List.sublist_append_left _ _).trans (List.sublist_append_right _ _)
    have h2 := h1.filter (P ∘ y)
    rwa [List.filter_eq_self.mpr] at h2
    intro t ht
    rw [List.mem_range'_1] at ht
    exact h t ht.1 ht.2
  have := hsub.length_le
  rwa [List.length_range'] at this

/-- The hypotheses of `C80_gap_exact` are met by one period of a cosine in 512 samples, for every least-squares solver; its gap is zero. -/
example (solve : Lstsq) (hs : IsLstsq solve) :
    ∃ r, analyzeErrorPhasePlane solve 512 (fun t => Real.cos (2 * Real.pi * t / 512)) 3 true "auto" = .ok r ∧ r.gap = 0 := by
  set y : ℕ → ℝ := fun t => Real.cos (2 * Real.pi * t / 512) with hy
  have hπ := Real.pi_pos
  have anti : ∀ s t : ℕ, s < t → t ≤ 256 → y t < y s := by
    intro s t hst ht
    have h1 : (t : ℝ) ≤ 256 := by exact_mod_cast ht
    have h2 : (s : ℝ) < t := by exact_mod_cast hst
    apply Real.cos_lt_cos_of_nonneg_of_le_pi (by positivity)
    · rw [div_le_iff₀ (by norm_num)]; nlinarith
    · apply div_lt_div_of_pos_right _ (by norm_num); nlinarith
  have mirror : ∀ t : ℕ, t ≤ 512 → y (512 - t) = y t := by
    intro t ht
    simp only [hy]
    rw [Nat.cast_sub ht, show 2 * Real.pi * (((512 : ℕ) : ℝ) - t) / 512 = 2 * Real.pi - 2 * Real.pi * t / 512 by push_cast; ring, Real.cos_two_pi_sub]
  obtain ⟨fit, hf, -, -, -, -, hfit, -⟩ := C58_coherent_recovery solve hs 512 1 (by norm_num) (by norm_num) (by norm_num) (by norm_num) 1 0 0 (by norm_num)
    (by linarith) (by linarith) 3 (1 / 10 ^ 9) y (fun t _ => by
      simp only [hy, sineAt]
      rw [show 2 * Real.pi * (((1 : ℕ) : ℝ) / ((512 : ℕ) : ℝ)) * t + 0 = 2 * Real.pi * t / 512 by push_cast; ring]
      ring)
  have hne : (List.range 512).map y ≠ [] := by
    intro h
    have := congrArg List.length h
    simp at this
  have hlen : ((List.range 512).map y).length = 512 := by simp
  obtain ⟨lo, hl, -⟩ := percentile_between _ hne 2 (by norm_num) (by norm_num)
  obtain ⟨hi, hh, -⟩ := percentile_between _ hne 98 (by norm_num) (by norm_num)
  have hlo : lo ≤ y 244 := by
    apply percentile_le_of_count _ hne 2 (by norm_num) (by norm_num) _ _ hl
    rw [hlen, show ⌈(2 : ℝ) / 100 * (((512 : ℕ) : ℝ) - 1)⌉ = 11 by rw [Int.ceil_eq_iff]; norm_num]
    refine lt_of_lt_of_le ?_ (filter_map_ge 512 y _ 244 13 (by norm_num) fun t h1 h2 => ?_)
    · decide
    · apply decide_eq_true
      rcases Nat.lt_or_ge 244 t with h | h
      · exact (anti 244 t h (by omega)).le
      · rw [show t = 244 by omega]
  have hhi : y 12 ≤ hi := by
    apply le_percentile_of_count _ hne 98 (by norm_num) (by norm_num) _ _ hh
    rw [hlen, show ⌊(98 : ℝ) / 100 * (((512 : ℕ) : ℝ) - 1)⌋ = 500 by rw [Int.floor_eq_iff]; norm_num]
    refine lt_of_lt_of_le ?_ (filter_map_ge 512 y _ 0 13 (by norm_num) fun t h1 h2 => ?_)
    · decide
    · apply decide_eq_true
      rcases Nat.lt_or_ge t 12 with h | h
      · exact (anti t 12 h (by omega)).le
      · rw [show t = 12 by omega]
  have hbt : ∀ t, 13 ≤ t → t ≤ 243 → Spec.Between lo hi (y t) := fun t h1 h2 =>
    ⟨lt_of_le_of_lt hlo (anti t 244 (by omega) (by omega)), lt_of_lt_of_le (anti 12 t (by omega) (by omega)) hhi⟩
  obtain ⟨r, hr⟩ : ∃ r, analyzeErrorPhasePlane solve 512 y 3 true "auto" = .ok r := by
    unfold analyzeErrorPhasePlane
    rw [if_neg (by simp), if_neg (by simp), show (3 : ℤ) = ((3 : ℕ) : ℤ) from rfl, hf, hl, hh]
    simp only
    rw [if_neg (by norm_num), if_neg]
    · exact ⟨_, rfl⟩
    · intro h
      have := List.filter_eq_nil_iff.mp h 100 (by simp)
      apply this
      simp only [Bool.and_eq_true, decide_eq_true_eq]
      exact hbt 100 (by norm_num) (by norm_num)
  have hres : ∀ t < 512, r.residual t = 0 := by
    obtain ⟨-, -, fit', -, -, hf', -, -, -, rfl⟩ := errorPlane_ok solve 512 y 3 true "auto" r hr
    rw [show ((3 : ℕ) : ℤ) = 3 from rfl] at hf
    rw [hf] at hf'
    injection hf' with hf'
    subst hf'
    intro t ht
    exact (hfit t ht).2
  have hpoly : ∀ v, Spec.poly (fun _ => 0) 3 v = 0 := fun v => by simp [Spec.poly]
  have hS : (max 100 3 : ℕ) < (((Finset.range 231).image fun i => y (13 + i))).card := by
    rw [card_image_of_injOn]
    · simp
    · intro i hi j hj hij
      simp only [coe_range, Set.mem_Iio] at hi hj
      rcases lt_trichotomy i j with h | h | h
      · exact absurd hij (anti (13 + i) (13 + j) (by omega) (by omega)).ne'
      · exact h
      · exact absurd hij (anti (13 + j) (13 + i) (by omega) (by omega)).ne
  have hg := C80_gap_exact solve hs 512 y 3 (by norm_num) "auto" r hr lo hi hl hh (fun _ => 0) (fun _ => 0)
    (fun t ht _ _ => by rw [hres t ht]; exact (hpoly _).symm) (fun t ht _ _ => by rw [hres t ht]; exact (hpoly _).symm)
    ⟨_, hS, fun v hv => by
      obtain ⟨i, hi', rfl⟩ := mem_image.mp hv
      have := mem_range.mp hi'
      refine ⟨512 - (13 + i), by omega, ⟨?_, ?_⟩, mirror _ (by omega)⟩
      · unfold Spec.Rising
        rw [if_neg (by omega), if_neg (by omega), show 512 - (13 + i) - 1 = 512 - (14 + i) by omega, show 512 - (13 + i) + 1 = 512 - (12 + i) by omega,
          mirror _ (by omega), mirror _ (by omega)]
        exact anti _ _ (by omega) (by omega)
      · rw [mirror _ (by omega)]
        exact hbt _ (by omega) (by omega)⟩
    ⟨_, hS, fun v hv => by
      obtain ⟨i, hi', rfl⟩ := mem_image.mp hv
      have := mem_range.mp hi'
      refine ⟨13 + i, by omega, ⟨?_, hbt _ (by omega) (by omega)⟩, rfl⟩
      unfold Spec.Falling
      rw [if_neg (by omega), if_neg (by omega)]
      exact anti _ _ (by omega) (by omega)⟩
  refine ⟨r, hr, ?_⟩
  simpa using hg

/-- A ramp of four samples is accepted, whatever the solver. -/
example (solve : Lstsq) : ∃ r, analyzeErrorPhasePlane solve 4 (fun t => (t : ℝ)) 1 true "code" = .ok r := by
  have hlo : percentile ((List.range 4).map fun (t : ℕ) => (t : ℝ)) 2 = .ok (6 / 100) := by
    rw [percentile_eq _ (by simp) _ (by norm_num) (by norm_num)]
    have : sortAsc ((List.range 4).map fun (t : ℕ) => (t : ℝ)) = [0, 1, 2, 3] := by
      rw [show ((List.range 4).map fun (t : ℕ) => (t : ℝ)) = [0, 1, 2, 3] by simp [List.range_succ]]
      norm_num [sortAsc, List.insertionSort, List.orderedInsert]
    rw [this]
    unfold interp
    have hv : (2 : ℝ) / 100 * (((List.range 4).map fun (t : ℕ) => (t : ℝ)).length - 1) = 6 / 100 := by simp; norm_num
    have hfl : ⌊(6 : ℝ) / 100⌋ = 0 := by rw [Int.floor_eq_iff]; norm_num
    rw [hv, hfl]
    norm_num
  have hhi : percentile ((List.range 4).map fun (t : ℕ) => (t : ℝ)) 98 = .ok (294 / 100) := by
    rw [percentile_eq _ (by simp) _ (by norm_num) (by norm_num)]
    have : sortAsc ((List.range 4).map fun (t : ℕ) => (t : ℝ)) = [0, 1, 2, 3] := by
      rw [show ((List.range 4).map fun (t : ℕ) => (t : ℝ)) = [0, 1, 2, 3] by simp [List.range_succ]]
      norm_num [sortAsc, List.insertionSort, List.orderedInsert]
    rw [this]
    unfold interp
    have hv : (98 : ℝ) / 100 * (((List.range 4).map fun (t : ℕ) => (t : ℝ)).length - 1) = 294 / 100 := by simp; norm_num
    have hfl : ⌊(294 : ℝ) / 100⌋ = 2 := by rw [Int.floor_eq_iff]; norm_num
    rw [hv, hfl, show Int.toNat 2 = 2 from rfl]
    norm_num
  obtain ⟨fit, hf⟩ : ∃ fit, fitCore solve 4 (fun t => (t : ℝ)) none 3 (1 / 10 ^ 9) = .ok fit := fitCore_total solve 4 (by norm_num) _ 3 _
  unfold analyzeErrorPhasePlane
  rw [if_neg (by simp), if_neg (by simp), hf, hlo, hhi]
  simp only
  rw [if_neg (by norm_num), if_neg]
  · exact ⟨_, rfl⟩
  · intro h
    have := List.filter_eq_nil_iff.mp h 1 (by simp)
    norm_num at this

end Verif
