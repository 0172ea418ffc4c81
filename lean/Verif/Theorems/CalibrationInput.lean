import Verif.Theorems.CalibrationSearch
import Mathlib.Data.List.GetD

/-!
# C65: input contract of the calibration
-/

namespace Verif

open Model Finset

/-- A dataset turned so that samples are rows: transposed when it has fewer rows than columns. -/
def turned (seg : List (List ℝ)) : List (List ℝ) :=
  if seg.length < (seg.headD []).length then (List.range (seg.headD []).length).map fun j => seg.map fun r => r.getD j 0 else seg

/-- Number of columns after turning: the smaller dimension (rows win ties). -/
def turnedWidth (seg : List (List ℝ)) : ℕ := ((turned seg).headD []).length

private theorem stack_some (w : ℕ) (segs : List (List (List ℝ))) :
    stackSegments (some w) segs = if (∃ s ∈ segs, s = [] ∨ s.headD [] = [] ∨ turnedWidth s ≠ w) then .error .valueError else .ok (segs.map turned, some w) := by
  induction segs with
  | nil => simp [stackSegments]
  | cons s rest ih =>
    have ho : orientSegment s = turned s := rfl
    unfold stackSegments
    by_cases h1 : s = [] ∨ s.headD [] = []
    · rw [if_pos h1, if_pos ⟨s, by simp, by tauto⟩]
    · rw [if_neg h1]
      simp only [ho]
      by_cases h2 : ((turned s).headD []).length ≠ w
      · rw [if_pos h2, if_pos ⟨s, by simp, Or.inr (Or.inr h2)⟩]
      · rw [if_neg h2, ih]
        by_cases h3 : ∃ s ∈ rest, s = [] ∨ s.headD [] = [] ∨ turnedWidth s ≠ w
        · obtain ⟨s', hs', h3'⟩ := h3
          rw [if_pos ⟨s', hs', h3'⟩, if_pos ⟨s', by simp [hs'], h3'⟩]
        · rw [if_neg h3, if_neg]
          · rfl
          · rintro ⟨s', hs', h4⟩
            rcases List.mem_cons.mp hs' with rfl | hs'
            · rcases h4 with h4 | h4 | h4
              · exact h1 (Or.inl h4)
              · exact h1 (Or.inr h4)
              · exact h2 h4
            · exact h3 ⟨s', hs', h4⟩

/-- **C65.** `_prepare_input` succeeds exactly when there is at least one dataset, none is empty, all have the same width after turning,
and given nominal weights have that length. It then yields the turned datasets, that width, and binary weights by default. Every other
input is a `ValueError`. -/
theorem C65_prepare (segs : List (List (List ℝ))) (given : Option (List ℝ)) :
    prepareInput segs given = if segs = [] ∨ (∃ s ∈ segs, s = [] ∨ s.headD [] = [] ∨ turnedWidth s ≠ turnedWidth (segs.headD [])) ∨
        (∃ g, given = some g ∧ g.length ≠ turnedWidth (segs.headD [])) then .error .valueError
      else .ok (segs.map turned, turnedWidth (segs.headD []),
        given.getD ((List.range (turnedWidth (segs.headD []))).map fun i => 2 ^ (turnedWidth (segs.headD []) - 1 - i))) := by
  cases segs with
  | nil => simp [prepareInput]
  | cons s rest =>
    unfold prepareInput
    rw [if_neg (by simp)]
    have ho : orientSegment s = turned s := rfl
    have hst : stackSegments none (s :: rest) = if (∃ x ∈ s :: rest, x = [] ∨ x.headD [] = [] ∨ turnedWidth x ≠ turnedWidth s) then .error .valueError
        else .ok ((s :: rest).map turned, some (turnedWidth s)) := by
      unfold stackSegments
      by_cases h1 : s = [] ∨ s.headD [] = []
      · rw [if_pos h1, if_pos ⟨s, by simp, by tauto⟩]
      · rw [if_neg h1]
        simp only [ho]
        rw [stack_some]
        by_cases h3 : ∃ x ∈ rest, x = [] ∨ x.headD [] = [] ∨ turnedWidth x ≠ turnedWidth s
        · obtain ⟨s', hs', h3'⟩ := h3
          have h3'' : ∃ x ∈ rest, x = [] ∨ x.headD [] = [] ∨ turnedWidth x ≠ ((turned s).headD []).length := ⟨s', hs', h3'⟩
          rw [if_pos h3'', if_pos ⟨s', by simp [hs'], h3'⟩]
        · have h3'' : ¬ ∃ x ∈ rest, x = [] ∨ x.headD [] = [] ∨ turnedWidth x ≠ ((turned s).headD []).length := h3
          rw [if_neg h3'', if_neg]
          · rfl
          · rintro ⟨s', hs', h4⟩
            rcases List.mem_cons.mp hs' with rfl | hs'
            · rcases h4 with h4 | h4 | h4
              · exact h1 (Or.inl h4)
              · exact h1 (Or.inr h4)
              · exact h4 rfl
            · exact h3 ⟨s', hs', h4⟩
    rw [hst]
    by_cases h : ∃ x ∈ s :: rest, x = [] ∨ x.headD [] = [] ∨ turnedWidth x ≠ turnedWidth s
    · rw [if_pos h]
      exact (if_pos (Or.inr (Or.inl h))).symm
    · rw [if_neg h]
      cases given with
      | none =>
        refine Eq.trans ?_ (if_neg ?_).symm
        · rfl
        · rintro (h' | h' | ⟨g, hg, _⟩)
          · simp at h'
          · exact h h'
          · cases hg
      | some g =>
        by_cases hg : g.length ≠ turnedWidth s
        · refine Eq.trans ?_ (if_pos (Or.inr (Or.inr ⟨g, rfl, hg⟩))).symm
          simp only [Option.getD_some, nominalWeights]
          rw [if_pos hg]
        · refine Eq.trans ?_ (if_neg ?_).symm
          · simp only [Option.getD_some, nominalWeights]
            rw [if_neg hg]
            rfl
          · rintro (h' | h' | ⟨g', hg', h''⟩)
            · simp at h'
            · exact h h'
            · injection hg' with hg'
              subst hg'
              exact hg h''

/-- **C65 (frequency guard).** A frequency above one half is refused whatever the rest of the input. -/
theorem C65_frequency_guard (solve : Lstsq) (est : List ℝ) (segs : List (List (List ℝ))) (freq : FreqArg) (force : Option Bool)
    (given : Option (List ℝ)) (H : ℕ) (lr reltol : ℝ) (maxIter : ℕ) (f : ℝ) (hf : f ∈ freq.values) (hf2 : 1 / 2 < f) :
    calibrate solve est segs freq force given H lr reltol maxIter = .error .valueError := by
  unfold calibrate
  rw [if_pos ⟨f, hf, hf2⟩]

private theorem patch_nonempty (N : ℕ) (bits : List (ℕ → ℝ)) (nominal : List ℝ) (i : ℕ) (hi : i < bits.length) (h : ¬ ptpSmall N (bits.getD i 0)) :
    (patchRank N bits nominal).eff ≠ [] := by
  unfold patchRank
  split_ifs with hr
  · exact List.ne_nil_of_length_pos (by simp only; omega)
  · have key : ∀ k, k ≤ bits.length → i < k →
        ((List.range k).foldl (patchStep N bits nominal) { eff := [], founders := [], links := [] }).eff ≠ [] := by
      intro k
      induction k with
      | zero => intro _ h0; omega
      | succ k ih =>
        intro hk hik
        rw [List.range_succ, List.foldl_append]
        simp only [List.foldl_cons, List.foldl_nil]
        generalize hs : (List.range k).foldl (patchStep N bits nominal) { eff := [], founders := [], links := [] } = s at ih
        by_cases he : s.eff = []
        · have hik' : i = k := by
            by_contra hne
            exact ih (by omega) (by omega) he
          subst hik'
          have := (C38_new_column_iff_independent N bits nominal s i h).mpr (by
            rw [he]
            intro hmem
            have hset : sampled N '' {c | c ∈ [fun _ => (1 : ℝ)]} = {sampled N fun _ => 1} := by
              ext v
              simp
            rw [hset, Submodule.mem_span_singleton] at hmem
            obtain ⟨a, ha⟩ := hmem
            apply h
            intro p hp q hq
            have e1 := congrFun ha ⟨p, hp⟩
            have e2 := congrFun ha ⟨q, hq⟩
            simp only [sampled, Pi.smul_apply, smul_eq_mul, mul_one] at e1 e2
            rw [← e1, ← e2, sub_self]
            positivity)
          intro hnil
          rw [hnil] at this
          simp at this
        · unfold patchStep
          simp only
          split_ifs
          · exact he
          · simp
          · split
            · exact he
            · intro hnil
              simp only [List.set_eq_nil_iff] at hnil
              exact he hnil
    exact key _ le_rfl hi

private theorem recover_error (weff : List ℝ) (links : List (ℤ × ℝ)) (e : PyErr) (h : recoverRank weff links = .error e) : e = .indexError := by
  unfold recoverRank at h
  split_ifs at h
  injection h with h
  exact h.symm

private theorem dual_error (solve : Lstsq) (N : ℕ) (common offs derivs cos sin : List (ℕ → ℝ)) (e : PyErr)
    (h : dualBasis solve N common offs derivs cos sin = .error e) : e = .indexError := by
  unfold dualBasis at h
  split at h
  · simp only at h
    split_ifs at h
  · injection h with h
    exact h.symm

private theorem iter_error (solve : Lstsq) (lens : List ℕ) (common : List (ℕ → ℝ)) (freqs : List ℝ) (H : ℕ) (lr : ℝ) (e : PyErr)
    (h : searchIter solve lens common freqs H lr = .error e) : e = .indexError := by
  unfold searchIter at h
  split at h
  · rename_i e' he
    injection h with h
    subst h
    exact dual_error _ _ _ _ _ _ _ _ he
  · simp only at h
    split at h
    · rename_i e' he
      injection h with h
      subst h
      exact dual_error _ _ _ _ _ _ _ _ he
    · cases h

private theorem loop_error (solve : Lstsq) (lens : List ℕ) (common : List (ℕ → ℝ)) (H : ℕ) (lr reltol : ℝ) (n : ℕ) (freqs delta : List ℝ)
    (last : Option (List ℝ × ℕ)) (e : PyErr) (h : searchLoop solve lens common H lr reltol n freqs delta last = .error e) : e ≠ .valueError := by
  induction n generalizing freqs delta last with
  | zero =>
    cases last with
    | none =>
      simp only [searchLoop, Except.error.injEq] at h
      rw [← h]
      simp
    | some p =>
      obtain ⟨c, b⟩ := p
      simp only [searchLoop] at h
      cases h
  | succ n ih =>
    rw [searchLoop] at h
    split at h
    · rename_i e' he
      injection h with h
      subst h
      rw [iter_error _ _ _ _ _ _ _ he]
      simp
    · split_ifs at h
      exact ih _ _ _ h

/-- What the calibration refuses about its datasets and nominal weights. -/
def BadData (segs : List (List (List ℝ))) (given : Option (List ℝ)) : Prop :=
  segs = [] ∨ (∃ s ∈ segs, s = [] ∨ s.headD [] = [] ∨ turnedWidth s ≠ turnedWidth (segs.headD [])) ∨
    ∃ g, given = some g ∧ g.length ≠ turnedWidth (segs.headD [])

/-- What it refuses about its frequencies: one above one half, or a list, not all zero, of another length than that of the datasets. -/
def BadFreq (count : ℕ) (freq : FreqArg) : Prop :=
  (∃ f ∈ freq.values, 1 / 2 < f) ∨ ∃ fs, freq = .list fs ∧ (∃ f ∈ fs, f ≠ 0) ∧ fs.length ≠ count

private theorem prep_ok (segs : List (List (List ℝ))) (given : Option (List ℝ)) (h : ¬ BadData segs given) :
    prepareInput segs given = .ok (segs.map turned, turnedWidth (segs.headD []),
      given.getD ((List.range (turnedWidth (segs.headD []))).map fun i => 2 ^ (turnedWidth (segs.headD []) - 1 - i))) := by
  rw [C65_prepare]
  exact if_neg h

private theorem prep_bad (segs : List (List (List ℝ))) (given : Option (List ℝ)) (h : BadData segs given) : prepareInput segs given = .error .valueError := by
  rw [C65_prepare]
  exact if_pos h

private theorem estimate_eq (count : ℕ) (est : List ℝ) (freq : FreqArg) (hf : ¬ BadFreq count freq) : ∃ fa, estimateFrequencies count est freq = .ok fa := by
  cases freq with
  | auto => exact ⟨_, rfl⟩
  | scalar f =>
    simp only [estimateFrequencies]
    split_ifs
    · exact ⟨_, rfl⟩
    · exact ⟨_, rfl⟩
  | list fs =>
    simp only [estimateFrequencies]
    split_ifs with h1 h2
    · exact ⟨_, rfl⟩
    · push Not at h1
      exact absurd (Or.inr ⟨fs, rfl, h1, h2⟩) hf
    · exact ⟨_, rfl⟩

/-- **C65 (exactly).** `calibrate_weight_sine` raises `ValueError` exactly when a frequency exceeds one half or a list of frequencies does not match the number of
datasets, or when there is no dataset, an empty one, widths differ after orientation, or the nominal weights have another length. -/
theorem C65_value_error (solve : Lstsq) (est : List ℝ) (segs : List (List (List ℝ))) (freq : FreqArg) (force : Option Bool)
    (given : Option (List ℝ)) (H : ℕ) (lr reltol : ℝ) (maxIter : ℕ) :
    calibrate solve est segs freq force given H lr reltol maxIter = .error .valueError ↔ BadFreq segs.length freq ∨ BadData segs given := by
  constructor
  · intro h
    by_contra hc
    push Not at hc
    obtain ⟨h1, h2⟩ := hc
    unfold calibrate at h
    rw [if_neg (fun hh => h1 (Or.inl hh)), prep_ok _ _ h2] at h
    simp only [List.length_map] at h
    obtain ⟨fa, hfa⟩ := estimate_eq segs.length est freq h1
    rw [hfa] at h
    simp only at h
    split at h
    · rename_i e he
      injection h with h
      subst h
      split_ifs at he
      · exact loop_error _ _ _ _ _ _ _ _ _ _ _ he rfl
      · split at he
        · rename_i e' he'
          injection he with he
          subst he
          cases dual_error _ _ _ _ _ _ _ _ he'
        · cases he
    · split at h
      · rename_i e he
        injection h with h
        subst h
        cases recover_error _ _ _ he
      · cases h
  · rintro (h | h)
    · by_cases h1 : ∃ f ∈ freq.values, 1 / 2 < f
      · unfold calibrate
        rw [if_pos h1]
      · obtain ⟨fs, rfl, h2, h3⟩ := h.resolve_left h1
        unfold calibrate
        rw [if_neg h1]
        by_cases h4 : BadData segs given
        · rw [prep_bad _ _ h4]
        · rw [prep_ok _ _ h4]
          simp only [List.length_map]
          simp only [estimateFrequencies]
          rw [if_neg (by push Not; exact h2), if_pos h3]
    · unfold calibrate
      rw [prep_bad _ _ h]
      split_ifs <;> rfl

private theorem known_total (solve : Lstsq) (lens : List ℕ) (hl : lens ≠ []) (common derivs : List (ℕ → ℝ)) (freqs : List ℝ) (H : ℕ) (hH : 1 ≤ H) :
    ∃ c b, dualBasis solve lens.sum common (offsetCols lens) derivs (cosCols lens freqs H) (sinCols lens freqs H) = .ok (c, b) := by
  have hlen : 0 < lens.length := List.length_pos_iff.mpr hl
  obtain ⟨m, hm⟩ : ∃ m, lens.length = m + 1 := ⟨lens.length - 1, by omega⟩
  obtain ⟨k, rfl⟩ : ∃ k, H = k + 1 := ⟨H - 1, by omega⟩
  have h1 : ∃ c0 ct, cosCols lens freqs (k + 1) = c0 :: ct := by
    unfold cosCols
    rw [hm, List.range_succ_eq_map (n := m), List.flatMap_cons, List.range_succ_eq_map (n := k), List.map_cons, List.cons_append]
    exact ⟨_, _, rfl⟩
  have h2 : ∃ c0 ct, sinCols lens freqs (k + 1) = c0 :: ct := by
    unfold sinCols
    rw [hm, List.range_succ_eq_map (n := m), List.flatMap_cons, List.range_succ_eq_map (n := k), List.map_cons, List.cons_append]
    exact ⟨_, _, rfl⟩
  obtain ⟨c0, ct, h1⟩ := h1
  obtain ⟨s0, st, h2⟩ := h2
  rw [h1, h2]
  unfold dualBasis
  simp only
  split_ifs
  · exact ⟨_, _, rfl⟩
  · exact ⟨_, _, rfl⟩

private theorem loop_total (solve : Lstsq) (lens : List ℕ) (hl : lens ≠ []) (common : List (ℕ → ℝ)) (H : ℕ) (hH : 1 ≤ H) (lr reltol : ℝ) (n : ℕ) (freqs delta : List ℝ)
    (last : Option (List ℝ × ℕ)) (hn : n ≠ 0 ∨ last ≠ none) : ∃ p, searchLoop solve lens common H lr reltol n freqs delta last = .ok p := by
  induction n generalizing freqs delta last with
  | zero =>
    cases last with
    | none => simp at hn
    | some p =>
      obtain ⟨c, b⟩ := p
      exact ⟨_, rfl⟩
  | succ n ih =>
    have hit : ∀ f, ∃ it, searchIter solve lens common f H lr = .ok it := by
      intro f
      unfold searchIter solveKnown
      obtain ⟨c, b, h⟩ := known_total solve lens hl common [] f H hH
      rw [h]
      simp only
      obtain ⟨c', b', h'⟩ := known_total solve lens hl common
        ((List.range lens.length).map fun (k : ℕ) => derivCol lens f H (searchCoeffs common.length lens.length H c b k) k) f H hH
      rw [h']
      exact ⟨_, rfl⟩
    rw [searchLoop]
    obtain ⟨it, hit⟩ := hit ((List.range lens.length).map fun (k : ℕ) => freqs.getD k 0 + delta.getD k 0)
    rw [hit]
    simp only
    split_ifs
    · exact ⟨_, rfl⟩
    · exact ih _ _ _ (Or.inr (by simp))

/-- **C65 (success).** On bits 0 and 1 that meet the contract, with at least one harmonic and one iteration, `calibrate_weight_sine` returns a result exactly if at least
one bit toggles somewhere in the stacked samples; if none does, it raises `IndexError`. This holds with a given and with an estimated frequency. -/
theorem C65_succeeds (solve : Lstsq) (est : List ℝ) (segs : List (List (List ℝ))) (freq : FreqArg) (force : Option Bool)
    (given : Option (List ℝ)) (H : ℕ) (hH : 1 ≤ H) (lr reltol : ℝ) (maxIter : ℕ) (hI : 1 ≤ maxIter) (hf : ¬ BadFreq segs.length freq) (hd : ¬ BadData segs given)
    (hbin : ∀ r ∈ (segs.map turned).flatten, ∀ j, r.getD j 0 = 0 ∨ r.getD j 0 = 1) :
    ((∃ r, calibrate solve est segs freq force given H lr reltol maxIter = .ok r) ↔
      ∃ j < turnedWidth (segs.headD []), ∃ r ∈ (segs.map turned).flatten, ∃ r' ∈ (segs.map turned).flatten, r.getD j 0 ≠ r'.getD j 0) ∧
    ((∃ r, calibrate solve est segs freq force given H lr reltol maxIter = .ok r) ∨
      calibrate solve est segs freq force given H lr reltol maxIter = .error .indexError) := by
  set R := (segs.map turned).flatten with hR
  set width := turnedWidth (segs.headD []) with hwd
  have hsegs : segs ≠ [] := fun h => hd (Or.inl h)
  have hlens : ((segs.map turned).map List.length) ≠ [] := by simpa using hsegs
  have hN : ((segs.map turned).map List.length).sum = R.length := by rw [hR, List.length_flatten]
  obtain ⟨fa, hfa⟩ := estimate_eq segs.length est freq hf
  have hmem : ∀ t < R.length, R.getD t [] ∈ R := by
    intro t ht
    rw [List.getD_eq_getElem _ _ ht]
    exact List.getElem_mem ht
  have hcol : ∀ j < width, ∀ t, (((List.range width).map fun (j : ℕ) => fun (n : ℕ) => (R.getD n []).getD j 0).getD j 0) t = (R.getD t []).getD j 0 := by
    intro j hj t
    rw [List.getD_eq_getElem?_getD, List.getElem?_map, List.getElem?_range hj]
    rfl
  have hdich : (∃ r, calibrate solve est segs freq force given H lr reltol maxIter = .ok r ∧ (patchRank R.length
        ((List.range width).map fun (j : ℕ) => fun (n : ℕ) => (R.getD n []).getD j 0)
        (given.getD ((List.range width).map fun i => 2 ^ (width - 1 - i)))).eff ≠ []) ∨
      (calibrate solve est segs freq force given H lr reltol maxIter = .error .indexError ∧ (patchRank R.length
        ((List.range width).map fun (j : ℕ) => fun (n : ℕ) => (R.getD n []).getD j 0)
        (given.getD ((List.range width).map fun i => 2 ^ (width - 1 - i)))).eff = []) := by
    have hwpos : ((List.range width).map fun (j : ℕ) => fun (n : ℕ) => (R.getD n []).getD j 0) ≠ [] := by
      obtain ⟨s, t, rfl⟩ := List.exists_cons_of_ne_nil hsegs
      have h1 : s ≠ [] ∧ s.headD [] ≠ [] := by
        by_contra hc
        exact hd (Or.inr (Or.inl ⟨s, by simp, by tauto⟩))
      have h2 : width ≠ 0 := by
        rw [hwd]
        simp only [List.headD_cons]
        unfold turnedWidth turned
        split_ifs with hlt
        · obtain ⟨m, hm⟩ : ∃ m, (s.headD []).length = m + 1 := ⟨(s.headD []).length - 1, by omega⟩
          rw [hm, List.range_succ_eq_map]
          simpa using h1.1
        · simpa using h1.2
      simpa using h2
    unfold calibrate
    rw [if_neg (fun hh => hf (Or.inl hh)), prep_ok _ _ hd]
    simp only [List.length_map]
    rw [hfa, hN]
    simp only
    generalize hP : patchRank R.length ((List.range width).map fun (j : ℕ) => fun (n : ℕ) => (R.getD n []).getD j 0)
        (given.getD ((List.range width).map fun i => 2 ^ (width - 1 - i))) = P
    have fin : ∀ c : List ℝ, (∃ w, recoverRank (recoverScale c P.eff.length (Real.sqrt (1 + c.getD (P.eff.length + segs.length * H) 0 ^ 2))
          (P.eff.map (colScale R.length))) P.links = .ok w ∧ P.eff ≠ []) ∨
        (recoverRank (recoverScale c P.eff.length (Real.sqrt (1 + c.getD (P.eff.length + segs.length * H) 0 ^ 2))
          (P.eff.map (colScale R.length))) P.links = .error .indexError ∧ P.eff = []) := by
      intro c
      have hrec := C38_recover_succeeds R.length ((List.range width).map fun (j : ℕ) => fun (n : ℕ) => (R.getD n []).getD j 0)
          (given.getD ((List.range width).map fun i => 2 ^ (width - 1 - i)))
          (recoverScale c P.eff.length (Real.sqrt (1 + c.getD (P.eff.length + segs.length * H) 0 ^ 2)) (P.eff.map (colScale R.length)))
          (by rw [hP]; simp [recoverScale])
      rw [hP] at hrec
      cases hr : recoverRank (recoverScale c P.eff.length (Real.sqrt (1 + c.getD (P.eff.length + segs.length * H) 0 ^ 2)) (P.eff.map (colScale R.length))) P.links with
      | error e =>
        rw [recover_error _ _ _ hr]
        rw [hr] at hrec
        refine Or.inr ⟨rfl, ?_⟩
        by_contra hne
        obtain ⟨w, hw⟩ := hrec.mpr (Or.inr hne)
        cases hw
      | ok w =>
        refine Or.inl ⟨w, rfl, ?_⟩
        exact (hrec.mp ⟨w, hr⟩).resolve_left hwpos
    by_cases hsw : searchWanted force freq.values fa = true
    · rw [if_pos hsw]
      obtain ⟨⟨fa', c, b⟩, hl⟩ := loop_total solve _ hlens (scaleCols R.length P.eff) H hH lr reltol maxIter fa (List.replicate segs.length 0) none (Or.inl (by omega))
      rw [hl]
      simp only
      rcases fin c with ⟨w, h1, h2⟩ | ⟨h1, h2⟩
      · rw [h1]
        exact Or.inl ⟨_, rfl, h2⟩
      · rw [h1]
        exact Or.inr ⟨rfl, h2⟩
    · rw [if_neg hsw]
      obtain ⟨c, b, hl⟩ := known_total solve _ hlens (scaleCols R.length P.eff) [] fa H hH
      unfold solveKnown
      rw [hN] at hl
      rw [hN, hl]
      simp only
      rcases fin c with ⟨w, h1, h2⟩ | ⟨h1, h2⟩
      · rw [h1]
        exact Or.inl ⟨_, rfl, h2⟩
      · rw [h1]
        exact Or.inr ⟨rfl, h2⟩
  have hiff : (patchRank R.length ((List.range width).map fun (j : ℕ) => fun (n : ℕ) => (R.getD n []).getD j 0)
        (given.getD ((List.range width).map fun i => 2 ^ (width - 1 - i)))).eff ≠ [] ↔
      ∃ j < width, ∃ r ∈ R, ∃ r' ∈ R, r.getD j 0 ≠ r'.getD j 0 := by
    constructor
    · intro h
      by_contra hc
      push Not at hc
      apply h
      by_cases hb : ((List.range width).map fun (j : ℕ) => fun (n : ℕ) => (R.getD n []).getD j 0) = []
      · rw [hb]
        unfold patchRank
        split_ifs <;> rfl
      · by_cases hR0 : R.length = 0
        · exfalso
          obtain ⟨s, t, rfl⟩ := List.exists_cons_of_ne_nil hsegs
          have h1 : s ≠ [] ∧ s.headD [] ≠ [] := by
            by_contra hc
            exact hd (Or.inr (Or.inl ⟨s, by simp, by tauto⟩))
          have h2 : (turned s).length ≠ 0 := by
            unfold turned
            split_ifs
            · simpa using h1.2
            · simpa using h1.1
          rw [hR] at hR0
          simp only [List.map_cons, List.flatten_cons, List.length_append] at hR0
          omega
        · refine (C38_all_constant_fails R.length (by omega) _ hb _ ?_).1
          intro i hi
          have hi' : i < width := by simpa using hi
          refine ⟨(R.getD 0 []).getD i 0, fun n hn => ?_⟩
          rw [hcol i hi']
          exact hc i hi' _ (hmem n hn) _ (hmem 0 (by omega))
    · rintro ⟨j, hj, r, hr, r', hr', hne⟩
      obtain ⟨p, hp, rfl⟩ := List.getElem_of_mem hr
      obtain ⟨q, hq, rfl⟩ := List.getElem_of_mem hr'
      refine patch_nonempty _ _ _ j (by simpa using hj) ?_
      intro hsm
      have h1 := hsm p hp q hq
      have h2 := hsm q hq p hp
      rw [hcol j hj, hcol j hj, List.getD_eq_getElem _ _ hp, List.getD_eq_getElem _ _ hq] at h1 h2
      rcases hbin _ hr j with e | e <;> rcases hbin _ hr' j with e' | e' <;> rw [e, e'] at h1 h2 hne
      · exact hne rfl
      · norm_num at h2
      · norm_num at h1
      · exact hne rfl
  rcases hdich with ⟨r, h1, h2⟩ | ⟨h1, h2⟩
  · exact ⟨⟨fun _ => hiff.mp h2, fun _ => ⟨r, h1⟩⟩, Or.inl ⟨r, h1⟩⟩
  · refine ⟨⟨?_, fun h => absurd h2 (hiff.mpr h)⟩, Or.inr h1⟩
    rintro ⟨r, hr⟩
    rw [h1] at hr
    cases hr

/-- **C65 (refuted part).** The documented range is `[0, 0.5]`, but a negative frequency is accepted, used and reported back. -/
theorem C65_negative_frequency_accepted (solve : Lstsq) (hs : IsLstsq solve) :
    ∃ r, calibrate solve [] [quarterRows] (.scalar (-(1 / 4))) none none 1 (1 / 2) 0 100 = .ok r ∧ r.freq = [-(1 / 4)] := by
  have hser : ∀ (c : ℝ) (a b : ℕ → ℝ) (n : ℕ), harmonicSeries (-(1 / 4)) 1 c a b n = harmonicSeries (1 / 4) 1 c a (fun h => -b h) n := by
    intro c a b n
    unfold harmonicSeries
    congr 1
    apply sum_congr rfl
    intro h _
    rw [show 2 * Real.pi * -(1 / 4) * ((n : ℝ) * ((h : ℝ) + 1)) = -(2 * Real.pi * (1 / 4) * ((n : ℝ) * ((h : ℝ) + 1))) by ring, Real.cos_neg, Real.sin_neg]
    ring
  obtain ⟨r, s, h1, _, _, _, _, _, h7, _⟩ := C40_full_rank solve hs [] [quarterRows] (-(1 / 4)) (by norm_num) (by norm_num) none (by simp) none 1
    one_pos (1 / 2) 0 100 quarterRows 1 [1] quarter_prep [1] rfl (1 / 2) (fun _ => 1 / 2) (fun _ => -(1 / 2))
    (by intro n hn; rw [hser, quarter_clean n hn]; norm_num) (Or.inl (by norm_num))
    (by
      intro u d p q hu h
      obtain ⟨t, h1, h2, h3⟩ := quarter_only u d p (fun h => -q h) hu (by intro n hn; rw [h n hn, hser])
      refine ⟨t, h1, h2, fun k hk => ⟨(h3 k hk).1, ?_⟩⟩
      have := (h3 k hk).2
      linarith)
  exact ⟨r, h1, h7⟩

/-- A wide single dataset is turned; a wrong nominal length is refused. -/
example : prepareInput [[[1, 1, 0], [0, 1, 0]]] none = .ok ([[[1, 0], [1, 1], [0, (0 : ℝ)]]], 2, [2, 1]) ∧
    prepareInput [[[1], [0]]] (some [1, (2 : ℝ)]) = .error .valueError := by
  constructor
  · rw [C65_prepare]
    simp [turnedWidth, turned, List.range_succ]
  · rw [C65_prepare]
    simp [turnedWidth, turned]

/-- Two frequencies for one dataset are refused; the zero list is not, whatever its length. -/
example (solve : Lstsq) (est : List ℝ) : calibrate solve est [[[1, 0], [0, 1], [1, 1]]] (.list [1 / 8, 1 / 8]) none none 1 (1 / 2) (1 / 10 ^ 12) 100 = .error .valueError ∧
    calibrate solve est [[[1, 0], [0, 1], [1, 1]]] (.list [0, 0]) none none 1 (1 / 2) (1 / 10 ^ 12) 100 ≠ .error .valueError := by
  constructor
  · exact (C65_value_error solve est _ _ _ _ _ _ _ _).mpr (Or.inl (Or.inr ⟨_, rfl, ⟨1 / 8, by simp, by norm_num⟩, by simp⟩))
  · rw [Ne, C65_value_error]
    rintro ((⟨f, hf, h⟩ | ⟨fs, h1, ⟨f, hf, h⟩, _⟩) | h)
    · simp only [FreqArg.values, List.mem_cons, List.not_mem_nil, or_false, or_self] at hf
      rw [hf] at h
      norm_num at h
    · injection h1 with h1
      subst h1
      simp at hf
      exact h hf
    · rcases h with h | ⟨s, hs, h⟩ | ⟨g, h, _⟩
      · cases h
      · rw [List.mem_singleton] at hs
        subst hs
        rcases h with h | h | h
        · cases h
        · cases h
        · exact h rfl
      · cases h

/-- Three samples of two bits with a toggling bit are calibrated whatever the solver and the estimate; with both bits constant an `IndexError` results. -/
example (solve : Lstsq) (est : List ℝ) : (∃ r, calibrate solve est [[[1, 0], [0, 0], [1, 0]]] .auto none none 1 (1 / 2) (1 / 10 ^ 12) 100 = .ok r) ∧
    calibrate solve est [[[1, 0], [1, 0], [1, 0]]] .auto none none 1 (1 / 2) (1 / 10 ^ 12) 100 = .error .indexError := by
  have hf : ¬ BadFreq 1 .auto := by
    rintro (⟨f, hf, _⟩ | ⟨fs, h, _⟩)
    · simp [FreqArg.values] at hf
    · cases h
  have hd : ∀ x : ℝ, ¬ BadData [[[1, 0], [x, 0], [1, 0]]] none := by
    rintro x (h | ⟨s, hs, h⟩ | ⟨g, h, _⟩)
    · cases h
    · rw [List.mem_singleton] at hs
      subst hs
      rcases h with h | h | h
      · cases h
      · cases h
      · exact h rfl
    · cases h
  have ht : ∀ x : ℝ, (([[[1, 0], [x, 0], [1, 0]]] : List (List (List ℝ))).map turned).flatten = [[1, 0], [x, 0], [1, 0]] := by
    intro x
    simp [turned]
  have hb : ∀ x : ℝ, x = 0 ∨ x = 1 → ∀ r ∈ [[1, 0], [x, 0], [1, 0]], ∀ j, r.getD j 0 = 0 ∨ r.getD j 0 = 1 := by
    intro x hx r hr j
    simp only [List.mem_cons, List.not_mem_nil, or_false] at hr
    rcases hr with rfl | rfl | rfl <;> rcases j with _ | _ | j <;> simp [hx]
  constructor
  · refine (C65_succeeds solve est [[[1, 0], [0, 0], [1, 0]]] .auto none none 1 le_rfl (1 / 2) (1 / 10 ^ 12) 100 (by norm_num) hf (hd 0) (by rw [ht]; exact hb 0 (Or.inl rfl))).1.mpr ?_
    rw [ht]
    exact ⟨0, by simp [turnedWidth, turned], [1, 0], by simp, [0, 0], by simp, by simp⟩
  · obtain ⟨h1, h2⟩ := C65_succeeds solve est [[[1, 0], [1, 0], [1, 0]]] .auto none none 1 le_rfl (1 / 2) (1 / 10 ^ 12) 100 (by norm_num) hf (hd 1)
      (by rw [ht]; exact hb 1 (Or.inr rfl))
    refine h2.resolve_left fun h => ?_
    obtain ⟨j, _, r, hr, r', hr', hne⟩ := h1.mp h
    rw [ht] at hr hr'
    simp at hr hr'
    rw [hr, hr'] at hne
    exact hne rfl

end Verif
