import Verif.Model.Inl
import Mathlib.Tactic.Positivity
import Mathlib.Data.List.GetD
import Mathlib.Data.List.Count
import Mathlib.Algebra.BigOperators.Intervals
import Mathlib.Algebra.BigOperators.Field
import Mathlib.Algebra.Order.BigOperators.Ring.Finset

/-!
# C46, C47: INL and DNL from a ramp histogram
-/

namespace Verif

open Model

variable {K : Type} [Field K] [LinearOrder K] [IsStrictOrderedRing K] [FloorRing K]

/-! ## Specification -/

/-- First analysed code. -/
def firstCode (lo hi : ℤ) (exclude : Bool) : ℤ := if exclude = true ∧ lo + 2 ≤ hi then lo + 1 else lo

/-- Last analysed code. -/
def lastCode (lo hi : ℤ) (exclude : Bool) : ℤ := if exclude = true ∧ lo + 2 ≤ hi then hi - 1 else hi

/-- Highest code of the configured range; without `code_max` and `num_bits` the highest observed code. -/
def TopCode (codes : List K) (numBits : Option ℤ) (codeMin : ℤ) (codeMax : Option ℤ) (hi : ℤ) : Prop :=
  match codeMax, numBits with
  | some m, _ => hi = m
  | none, some b => hi = codeMin + 2 ^ b.toNat - 1
  | none, none => (hi : K) ∈ codes ∧ ∀ c ∈ codes, c ≤ hi

/-! ## Auxiliary facts -/

omit [LinearOrder K] [IsStrictOrderedRing K] [FloorRing K] [Field K] in
private theorem analyzed_range {α : Type} (exclude : Bool) (n : ℕ) (f : ℕ → α) :
    analyzed exclude ((List.range n).map f) =
      (List.range (if exclude = true ∧ 2 < n then n - 2 else n)).map fun i => f (i + if exclude = true ∧ 2 < n then 1 else 0) := by
  unfold analyzed
  simp only [List.length_map, List.length_range]
  by_cases h : exclude = true ∧ 2 < n
  · rw [if_pos (by simpa using h), if_pos h, if_pos h]
    apply List.ext_getElem
    · simp; omega
    · intro i h1 h2
      simp [List.getElem_dropLast, List.getElem_tail]
  · rw [if_neg (by simpa using h), if_neg h, if_neg h]
    simp

private theorem getD_range_fn {α : Type} (m : ℕ) (f : ℕ → α) (d : α) (i : ℕ) (hi : i < m) : ((List.range m).map f).getD i d = f i := by
  rw [List.getD_eq_getElem _ _ (by simpa using hi)]
  simp

/-- The analysed codes as a start and a length. -/
private theorem code_list (lo hi : ℤ) (exclude : Bool) (hlh : lo ≤ hi) :
    analyzed exclude ((List.range (hi + 1 - lo).toNat).map fun (i : ℕ) => lo + (i : ℤ)) =
      (List.range (lastCode lo hi exclude + 1 - firstCode lo hi exclude).toNat).map fun (i : ℕ) => firstCode lo hi exclude + (i : ℤ) := by
  rw [analyzed_range]
  unfold lastCode firstCode
  by_cases h : exclude = true ∧ lo + 2 ≤ hi
  · have h' : exclude = true ∧ 2 < (hi + 1 - lo).toNat := ⟨h.1, by omega⟩
    rw [if_pos h, if_pos h, if_pos h', if_pos h']
    rw [show (hi + 1 - lo).toNat - 2 = (hi - 1 + 1 - (lo + 1)).toNat by omega]
    apply List.map_congr_left
    intro i _
    push_cast
    ring
  · have h' : ¬ (exclude = true ∧ 2 < (hi + 1 - lo).toNat) := by
      rintro ⟨h1, h2⟩
      exact h ⟨h1, by omega⟩
    rw [if_neg h, if_neg h, if_neg h', if_neg h']
    simp

private theorem count_list (zs : List ℤ) (lo hi : ℤ) (exclude : Bool) (hlh : lo ≤ hi) :
    analyzed exclude (histogram zs lo (hi + 1 - lo).toNat) =
      (List.range (lastCode lo hi exclude + 1 - firstCode lo hi exclude).toNat).map fun (i : ℕ) => zs.count (firstCode lo hi exclude + (i : ℤ)) := by
  unfold histogram
  rw [analyzed_range]
  unfold lastCode firstCode
  by_cases h : exclude = true ∧ lo + 2 ≤ hi
  · have h' : exclude = true ∧ 2 < (hi + 1 - lo).toNat := ⟨h.1, by omega⟩
    rw [if_pos h, if_pos h, if_pos h', if_pos h']
    rw [show (hi + 1 - lo).toNat - 2 = (hi - 1 + 1 - (lo + 1)).toNat by omega]
    apply List.map_congr_left
    intro i _
    congr 1
    push_cast
    ring
  · have h' : ¬ (exclude = true ∧ 2 < (hi + 1 - lo).toNat) := by
      rintro ⟨h1, h2⟩
      exact h ⟨h1, by omega⟩
    rw [if_neg h, if_neg h, if_neg h', if_neg h']
    simp

private theorem sum_range_fn {M : Type} [AddCommMonoid M] (m : ℕ) (f : ℕ → M) : ((List.range m).map f).sum = ∑ i ∈ Finset.range m, f i := by
  induction m with
  | zero => simp
  | succ m ih => rw [List.range_succ, List.map_append, List.sum_append, ih, Finset.sum_range_succ]; simp

/-- Number of analysed samples with code `a + i`. -/
private def cnt (zs : List ℤ) (a : ℤ) (i : ℕ) : ℕ := zs.count (a + (i : ℤ))

/-- The statistics in closed form. -/
private theorem stats_eq (zs : List ℤ) (lo hi : ℤ) (hlh : lo ≤ hi) (endpoint : Endpoint) (exclude : Bool) (a : ℤ) (m : ℕ)
    (ha : a = firstCode lo hi exclude) (hm : m = (lastCode lo hi exclude + 1 - firstCode lo hi exclude).toNat) :
    0 < m ∧ rampStatistics (K := K) zs lo hi endpoint exclude =
      if ∑ i ∈ Finset.range m, cnt zs a i = 0 then .error .valueError
      else
        let ideal : K := (∑ i ∈ Finset.range m, (cnt zs a i : K)) / m
        let dnl := (List.range m).map fun i => (cnt zs a i : K) / ideal - 1
        let trans := (List.range (m + 1)).map fun (i : ℕ) => a + (i : ℤ)
        let raw := (List.range (m + 1)).map fun k => ∑ i ∈ Finset.range k, ((cnt zs a i : K) / ideal - 1)
        match correctInl raw trans endpoint with
        | .error e => .error e
        | .ok inl => .ok
          { code := (List.range m).map fun (i : ℕ) => a + (i : ℤ), counts := (List.range m).map fun i => cnt zs a i, dnl := dnl
            transitionCode := trans, inl := inl, rawInl := raw
            missing := ((List.range m).filter fun i => decide (cnt zs a i = 0)).map fun (i : ℕ) => a + (i : ℤ)
            idealCount := ideal
            dnlMin := foldMin (dnl.headD 0) dnl, dnlMax := foldMax (dnl.headD 0) dnl
            inlMin := foldMin (inl.headD 0) inl, inlMax := foldMax (inl.headD 0) inl
            codeMin := lo, codeMax := hi } := by
  have hm0 : 0 < m := by
    rw [hm]
    unfold lastCode firstCode
    split_ifs <;> omega
  refine ⟨hm0, ?_⟩
  unfold rampStatistics
  simp only [code_list lo hi exclude hlh, count_list zs lo hi exclude hlh, ← hm]
  simp only [← ha]
  have hcn : (List.range m).map (fun (i : ℕ) => zs.count (a + (i : ℤ))) = (List.range m).map fun i => cnt zs a i := rfl
  rw [hcn]
  have hsum : ((List.range m).map fun i => cnt zs a i).sum = ∑ i ∈ Finset.range m, cnt zs a i := sum_range_fn m _
  by_cases h0 : ∑ i ∈ Finset.range m, cnt zs a i = 0
  · rw [if_pos (Or.inr (by rw [hsum]; exact h0)), if_pos h0]
  · have hne : (List.range m).map (fun i => cnt zs a i) ≠ [] := by simp; omega
    rw [if_neg (by rw [hsum]; tauto), if_neg h0]
    have hmK : (0 : K) < m := by exact_mod_cast hm0
    have htot : (0 : K) < ∑ i ∈ Finset.range m, (cnt zs a i : K) := by
      have : 0 < ∑ i ∈ Finset.range m, cnt zs a i := Nat.pos_of_ne_zero h0
      exact_mod_cast this
    have hideal : meanOf (((List.range m).map fun i => cnt zs a i).map fun (c : ℕ) => (c : K)) = (∑ i ∈ Finset.range m, (cnt zs a i : K)) / m := by
      unfold meanOf
      rw [List.map_map, sum_range_fn]
      simp
    simp only [hideal]
    have hpos : 0 < (∑ i ∈ Finset.range m, (cnt zs a i : K)) / m := div_pos htot hmK
    rw [if_neg (not_le.mpr hpos)]
    generalize hid : (∑ i ∈ Finset.range m, (cnt zs a i : K)) / m = ideal at *
    have hdnl : ((List.range m).map fun i => cnt zs a i).map (fun (c : ℕ) => max ((c : K) / ideal - 1) (-1)) = (List.range m).map fun i => (cnt zs a i : K) / ideal - 1 := by
      rw [List.map_map]
      apply List.map_congr_left
      intro i _
      simp only [Function.comp]
      rw [max_eq_left]
      have : (0 : K) ≤ (cnt zs a i : K) / ideal := by positivity
      linarith
    rw [hdnl]
    have hfirst : ((List.range m).map fun (i : ℕ) => a + (i : ℤ)).headD 0 = a := by
      obtain ⟨m', rfl⟩ := Nat.exists_eq_succ_of_ne_zero hm0.ne'
      rw [List.range_succ_eq_map]
      simp
    have hlast : ((List.range m).map fun (i : ℕ) => a + (i : ℤ)).getLastD 0 = a + m - 1 := by
      obtain ⟨m', rfl⟩ := Nat.exists_eq_succ_of_ne_zero hm0.ne'
      rw [List.range_succ, List.map_append, List.map_cons, List.map_nil, List.getLastD_concat]
      push_cast
      ring
    have htr : (a + (m : ℤ) - 1 + 2 - a).toNat = m + 1 := by omega
    rw [hfirst, hlast, htr]
    have hraw : (0 : K) :: cumsum ((List.range m).map fun i => (cnt zs a i : K) / ideal - 1) =
        (List.range (m + 1)).map fun k => ∑ i ∈ Finset.range k, ((cnt zs a i : K) / ideal - 1) := by
      rw [List.range_succ_eq_map]
      simp only [List.map_cons, Finset.range_zero, Finset.sum_empty, List.map_map]
      congr 1
      unfold cumsum
      simp only [List.length_map, List.length_range]
      apply List.map_congr_left
      intro i hi
      have hi' : i < m := List.mem_range.mp hi
      rw [← List.map_take, List.take_range, min_eq_left (by omega), sum_range_fn]
      rfl
    have hmiss : ((((List.range m).map fun (i : ℕ) => a + (i : ℤ)).zip ((List.range m).map fun i => cnt zs a i)).filter fun p => decide (p.2 = 0)).map Prod.fst
        = ((List.range m).filter fun i => decide (cnt zs a i = 0)).map fun (i : ℕ) => a + (i : ℤ) := by
      rw [List.zip_map', List.filter_map, List.map_map]
      rfl
    rw [hraw, hmiss]
    rcases correctInl ((List.range (m + 1)).map fun k => ∑ i ∈ Finset.range k, ((cnt zs a i : K) / ideal - 1)) ((List.range (m + 1)).map fun (i : ℕ) => a + (i : ℤ)) endpoint with e | inl <;> rfl

private theorem coerce_ints (zs : List ℤ) (h : zs ≠ []) : coerceCodes (zs.map fun (z : ℤ) => (z : K)) = .ok zs := by
  unfold coerceCodes
  rw [if_neg (by simpa using h), if_pos]
  · rw [List.map_map]
    congr 1
    conv_rhs => rw [← List.map_id zs]
    apply List.map_congr_left
    intro z _
    exact rint_intCast z
  · rw [List.all_eq_true]
    intro c hc
    obtain ⟨z, _, rfl⟩ := List.mem_map.mp hc
    simp only [rint_intCast, decide_true]

private theorem coerce_ok (codes : List K) (zs : List ℤ) (h : coerceCodes codes = .ok zs) : codes = zs.map (fun (z : ℤ) => (z : K)) ∧ zs ≠ [] := by
  unfold coerceCodes at h
  by_cases h1 : codes = []
  · rw [if_pos h1] at h
    cases h
  · rw [if_neg h1] at h
    by_cases h2 : codes.all (fun c => decide (c = (rint c : K))) = true
    · rw [if_pos h2] at h
      injection h with h
      subst h
      refine ⟨?_, by simpa using h1⟩
      rw [List.map_map]
      conv_lhs => rw [← List.map_id codes]
      apply List.map_congr_left
      intro c hc
      have := List.all_eq_true.mp h2 c hc
      simpa using this
    · rw [if_neg h2] at h
      cases h

private theorem intMax_spec (zs : List ℤ) (h : zs ≠ []) : intMax zs ∈ zs ∧ ∀ z ∈ zs, z ≤ intMax zs := by
  have key : ∀ (l : List ℤ) (a : ℤ), a ≤ l.foldl max a ∧ (∀ z ∈ l, z ≤ l.foldl max a) ∧ (l.foldl max a = a ∨ l.foldl max a ∈ l) := by
    intro l
    induction l with
    | nil => intro a; simp
    | cons x t ih =>
      intro a
      obtain ⟨h1, h2, h3⟩ := ih (max a x)
      rw [List.foldl_cons]
      refine ⟨(le_max_left _ _).trans h1, ?_, ?_⟩
      · intro y hy
        rcases List.mem_cons.mp hy with rfl | hy
        · exact (le_max_right _ _).trans h1
        · exact h2 y hy
      · rcases h3 with h3 | h3
        · rw [h3]
          rcases max_choice a x with h | h
          · left; exact h
          · right; rw [h]; simp
        · right; simp [h3]
  obtain ⟨a, t, rfl⟩ := List.exists_cons_of_ne_nil h
  unfold intMax
  obtain ⟨_, h2, h3⟩ := key (a :: t) ((a :: t).headD 0)
  refine ⟨?_, h2⟩
  rcases h3 with h3 | h3
  · rw [h3]; simp
  · exact h3

private theorem top_unique (zs : List ℤ) (hne : zs ≠ []) (numBits : Option ℤ) (codeMin : ℤ) (codeMax : Option ℤ) (hi : ℤ) :
    TopCode (zs.map fun (z : ℤ) => (z : K)) numBits codeMin codeMax hi ↔
      hi = (match codeMax, numBits with | some m, _ => m | none, some b => codeMin + 2 ^ b.toNat - 1 | none, none => intMax zs) := by
  unfold TopCode
  cases codeMax with
  | some m => rfl
  | none =>
    cases numBits with
    | some b => rfl
    | none =>
      obtain ⟨h1, h2⟩ := intMax_spec zs hne
      simp only
      constructor
      · rintro ⟨h3, h4⟩
        obtain ⟨z, hz, hzh⟩ := List.mem_map.mp h3
        have hz' : z = hi := by exact_mod_cast hzh
        apply le_antisymm
        · rw [← hz']; exact h2 z hz
        · have := h4 _ (List.mem_map_of_mem (f := fun (z : ℤ) => (z : K)) h1)
          exact_mod_cast this
      · rintro rfl
        refine ⟨List.mem_map_of_mem (f := fun (z : ℤ) => (z : K)) h1, ?_⟩
        intro c hc
        obtain ⟨z, hz, rfl⟩ := List.mem_map.mp hc
        exact_mod_cast h2 z hz

/-- The whole call, unfolded for integer records. -/
private theorem ramp_eq (zs : List ℤ) (hne : zs ≠ []) (numBits : Option ℤ) (codeMin : ℤ) (codeMax : Option ℤ) (endpoint : Endpoint) (exclude : Bool)
    (hi : ℤ) (htop : TopCode (zs.map fun (z : ℤ) => (z : K)) numBits codeMin codeMax hi) :
    inlFromRamp (zs.map fun (z : ℤ) => (z : K)) numBits codeMin codeMax endpoint exclude =
      if (∃ b, numBits = some b ∧ b ≤ 0) ∨ hi < codeMin ∨ ∃ z ∈ zs, z < codeMin ∨ hi < z then .error .valueError
      else rampStatistics zs codeMin hi endpoint exclude := by
  rw [top_unique zs hne] at htop
  obtain ⟨hmem, hmax⟩ := intMax_spec zs hne
  unfold inlFromRamp validateLimits
  by_cases hb : ∃ b, numBits = some b ∧ b ≤ 0
  · obtain ⟨b, rfl, hb0⟩ := hb
    rw [if_pos ⟨b, by simp, hb0⟩]
    exact (if_pos (Or.inl ⟨b, rfl, hb0⟩)).symm
  · have hb' : ¬ ∃ b ∈ numBits, b ≤ 0 := by
      rintro ⟨b, h1, h2⟩
      exact hb ⟨b, by simpa using h1, h2⟩
    rw [if_neg hb']
    have hany : ∀ h : ℤ, (zs.any (fun c => decide (c < codeMin) || decide (h < c)) = true) ↔ ∃ z ∈ zs, z < codeMin ∨ h < z := by
      intro h
      rw [List.any_eq_true]
      constructor
      · rintro ⟨z, hz, h1⟩
        exact ⟨z, hz, by simpa using h1⟩
      · rintro ⟨z, hz, h1⟩
        exact ⟨z, hz, by simpa using h1⟩
    cases codeMax with
    | some mx =>
      simp only at htop
      subst htop
      simp only
      by_cases hlt : hi < codeMin
      · rw [if_pos hlt, if_pos (Or.inr (Or.inl hlt))]
      · rw [if_neg hlt]
        simp only [coerce_ints zs hne, reduceCtorEq, false_and, if_false, Option.getD_some]
        by_cases ha : ∃ z ∈ zs, z < codeMin ∨ hi < z
        · rw [if_pos ((hany hi).mpr ha), if_pos (Or.inr (Or.inr ha))]
        · rw [if_neg (by rw [hany hi]; exact ha), if_neg (by rintro (h | h | h); exacts [hb h, hlt h, ha h])]
    | none =>
      cases numBits with
      | some b =>
        simp only at htop
        have hlt : ¬ hi < codeMin := by
          have : (1 : ℤ) ≤ 2 ^ b.toNat := one_le_pow₀ (by norm_num)
          omega
        simp only [coerce_ints zs hne, reduceCtorEq, false_and, if_false, Option.getD_some, ← htop]
        by_cases ha : ∃ z ∈ zs, z < codeMin ∨ hi < z
        · rw [if_pos ((hany hi).mpr ha), if_pos (Or.inr (Or.inr ha))]
        · rw [if_neg (by rw [hany hi]; exact ha), if_neg (by rintro (h | h | h); exacts [hb h, hlt h, ha h])]
      | none =>
        simp only at htop
        simp only [coerce_ints zs hne, Option.getD_none, ← htop, true_and]
        by_cases hlt : hi < codeMin
        · rw [if_pos hlt, if_pos (Or.inr (Or.inl hlt))]
        · rw [if_neg hlt]
          by_cases ha : ∃ z ∈ zs, z < codeMin ∨ hi < z
          · rw [if_pos ((hany hi).mpr ha), if_pos (Or.inr (Or.inr ha))]
          · rw [if_neg (by rw [hany hi]; exact ha), if_neg (by rintro (h | h | h); exacts [hb h, hlt h, ha h])]

/-! ## Theorems -/

private theorem getD_lin (m : ℕ) (f : ℕ → K) (k : ℕ) (hk : k < m) : ((List.range m).map f).getD k 0 = f k := getD_range_fn m f 0 k hk

private theorem correct_length (raw : List K) (code : List ℤ) (e : Endpoint) (inl : List K) (hl : code.length = raw.length) (h : correctInl raw code e = .ok inl) :
    inl.length = raw.length := by
  unfold correctInl at h
  cases e with
  | none => injection h with h; rw [h]
  | endpoints =>
    simp only at h
    split_ifs at h <;> injection h with h <;> subst h <;> simp
  | fit =>
    simp only at h
    split_ifs at h <;> injection h with h <;> subst h <;> simp [hl]
  | other =>
    simp only at h
    split_ifs at h with h1
    injection h with h
    rw [h]

/-- Everything `C46` says about the histogram part, from the closed form. -/
theorem C46_ramp_bookkeeping (codes : List K) (numBits : Option ℤ) (codeMin : ℤ) (codeMax : Option ℤ) (endpoint : Endpoint) (exclude : Bool)
    (r : RampInl K) (h : inlFromRamp codes numBits codeMin codeMax endpoint exclude = .ok r) :
    ∃ (a : ℤ) (m : ℕ), 0 < m ∧ TopCode codes numBits codeMin codeMax r.codeMax ∧ a = firstCode codeMin r.codeMax exclude ∧
      a + m - 1 = lastCode codeMin r.codeMax exclude ∧
      r.code.length = m ∧ r.counts.length = m ∧ r.dnl.length = m ∧ r.rawInl.length = m + 1 ∧ r.inl.length = m + 1 ∧ r.transitionCode.length = m + 1 ∧
      0 < r.idealCount ∧ r.idealCount * m = ∑ i ∈ Finset.range m, (codes.count ((a + i : ℤ) : K) : K) ∧
      (∀ i < m, r.code.getD i 0 = a + i ∧ r.counts.getD i 0 = codes.count ((a + i : ℤ) : K) ∧
        r.dnl.getD i 0 = (codes.count ((a + i : ℤ) : K) : K) / r.idealCount - 1 ∧ -1 ≤ r.dnl.getD i 0 ∧
        (r.dnl.getD i 0 = -1 ↔ ((a + i : ℤ) : K) ∉ codes)) ∧
      (∀ c : ℤ, c ∈ r.missing ↔ a ≤ c ∧ c < a + m ∧ (c : K) ∉ codes) ∧
      ∑ i ∈ Finset.range m, r.dnl.getD i 0 = 0 ∧
      (∀ k ≤ m, r.transitionCode.getD k 0 = a + k ∧ r.rawInl.getD k 0 = ∑ i ∈ Finset.range k, r.dnl.getD i 0) ∧
      r.rawInl.getD 0 0 = 0 ∧ r.rawInl.getD m 0 = 0 := by
  have hco : ∃ zs, coerceCodes codes = .ok zs := by
    unfold inlFromRamp at h
    cases hv : validateLimits numBits codeMin codeMax with
    | error e => rw [hv] at h; cases h
    | ok lim =>
      rw [hv] at h
      simp only at h
      cases hc : coerceCodes codes with
      | error e => rw [hc] at h; cases h
      | ok zs => exact ⟨zs, rfl⟩
  obtain ⟨zs, hzs⟩ := hco
  obtain ⟨rfl, hne⟩ := coerce_ok codes zs hzs
  obtain ⟨hi, htop⟩ : ∃ hi, TopCode (zs.map fun (z : ℤ) => (z : K)) numBits codeMin codeMax hi := ⟨_, (top_unique zs hne numBits codeMin codeMax _).mpr rfl⟩
  rw [ramp_eq zs hne numBits codeMin codeMax endpoint exclude hi htop] at h
  by_cases hbad : (∃ b, numBits = some b ∧ b ≤ 0) ∨ hi < codeMin ∨ ∃ z ∈ zs, z < codeMin ∨ hi < z
  · rw [if_pos hbad] at h
    cases h
  rw [if_neg hbad] at h
  have hlh : codeMin ≤ hi := by
    by_contra hlt
    exact hbad (Or.inr (Or.inl (not_le.mp hlt)))
  obtain ⟨hm0, hst⟩ := stats_eq (K := K) zs codeMin hi hlh endpoint exclude _ _ rfl rfl
  set a := firstCode codeMin hi exclude with ha
  set m := (lastCode codeMin hi exclude + 1 - a).toNat with hm
  rw [hst] at h
  by_cases h0 : ∑ i ∈ Finset.range m, cnt zs a i = 0
  · rw [if_pos h0] at h
    cases h
  rw [if_neg h0] at h
  simp only at h
  have hmK : (0 : K) < m := by exact_mod_cast hm0
  have htot : (0 : K) < ∑ i ∈ Finset.range m, (cnt zs a i : K) := by
    have : 0 < ∑ i ∈ Finset.range m, cnt zs a i := Nat.pos_of_ne_zero h0
    exact_mod_cast this
  have hpos : 0 < (∑ i ∈ Finset.range m, (cnt zs a i : K)) / m := div_pos htot hmK
  have hidm : (∑ i ∈ Finset.range m, (cnt zs a i : K)) / m * m = ∑ i ∈ Finset.range m, (cnt zs a i : K) := div_mul_cancel₀ _ hmK.ne'
  generalize (∑ i ∈ Finset.range m, (cnt zs a i : K)) / m = ideal at *
  cases hcor : correctInl ((List.range (m + 1)).map fun k => ∑ i ∈ Finset.range k, ((cnt zs a i : K) / ideal - 1)) ((List.range (m + 1)).map fun (i : ℕ) => a + (i : ℤ)) endpoint with
  | error e => rw [hcor] at h; cases h
  | ok inl =>
    rw [hcor] at h
    simp only at h
    injection h with h
    subst h
    have hcount : ∀ c : ℤ, (zs.map fun (z : ℤ) => (z : K)).count (c : K) = zs.count c := fun c => List.count_map_of_injective zs _ Int.cast_injective c
    have hmem : ∀ c : ℤ, (c : K) ∈ (zs.map fun (z : ℤ) => (z : K)) ↔ c ∈ zs := fun c => List.mem_map_of_injective Int.cast_injective
    have hlast : a + m - 1 = lastCode codeMin hi exclude := by omega
    have hsum0 : ∑ i ∈ Finset.range m, ((cnt zs a i : K) / ideal - 1) = 0 := by
      rw [Finset.sum_sub_distrib, ← Finset.sum_div, ← hidm]
      simp only [Finset.sum_const, Finset.card_range, nsmul_eq_mul, mul_one]
      rw [mul_comm, mul_div_assoc, div_self hpos.ne', mul_one, sub_self]
    have hdget : ∀ k ≤ m, ∑ i ∈ Finset.range k, ((List.range m).map fun i => (cnt zs a i : K) / ideal - 1).getD i 0 = ∑ i ∈ Finset.range k, ((cnt zs a i : K) / ideal - 1) := by
      intro k hk
      apply Finset.sum_congr rfl
      intro i hi
      exact getD_lin m _ i (by have := Finset.mem_range.mp hi; omega)
    refine ⟨a, m, hm0, htop, ha, hlast, by simp, by simp, by simp, by simp, ?_, by simp, hpos, ?_, ?_, ?_, ?_, ?_, ?_, ?_⟩
    · have := correct_length _ _ _ _ (by simp) hcor
      simpa using this
    · simp only [hcount]
      exact hidm
    · intro i hi
      simp only [hcount, hmem]
      rw [getD_range_fn m _ 0 i hi, getD_range_fn m _ 0 i hi, getD_lin m _ i hi]
      refine ⟨rfl, rfl, rfl, ?_, ?_⟩
      · have : (0 : K) ≤ (cnt zs a i : K) / ideal := by positivity
        linarith
      · rw [← List.count_eq_zero]
        show (cnt zs a i : K) / ideal - 1 = -1 ↔ cnt zs a i = 0
        constructor
        · intro h1
          have h2 : (cnt zs a i : K) / ideal = 0 := by linarith
          rw [div_eq_zero_iff] at h2
          rcases h2 with h2 | h2
          · exact_mod_cast h2
          · exact absurd h2 hpos.ne'
        · intro h1
          rw [h1]
          simp
    · intro c
      simp only [hmem, List.mem_map, List.mem_filter, List.mem_range, decide_eq_true_eq]
      constructor
      · rintro ⟨i, ⟨h1, h2⟩, rfl⟩
        exact ⟨by omega, by omega, List.count_eq_zero.mp h2⟩
      · rintro ⟨h1, h2, h3⟩
        refine ⟨(c - a).toNat, ⟨by omega, ?_⟩, by omega⟩
        unfold cnt
        rw [show a + ((c - a).toNat : ℤ) = c by omega]
        exact List.count_eq_zero.mpr h3
    · rw [hdget m le_rfl, hsum0]
    · intro k hk
      rw [getD_range_fn (m + 1) _ 0 k (by omega), getD_lin (m + 1) _ k (by omega)]
      exact ⟨rfl, (hdget k hk).symm⟩
    · rw [getD_lin (m + 1) _ 0 (by omega)]
      simp
    · rw [getD_lin (m + 1) _ m (by omega), hsum0]

theorem ramp_parts (codes : List K) (numBits : Option ℤ) (codeMin : ℤ) (codeMax : Option ℤ) (endpoint : Endpoint) (exclude : Bool)
    (r : RampInl K) (h : inlFromRamp codes numBits codeMin codeMax endpoint exclude = .ok r) :
    correctInl r.rawInl r.transitionCode endpoint = .ok r.inl ∧ r.dnlMin = foldMin (r.dnl.headD 0) r.dnl ∧ r.dnlMax = foldMax (r.dnl.headD 0) r.dnl ∧
      r.inlMin = foldMin (r.inl.headD 0) r.inl ∧ r.inlMax = foldMax (r.inl.headD 0) r.inl := by
  unfold inlFromRamp at h
  cases hv : validateLimits numBits codeMin codeMax with
  | error e => rw [hv] at h; cases h
  | ok lim =>
    rw [hv] at h
    simp only at h
    cases hc : coerceCodes codes with
    | error e => rw [hc] at h; cases h
    | ok zs =>
      rw [hc] at h
      simp only at h
      by_cases h1 : lim = none ∧ intMax zs < codeMin
      · rw [if_pos h1] at h; cases h
      rw [if_neg h1] at h
      by_cases h2 : zs.any (fun c => decide (c < codeMin) || decide (lim.getD (intMax zs) < c)) = true
      · rw [if_pos h2] at h; cases h
      rw [if_neg h2] at h
      unfold rampStatistics at h
      simp only at h
      split at h
      · cases h
      · split at h
        · cases h
        · split at h
          · cases h
          · rename_i inl hinl
            injection h with h
            subst h
            exact ⟨hinl, rfl, rfl, rfl, rfl⟩

private theorem fold_min_max (l : List K) (h : l ≠ []) :
    foldMin (l.headD 0) l ∈ l ∧ (∀ x ∈ l, foldMin (l.headD 0) l ≤ x) ∧ foldMax (l.headD 0) l ∈ l ∧ ∀ x ∈ l, x ≤ foldMax (l.headD 0) l := by
  have kmin : ∀ (l : List K) (a : K), l.foldl min a ≤ a ∧ (∀ z ∈ l, l.foldl min a ≤ z) ∧ (l.foldl min a = a ∨ l.foldl min a ∈ l) := by
    intro l
    induction l with
    | nil => intro a; simp
    | cons x t ih =>
      intro a
      obtain ⟨h1, h2, h3⟩ := ih (min a x)
      rw [List.foldl_cons]
      refine ⟨h1.trans (min_le_left _ _), ?_, ?_⟩
      · intro y hy
        rcases List.mem_cons.mp hy with rfl | hy
        · exact h1.trans (min_le_right _ _)
        · exact h2 y hy
      · rcases h3 with h3 | h3
        · rw [h3]
          rcases min_choice a x with h | h
          · left; exact h
          · right; rw [h]; simp
        · right; simp [h3]
  have kmax : ∀ (l : List K) (a : K), a ≤ l.foldl max a ∧ (∀ z ∈ l, z ≤ l.foldl max a) ∧ (l.foldl max a = a ∨ l.foldl max a ∈ l) := by
    intro l
    induction l with
    | nil => intro a; simp
    | cons x t ih =>
      intro a
      obtain ⟨h1, h2, h3⟩ := ih (max a x)
      rw [List.foldl_cons]
      refine ⟨(le_max_left _ _).trans h1, ?_, ?_⟩
      · intro y hy
        rcases List.mem_cons.mp hy with rfl | hy
        · exact (le_max_right _ _).trans h1
        · exact h2 y hy
      · rcases h3 with h3 | h3
        · rw [h3]
          rcases max_choice a x with h | h
          · left; exact h
          · right; rw [h]; simp
        · right; simp [h3]
  obtain ⟨a, t, rfl⟩ := List.exists_cons_of_ne_nil h
  obtain ⟨_, h2, h3⟩ := kmin (a :: t) a
  obtain ⟨_, h5, h6⟩ := kmax (a :: t) a
  unfold foldMin foldMax
  rw [List.headD_cons]
  refine ⟨?_, h2, ?_, h5⟩
  · rcases h3 with h3 | h3
    · rw [h3]; simp
    · exact h3
  · rcases h6 with h6 | h6
    · rw [h6]; simp
    · exact h6

/-- **C46 (summary numbers).** The reported extremes of DNL and INL are values of the lists and bound them. -/
theorem C46_ramp_extremes (codes : List K) (numBits : Option ℤ) (codeMin : ℤ) (codeMax : Option ℤ) (endpoint : Endpoint) (exclude : Bool)
    (r : RampInl K) (h : inlFromRamp codes numBits codeMin codeMax endpoint exclude = .ok r) :
    r.dnlMin ∈ r.dnl ∧ r.dnlMax ∈ r.dnl ∧ (∀ x ∈ r.dnl, r.dnlMin ≤ x ∧ x ≤ r.dnlMax) ∧
    r.inlMin ∈ r.inl ∧ r.inlMax ∈ r.inl ∧ (∀ x ∈ r.inl, r.inlMin ≤ x ∧ x ≤ r.inlMax) := by
  obtain ⟨a, m, hm, _, _, _, _, _, hd, _, hi, _⟩ := C46_ramp_bookkeeping codes numBits codeMin codeMax endpoint exclude r h
  obtain ⟨_, e1, e2, e3, e4⟩ := ramp_parts codes numBits codeMin codeMax endpoint exclude r h
  obtain ⟨h1, h2, h3, h4⟩ := fold_min_max r.dnl (List.ne_nil_of_length_pos (by omega))
  obtain ⟨h5, h6, h7, h8⟩ := fold_min_max r.inl (List.ne_nil_of_length_pos (by omega))
  rw [e1, e2, e3, e4]
  exact ⟨h1, h3, fun x hx => ⟨h2 x hx, h4 x hx⟩, h5, h7, fun x hx => ⟨h6 x hx, h8 x hx⟩⟩

/-- **C46 (endpoint correction).** With `none` the reported INL is the raw one, and the endpoint correction never changes it either,
because the raw INL already ends where it starts. It starts and ends at zero. -/
theorem C46_ramp_endpoints (codes : List K) (numBits : Option ℤ) (codeMin : ℤ) (codeMax : Option ℤ) (endpoint : Endpoint) (exclude : Bool)
    (r : RampInl K) (h : inlFromRamp codes numBits codeMin codeMax endpoint exclude = .ok r) (he : endpoint = .none ∨ endpoint = .endpoints) :
    r.inl = r.rawInl ∧ r.inl.headD 1 = 0 ∧ r.inl.getLastD 1 = 0 := by
  obtain ⟨a, m, hm, _, _, _, _, _, _, hraw, _, _, _, _, _, _, _, _, hr0, hrm⟩ := C46_ramp_bookkeeping codes numBits codeMin codeMax endpoint exclude r h
  obtain ⟨hc, _⟩ := ramp_parts codes numBits codeMin codeMax endpoint exclude r h
  have hhead : ∀ d, r.rawInl.headD d = 0 := by
    intro d
    obtain ⟨x, t, e⟩ := List.exists_cons_of_ne_nil (List.ne_nil_of_length_pos (l := r.rawInl) (by omega))
    rw [e] at hr0 ⊢
    simpa using hr0
  have hlast : ∀ d, r.rawInl.getLastD d = 0 := by
    intro d
    have hne := List.ne_nil_of_length_pos (l := r.rawInl) (by omega)
    rw [List.getLastD_eq_getLast?, List.getLast?_eq_getElem?, List.getElem?_eq_getElem (by omega), Option.getD_some]
    rw [List.getD_eq_getElem _ _ (by omega)] at hrm
    rw [← hrm]
    congr 1
    omega
  have hinl : r.inl = r.rawInl := by
    rcases he with rfl | rfl
    · unfold correctInl at hc
      injection hc with hc
      exact hc.symm
    · unfold correctInl at hc
      simp only at hc
      rw [if_neg (List.ne_nil_of_length_pos (by omega)), if_neg (by omega)] at hc
      injection hc with hc
      rw [← hc]
      apply List.ext_getElem
      · simp
      · intro i h1 h2
        simp only [List.getElem_map, List.getElem_range]
        rw [hhead, hlast, List.getD_eq_getElem _ _ h2]
        unfold linspaceAt
        simp
  rw [hinl]
  exact ⟨rfl, hhead 1, hlast 1⟩

omit [FloorRing K] in
/-- Least-squares line through `n` points, in closed form: normal equations and minimality. -/
private theorem line_ls (n : ℕ) (hn : n ≠ 0) (x y : ℕ → K) (xm ym : K) (hx : xm * n = ∑ k ∈ Finset.range n, x k) (hy : ym * n = ∑ k ∈ Finset.range n, y k)
    (hxx : ∑ k ∈ Finset.range n, (x k - xm) ^ 2 ≠ 0) (s : K) (hs : s = (∑ k ∈ Finset.range n, (x k - xm) * (y k - ym)) / ∑ k ∈ Finset.range n, (x k - xm) ^ 2) :
    ∑ k ∈ Finset.range n, (y k - (s * x k + (ym - s * xm))) = 0 ∧ ∑ k ∈ Finset.range n, x k * (y k - (s * x k + (ym - s * xm))) = 0 ∧
    ∀ u v, ∑ k ∈ Finset.range n, (y k - (s * x k + (ym - s * xm))) ^ 2 ≤ ∑ k ∈ Finset.range n, (y k - (u * x k + v)) ^ 2 := by
  have h1 : ∑ k ∈ Finset.range n, (y k - (s * x k + (ym - s * xm))) = 0 := by
    have : ∀ k, y k - (s * x k + (ym - s * xm)) = y k - ym - s * (x k - xm) := fun k => by ring
    simp only [this, Finset.sum_sub_distrib, ← Finset.mul_sum, Finset.sum_const, Finset.card_range, nsmul_eq_mul]
    rw [← hx, ← hy]
    ring
  have h2 : ∑ k ∈ Finset.range n, (x k - xm) * (y k - (s * x k + (ym - s * xm))) = 0 := by
    have : ∀ k, (x k - xm) * (y k - (s * x k + (ym - s * xm))) = (x k - xm) * (y k - ym) - s * (x k - xm) ^ 2 := fun k => by ring
    simp only [this, Finset.sum_sub_distrib, ← Finset.mul_sum]
    rw [hs, div_mul_cancel₀ _ hxx, sub_self]
  have h3 : ∑ k ∈ Finset.range n, x k * (y k - (s * x k + (ym - s * xm))) = 0 := by
    have : ∀ k, x k * (y k - (s * x k + (ym - s * xm))) = (x k - xm) * (y k - (s * x k + (ym - s * xm))) + xm * (y k - (s * x k + (ym - s * xm))) := fun k => by ring
    simp only [this]
    rw [Finset.sum_add_distrib, h2, ← Finset.mul_sum, h1]
    ring
  refine ⟨h1, h3, ?_⟩
  intro u v
  have : ∀ k, (y k - (u * x k + v)) ^ 2 = (y k - (s * x k + (ym - s * xm))) ^ 2 + (2 * (s - u)) * (x k * (y k - (s * x k + (ym - s * xm))))
      + (2 * (ym - s * xm - v)) * (y k - (s * x k + (ym - s * xm))) + ((s - u) * x k + (ym - s * xm - v)) ^ 2 := fun k => by ring
  simp only [this]
  rw [Finset.sum_add_distrib, Finset.sum_add_distrib, Finset.sum_add_distrib, ← Finset.mul_sum, ← Finset.mul_sum, h1, h3]
  have := Finset.sum_nonneg (s := Finset.range n) fun k _ => sq_nonneg ((s - u) * x k + (ym - s * xm - v))
  linarith

private theorem sum_zipWith (n : ℕ) (l1 l2 : List K) (h1 : l1.length = n) (h2 : l2.length = n) (f : K → K → K) :
    (l1.zipWith f l2).sum = ∑ k ∈ Finset.range n, f (l1.getD k 0) (l2.getD k 0) := by
  have : l1.zipWith f l2 = (List.range n).map fun k => f (l1.getD k 0) (l2.getD k 0) := by
    apply List.ext_getElem
    · simp [h1, h2]
    · intro i h3 h4
      have hi : i < n := by simpa using h4
      simp only [List.getElem_zipWith, List.getElem_map, List.getElem_range]
      rw [List.getD_eq_getElem _ _ (by omega), List.getD_eq_getElem _ _ (by omega)]
  rw [this, sum_range_fn]

private theorem sum_map_getD (n : ℕ) (l : List K) (h : l.length = n) (f : K → K) : (l.map f).sum = ∑ k ∈ Finset.range n, f (l.getD k 0) := by
  have : l.map f = (List.range n).map fun k => f (l.getD k 0) := by
    apply List.ext_getElem
    · simp [h]
    · intro i h3 h4
      have hi : i < n := by simpa using h4
      simp only [List.getElem_map, List.getElem_range]
      rw [List.getD_eq_getElem _ _ (by omega)]
  rw [this, sum_range_fn]

/-- **C46 (best-fit correction).** With `fit` the reported INL is the raw INL minus a straight line in the transition code. It has zero
mean, zero correlation with the code, and no other straight line leaves a smaller sum of squares. -/
theorem C46_ramp_fit (codes : List K) (numBits : Option ℤ) (codeMin : ℤ) (codeMax : Option ℤ) (exclude : Bool)
    (r : RampInl K) (h : inlFromRamp codes numBits codeMin codeMax .fit exclude = .ok r) :
    (∃ u v : K, ∀ k < r.inl.length, r.inl.getD k 0 = r.rawInl.getD k 0 - (u * (r.transitionCode.getD k 0 : K) + v)) ∧
    ∑ k ∈ Finset.range r.inl.length, r.inl.getD k 0 = 0 ∧
    ∑ k ∈ Finset.range r.inl.length, (r.transitionCode.getD k 0 : K) * r.inl.getD k 0 = 0 ∧
    ∀ u v : K, ∑ k ∈ Finset.range r.inl.length, r.inl.getD k 0 ^ 2 ≤
      ∑ k ∈ Finset.range r.inl.length, (r.rawInl.getD k 0 - (u * (r.transitionCode.getD k 0 : K) + v)) ^ 2 := by
  obtain ⟨a, m, hm, _, _, _, _, _, _, hraw, hil, htl, _, _, _, _, _, htr, _⟩ := C46_ramp_bookkeeping codes numBits codeMin codeMax .fit exclude r h
  obtain ⟨hc, _⟩ := ramp_parts codes numBits codeMin codeMax .fit exclude r h
  unfold correctInl at hc
  simp only at hc
  rw [if_neg (List.ne_nil_of_length_pos (by omega)), if_neg (by omega)] at hc
  injection hc with hc
  set X := r.transitionCode.map fun (c : ℤ) => (c : K) with hX
  have hXl : X.length = m + 1 := by rw [hX]; simp [htl]
  have hXg : ∀ k < m + 1, X.getD k 0 = (r.transitionCode.getD k 0 : K) := by
    intro k hk
    rw [hX, List.getD_eq_getElem _ _ (by simp; omega), List.getD_eq_getElem _ _ (by omega), List.getElem_map]
  have hn : ((m + 1 : ℕ) : K) ≠ 0 := by exact_mod_cast Nat.succ_ne_zero m
  have hxm : meanOf X * (m + 1 : ℕ) = ∑ k ∈ Finset.range (m + 1), X.getD k 0 := by
    unfold meanOf
    rw [hXl, div_mul_cancel₀ _ hn]
    have := sum_map_getD (m + 1) X hXl id
    simpa using this
  have hym : meanOf r.rawInl * (m + 1 : ℕ) = ∑ k ∈ Finset.range (m + 1), r.rawInl.getD k 0 := by
    unfold meanOf
    rw [hraw, div_mul_cancel₀ _ hn]
    have := sum_map_getD (m + 1) r.rawInl hraw id
    simpa using this
  have hxx : ∑ k ∈ Finset.range (m + 1), (X.getD k 0 - meanOf X) ^ 2 ≠ 0 := by
    intro h0
    rw [Finset.sum_eq_zero_iff_of_nonneg fun k _ => sq_nonneg _] at h0
    have h1 := h0 0 (by simp)
    have h2 := h0 1 (by simp; omega)
    rw [sq_eq_zero_iff, sub_eq_zero, hXg _ (by omega), (htr _ (by omega)).1] at h1 h2
    rw [← h2] at h1
    have : a + ((0 : ℕ) : ℤ) = a + ((1 : ℕ) : ℤ) := by exact_mod_cast h1
    omega
  have hslope : (lineFit X r.rawInl).1 = (∑ k ∈ Finset.range (m + 1), (X.getD k 0 - meanOf X) * (r.rawInl.getD k 0 - meanOf r.rawInl)) / ∑ k ∈ Finset.range (m + 1), (X.getD k 0 - meanOf X) ^ 2 := by
    unfold lineFit
    simp only
    rw [sum_zipWith (m + 1) X r.rawInl hXl hraw, sum_map_getD (m + 1) X hXl]
  have hint : (lineFit X r.rawInl).2 = meanOf r.rawInl - (lineFit X r.rawInl).1 * meanOf X := rfl
  obtain ⟨l1, l2, l3⟩ := line_ls (m + 1) (by omega) (fun k => X.getD k 0) (fun k => r.rawInl.getD k 0) _ _ hxm hym hxx _ hslope
  rw [← hint] at l1 l2 l3
  have hval : ∀ k < m + 1, r.inl.getD k 0 = r.rawInl.getD k 0 - ((lineFit X r.rawInl).1 * X.getD k 0 + (lineFit X r.rawInl).2) := by
    intro k hk
    rw [← hc, List.getD_eq_getElem _ _ (by simp [hraw, hXl, hk]), List.getElem_zipWith, List.getD_eq_getElem _ _ (by omega), List.getD_eq_getElem _ _ (by omega)]
  rw [hil]
  refine ⟨⟨(lineFit X r.rawInl).1, (lineFit X r.rawInl).2, fun k hk => ?_⟩, ?_, ?_, ?_⟩
  · rw [hval k hk, hXg k hk]
  · refine Eq.trans ?_ l1
    exact Finset.sum_congr rfl fun k hk => hval k (Finset.mem_range.mp hk)
  · refine Eq.trans ?_ l2
    exact Finset.sum_congr rfl fun k hk => by rw [hval k (Finset.mem_range.mp hk), hXg k (Finset.mem_range.mp hk)]
  · intro u v
    have e1 : ∑ k ∈ Finset.range (m + 1), r.inl.getD k 0 ^ 2 = ∑ k ∈ Finset.range (m + 1), (r.rawInl.getD k 0 - ((lineFit X r.rawInl).1 * X.getD k 0 + (lineFit X r.rawInl).2)) ^ 2 :=
      Finset.sum_congr rfl fun k hk => by rw [hval k (Finset.mem_range.mp hk)]
    have e2 : ∑ k ∈ Finset.range (m + 1), (r.rawInl.getD k 0 - (u * (r.transitionCode.getD k 0 : K) + v)) ^ 2 = ∑ k ∈ Finset.range (m + 1), (r.rawInl.getD k 0 - (u * X.getD k 0 + v)) ^ 2 :=
      Finset.sum_congr rfl fun k hk => by rw [hXg k (Finset.mem_range.mp hk)]
    rw [e1, e2]
    exact l3 u v

/-! ## C47 -/

/-- **C47 (errors).** The call raises exactly in the documented situations, always `ValueError`: non-positive `num_bits`, an empty record,
a non-integer code, `code_max < code_min`, a code outside the range, no sample on an analysed code, an unknown endpoint mode. -/
theorem C47_ramp_errors (codes : List K) (numBits : Option ℤ) (codeMin : ℤ) (codeMax : Option ℤ) (endpoint : Endpoint) (exclude : Bool) :
    (∃ r, inlFromRamp codes numBits codeMin codeMax endpoint exclude = .ok r) ∨ inlFromRamp codes numBits codeMin codeMax endpoint exclude = .error .valueError := by
  cases hx : inlFromRamp codes numBits codeMin codeMax endpoint exclude with
  | ok r => exact Or.inl ⟨r, rfl⟩
  | error e =>
    right
    congr 1
    unfold inlFromRamp at hx
    cases hv : validateLimits numBits codeMin codeMax with
    | error e' =>
      rw [hv] at hx
      injection hx with hx
      subst hx
      unfold validateLimits at hv
      split_ifs at hv
      · injection hv with hv; exact hv.symm
      · cases codeMax with
        | none => cases numBits <;> cases hv
        | some mx =>
          simp only at hv
          split_ifs at hv
          injection hv with hv; exact hv.symm
    | ok lim =>
      rw [hv] at hx
      simp only at hx
      cases hc : coerceCodes codes with
      | error e' =>
        rw [hc] at hx
        injection hx with hx
        subst hx
        unfold coerceCodes at hc
        split_ifs at hc <;> injection hc with hc <;> exact hc.symm
      | ok zs =>
        rw [hc] at hx
        simp only at hx
        split_ifs at hx
        · injection hx with hx; exact hx.symm
        · injection hx with hx; exact hx.symm
        · unfold rampStatistics at hx
          simp only at hx
          split_ifs at hx
          · injection hx with hx; exact hx.symm
          · injection hx with hx; exact hx.symm
          · split at hx
            · rename_i hcor
              injection hx with hx
              subst hx
              unfold correctInl at hcor
              cases endpoint with
              | none => cases hcor
              | endpoints =>
                simp only at hcor
                split_ifs at hcor
              | fit =>
                simp only at hcor
                split_ifs at hcor
              | other =>
                simp only at hcor
                exact (by injection hcor with hcor; exact hcor.symm)
            · cases hx

private theorem coerce_bad (codes : List K) (h : codes = [] ∨ ∃ c ∈ codes, ¬ ∃ z : ℤ, c = (z : K)) : coerceCodes codes = .error .valueError := by
  unfold coerceCodes
  by_cases h1 : codes = []
  · rw [if_pos h1]
  · rw [if_neg h1, if_neg]
    intro h2
    rcases h with h | ⟨c, hc, h⟩
    · exact h1 h
    · have := List.all_eq_true.mp h2 c hc
      exact h ⟨rint c, by simpa using this⟩

/-- **C47 (when it succeeds).** For a record of integers the call succeeds exactly when `num_bits` is positive if given, the configured
range is not empty, every code is in it, some sample is on an analysed code, and the endpoint mode is known. -/
theorem C47_ramp_ok_iff (zs : List ℤ) (hne : zs ≠ []) (numBits : Option ℤ) (codeMin : ℤ) (codeMax : Option ℤ) (endpoint : Endpoint) (exclude : Bool)
    (hi : ℤ) (htop : TopCode (zs.map fun (z : ℤ) => (z : K)) numBits codeMin codeMax hi) :
    (∃ r, inlFromRamp (zs.map fun (z : ℤ) => (z : K)) numBits codeMin codeMax endpoint exclude = .ok r) ↔
      (∀ b, numBits = some b → 0 < b) ∧ codeMin ≤ hi ∧ (∀ z ∈ zs, codeMin ≤ z ∧ z ≤ hi) ∧
      (∃ z ∈ zs, firstCode codeMin hi exclude ≤ z ∧ z ≤ lastCode codeMin hi exclude) ∧ endpoint ≠ .other := by
  rw [ramp_eq zs hne numBits codeMin codeMax endpoint exclude hi htop]
  by_cases hbad : (∃ b, numBits = some b ∧ b ≤ 0) ∨ hi < codeMin ∨ ∃ z ∈ zs, z < codeMin ∨ hi < z
  · rw [if_pos hbad]
    constructor
    · rintro ⟨r, h⟩
      cases h
    · rintro ⟨h1, h2, h3, _⟩
      exfalso
      rcases hbad with ⟨b, hb, hb0⟩ | hlt | ⟨z, hz, hz2⟩
      · have := h1 b hb
        omega
      · omega
      · have := h3 z hz
        omega
  · rw [if_neg hbad]
    have hlh : codeMin ≤ hi := by
      by_contra hlt
      exact hbad (Or.inr (Or.inl (not_le.mp hlt)))
    obtain ⟨hm0, hst⟩ := stats_eq (K := K) zs codeMin hi hlh endpoint exclude _ _ rfl rfl
    rw [hst]
    set a := firstCode codeMin hi exclude with ha
    set m := (lastCode codeMin hi exclude + 1 - a).toNat with hm
    have hhit : ∑ i ∈ Finset.range m, cnt zs a i = 0 ↔ ¬ ∃ z ∈ zs, a ≤ z ∧ z ≤ lastCode codeMin hi exclude := by
      rw [Finset.sum_eq_zero_iff]
      constructor
      · rintro h ⟨z, hz, h1, h2⟩
        have := h (z - a).toNat (by rw [Finset.mem_range]; omega)
        unfold cnt at this
        rw [show a + ((z - a).toNat : ℤ) = z by omega] at this
        exact List.count_eq_zero.mp this hz
      · intro h i hi'
        have := Finset.mem_range.mp hi'
        unfold cnt
        rw [List.count_eq_zero]
        intro hz
        exact h ⟨_, hz, by omega, by omega⟩
    by_cases h0 : ∑ i ∈ Finset.range m, cnt zs a i = 0
    · rw [if_pos h0]
      constructor
      · rintro ⟨r, h⟩
        cases h
      · rintro ⟨_, _, _, h, _⟩
        exact absurd h (hhit.mp h0)
    · rw [if_neg h0]
      simp only
      have h0' : ∃ z ∈ zs, a ≤ z ∧ z ≤ lastCode codeMin hi exclude := by
        by_contra hcon
        exact h0 (hhit.mpr hcon)
      have hrest : (∀ b, numBits = some b → 0 < b) ∧ codeMin ≤ hi ∧ (∀ z ∈ zs, codeMin ≤ z ∧ z ≤ hi) := by
        refine ⟨?_, hlh, ?_⟩
        · intro b hb
          by_contra hcon
          exact hbad (Or.inl ⟨b, hb, not_lt.mp hcon⟩)
        · intro z hz
          constructor
          · by_contra hcon
            exact hbad (Or.inr (Or.inr ⟨z, hz, Or.inl (not_le.mp hcon)⟩))
          · by_contra hcon
            exact hbad (Or.inr (Or.inr ⟨z, hz, Or.inr (not_le.mp hcon)⟩))
      generalize (∑ i ∈ Finset.range m, (cnt zs a i : K)) / m = ideal
      have hrawne : (List.range (m + 1)).map (fun k => ∑ i ∈ Finset.range k, ((cnt zs a i : K) / ideal - 1)) ≠ [] := by
        simp
      have hok : (∃ l, correctInl ((List.range (m + 1)).map fun k => ∑ i ∈ Finset.range k, ((cnt zs a i : K) / ideal - 1)) ((List.range (m + 1)).map fun (i : ℕ) => a + (i : ℤ)) endpoint = .ok l) ↔ endpoint ≠ .other := by
        unfold correctInl
        cases endpoint with
        | none => simp
        | endpoints =>
          simp only [hrawne, if_false]
          split_ifs <;> simp
        | fit =>
          simp only [hrawne, if_false]
          split_ifs <;> simp
        | other => simp
      constructor
      · rintro ⟨r, h⟩
        refine ⟨hrest.1, hrest.2.1, hrest.2.2, h0', hok.mp ?_⟩
        split at h
        · cases h
        · rename_i l hl
          exact ⟨l, hl⟩
      · rintro ⟨_, _, _, _, h⟩
        obtain ⟨l, hl⟩ := hok.mpr h
        rw [hl]
        exact ⟨_, rfl⟩

/-- **C47 (bad records).** An empty record or a non-integer sample is a `ValueError`. -/
theorem C47_ramp_bad_record (codes : List K) (numBits : Option ℤ) (codeMin : ℤ) (codeMax : Option ℤ) (endpoint : Endpoint) (exclude : Bool)
    (h : codes = [] ∨ ∃ c ∈ codes, ¬ ∃ z : ℤ, c = (z : K)) :
    inlFromRamp codes numBits codeMin codeMax endpoint exclude = .error .valueError := by
  rcases C47_ramp_errors codes numBits codeMin codeMax endpoint exclude with ⟨r, hr⟩ | he
  · exfalso
    unfold inlFromRamp at hr
    rw [coerce_bad codes h] at hr
    cases hv : validateLimits numBits codeMin codeMax with
    | error e => rw [hv] at hr; cases hr
    | ok lim => rw [hv] at hr; cases hr
  · exact he

private theorem coerce_ints_of (codes : List K) (h : ¬ (codes = [] ∨ ∃ c ∈ codes, ¬ ∃ z : ℤ, c = (z : K))) :
    ∃ zs : List ℤ, codes = zs.map (fun (z : ℤ) => (z : K)) ∧ zs ≠ [] := by
  push Not at h
  refine ⟨codes.map rint, ?_, by simpa using h.1⟩
  rw [List.map_map]
  conv_lhs => rw [← List.map_id codes]
  apply List.map_congr_left
  intro c hc
  obtain ⟨z, rfl⟩ := h.2 c hc
  simp [rint_intCast]

private theorem stats_scale (zs zs' : List ℤ) (lo hi : ℤ) (hlh : lo ≤ hi) (endpoint : Endpoint) (exclude : Bool) (q : ℕ) (hq : q ≠ 0)
    (hcount : ∀ c, zs'.count c = q * zs.count c) :
    rampStatistics (K := K) zs' lo hi endpoint exclude =
      (rampStatistics (K := K) zs lo hi endpoint exclude).map fun r => { r with counts := r.counts.map (q * ·), idealCount := q * r.idealCount } := by
  obtain ⟨hm0, h1⟩ := stats_eq (K := K) zs lo hi hlh endpoint exclude _ _ rfl rfl
  obtain ⟨_, h2⟩ := stats_eq (K := K) zs' lo hi hlh endpoint exclude _ _ rfl rfl
  rw [h1, h2]
  set a := firstCode lo hi exclude
  set m := (lastCode lo hi exclude + 1 - a).toNat
  have hc : ∀ i, cnt zs' a i = q * cnt zs a i := fun i => hcount _
  have hqK : (q : K) ≠ 0 := by exact_mod_cast hq
  have hs : ∑ i ∈ Finset.range m, cnt zs' a i = q * ∑ i ∈ Finset.range m, cnt zs a i := by
    rw [Finset.mul_sum]
    exact Finset.sum_congr rfl fun i _ => hc i
  by_cases h0 : ∑ i ∈ Finset.range m, cnt zs a i = 0
  · rw [if_pos h0, if_pos (by rw [hs, h0, mul_zero])]
    rfl
  · rw [if_neg h0, if_neg (by rw [hs]; exact mul_ne_zero hq h0)]
    simp only
    have hid : (∑ i ∈ Finset.range m, (cnt zs' a i : K)) / m = q * ((∑ i ∈ Finset.range m, (cnt zs a i : K)) / m) := by
      rw [← mul_div_assoc, Finset.mul_sum]
      congr 1
      exact Finset.sum_congr rfl fun i _ => by rw [hc]; push_cast; ring
    rw [hid]
    have hr : ∀ (d : K) (i : ℕ), (cnt zs' a i : K) / (q * d) - 1 = (cnt zs a i : K) / d - 1 := by
      intro d i
      rw [hc]
      push_cast
      rw [mul_div_mul_left _ _ hqK]
    simp only [hr]
    have hz : ∀ i, decide (cnt zs' a i = 0) = decide (cnt zs a i = 0) := by
      intro i
      rw [hc]
      simp [hq]
    simp only [hz]
    rcases correctInl _ _ endpoint with e | inl
    · rfl
    · simp only [Except.map, List.map_map]
      congr 2
      apply List.map_congr_left
      intro i _
      exact hc i

private theorem top_congr (codes codes' : List K) (h : ∀ c, c ∈ codes' ↔ c ∈ codes) (numBits : Option ℤ) (codeMin : ℤ) (codeMax : Option ℤ) (hi : ℤ) :
    TopCode codes' numBits codeMin codeMax hi ↔ TopCode codes numBits codeMin codeMax hi := by
  unfold TopCode
  cases codeMax with
  | some m => rfl
  | none =>
    cases numBits with
    | some b => rfl
    | none => simp only [h]

/-- A record whose histogram is `q` times that of another gives the same DNL, INL and missing codes; only the counts are multiplied. -/
private theorem ramp_scale (codes codes' : List K) (q : ℕ) (hq : q ≠ 0) (h : ∀ c, codes'.count c = q * codes.count c)
    (numBits : Option ℤ) (codeMin : ℤ) (codeMax : Option ℤ) (endpoint : Endpoint) (exclude : Bool) :
    inlFromRamp codes' numBits codeMin codeMax endpoint exclude =
      (inlFromRamp codes numBits codeMin codeMax endpoint exclude).map fun r => { r with counts := r.counts.map (q * ·), idealCount := q * r.idealCount } := by
  have hmem : ∀ c, c ∈ codes' ↔ c ∈ codes := by
    intro c
    rw [← List.count_pos_iff, ← List.count_pos_iff, h]
    constructor
    · intro h1
      exact Nat.pos_of_mul_pos_left h1
    · intro h1
      exact Nat.mul_pos (Nat.pos_of_ne_zero hq) h1
  have hnil : codes' = [] ↔ codes = [] := by
    rw [List.eq_nil_iff_forall_not_mem, List.eq_nil_iff_forall_not_mem]
    simp only [hmem]
  by_cases hbad : codes = [] ∨ ∃ c ∈ codes, ¬ ∃ z : ℤ, c = (z : K)
  · rw [C47_ramp_bad_record codes _ _ _ _ _ hbad, C47_ramp_bad_record codes' _ _ _ _ _ (by rw [hnil]; simpa only [hmem] using hbad)]
    rfl
  · obtain ⟨zs, hzs, hne⟩ := coerce_ints_of codes hbad
    obtain ⟨zs', hzs', hne'⟩ := coerce_ints_of codes' (by rw [hnil]; simpa only [hmem] using hbad)
    obtain ⟨hi, htop⟩ : ∃ hi, TopCode codes numBits codeMin codeMax hi := by
      rw [hzs]
      exact ⟨_, (top_unique zs hne numBits codeMin codeMax _).mpr rfl⟩
    have htop' := (top_congr codes codes' hmem numBits codeMin codeMax hi).mpr htop
    subst hzs
    subst hzs'
    have hcz : ∀ c : ℤ, zs'.count c = q * zs.count c := by
      intro c
      have := h (c : K)
      rwa [List.count_map_of_injective zs' _ Int.cast_injective, List.count_map_of_injective zs _ Int.cast_injective] at this
    have hmz : ∀ c : ℤ, c ∈ zs' ↔ c ∈ zs := by
      intro c
      have := hmem (c : K)
      rwa [List.mem_map_of_injective Int.cast_injective, List.mem_map_of_injective Int.cast_injective] at this
    rw [ramp_eq zs hne _ _ _ _ _ hi htop, ramp_eq zs' hne' _ _ _ _ _ hi htop']
    simp only [hmz]
    by_cases hb : (∃ b, numBits = some b ∧ b ≤ 0) ∨ hi < codeMin ∨ ∃ z ∈ zs, z < codeMin ∨ hi < z
    · rw [if_pos hb, if_pos hb]
      rfl
    · rw [if_neg hb, if_neg hb]
      have hlh : codeMin ≤ hi := by
        by_contra hlt
        exact hb (Or.inr (Or.inl (not_le.mp hlt)))
      exact stats_scale zs zs' codeMin hi hlh endpoint exclude q hq hcz

/-- **C47 (order).** Reordering the samples changes nothing, including which error is raised. -/
theorem C47_ramp_reorder (codes codes' : List K) (h : codes'.Perm codes) (numBits : Option ℤ) (codeMin : ℤ) (codeMax : Option ℤ) (endpoint : Endpoint)
    (exclude : Bool) : inlFromRamp codes' numBits codeMin codeMax endpoint exclude = inlFromRamp codes numBits codeMin codeMax endpoint exclude := by
  rw [ramp_scale codes codes' 1 one_ne_zero (fun c => by rw [h.count_eq, one_mul])]
  rcases inlFromRamp codes numBits codeMin codeMax endpoint exclude with e | r
  · rfl
  · simp [Except.map]

/-- **C47 (repetition).** Repeating the record `q` times multiplies the counts by `q` and leaves everything else unchanged. -/
theorem C47_ramp_repeat (codes : List K) (q : ℕ) (hq : q ≠ 0) (numBits : Option ℤ) (codeMin : ℤ) (codeMax : Option ℤ) (endpoint : Endpoint)
    (exclude : Bool) : inlFromRamp (List.replicate q codes).flatten numBits codeMin codeMax endpoint exclude =
      (inlFromRamp codes numBits codeMin codeMax endpoint exclude).map fun r => { r with counts := r.counts.map (q * ·), idealCount := q * r.idealCount } := by
  apply ramp_scale _ _ q hq
  intro c
  rw [List.count_flatten, List.map_replicate, List.sum_replicate]
  simp

/-- A record with a missing code. -/
example : (inlFromRamp [0, 1, 1, 3, 3, 3, 3, (4 : ℚ)] none 0 none .endpoints true).toOption.map (fun r => (r.code, r.dnl, r.inl, r.missing)) =
    some ([1, 2, 3], [0, -1, 1], [0, 0, -1, 0], [2]) := by decide +kernel

example : (inlFromRamp [0, 1, 1, 3, 3, 3, 3, (4 : ℚ)] none 0 none .fit true).toOption.map (fun r => r.inl) =
    some [1 / 10, 1 / 5, -7 / 10, 2 / 5] := by decide +kernel

example : inlFromRamp [0, (1 / 2 : ℚ)] none 0 none .endpoints true = .error .valueError ∧
    inlFromRamp [0, (4 : ℚ)] none 0 none .endpoints true = .error .valueError := ⟨C47_ramp_bad_record _ _ _ _ _ _ (Or.inr ⟨1 / 2, by simp, by
      rintro ⟨z, hz⟩
      have h2 : ((2 * z : ℤ) : ℚ) = ((1 : ℤ) : ℚ) := by push_cast; linarith
      have := Int.cast_injective h2
      omega⟩), by
  rcases C47_ramp_errors [0, (4 : ℚ)] none 0 none .endpoints true with ⟨r, hr⟩ | he
  · have := (C47_ramp_ok_iff (K := ℚ) [0, 4] (by simp) none 0 none .endpoints true 4 (by constructor <;> simp)).mp ⟨r, by simpa using hr⟩
    obtain ⟨_, _, _, ⟨z, hz, h1, h2⟩, _⟩ := this
    simp only [List.mem_cons, List.not_mem_nil, or_false] at hz
    simp [firstCode, lastCode] at h1 h2
    omega
  · exact he⟩

end Verif
