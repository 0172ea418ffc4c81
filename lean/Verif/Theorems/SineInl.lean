import Verif.Model.Inl
import Mathlib.Data.List.GetD
import Mathlib.Data.List.Count
import Mathlib.Algebra.BigOperators.Intervals
import Mathlib.Algebra.BigOperators.Field
import Mathlib.Analysis.SpecialFunctions.Trigonometric.Inverse
import Mathlib.Tactic.FieldSimp
import Mathlib.Tactic.Positivity

/-!
# C48: INL and DNL from a sine histogram
-/

namespace Verif

open Model

/-! ## Specification -/

/-- Number of samples with code at most `c`. -/
def atMost (zs : List ℤ) (c : ℤ) : ℕ := zs.countP fun z => decide (z ≤ c)

/-- The level, as a fraction of the sine amplitude, below which that share of the samples of a sine lies: the estimated upper transition
level of code `c`. -/
noncomputable def sineLevel (zs : List ℤ) (c : ℤ) : ℝ := -Real.cos (Real.pi * (atMost zs c : ℝ) / (zs.length : ℝ))

/-- Kept code range: the observed range with `round(clip_percent * span)` codes removed at each end. -/
def KeptRange (zs : List ℤ) (clipPercent : ℝ) (lo hi : ℤ) : Prop :=
  ∃ mn mx : ℤ, (mn ∈ zs ∧ ∀ z ∈ zs, mn ≤ z) ∧ (mx ∈ zs ∧ ∀ z ∈ zs, z ≤ mx) ∧
    hi = mx - rint (clipPercent * ((mx - mn : ℤ) : ℝ)) ∧ lo = min (mn + rint (clipPercent * ((mx - mn : ℤ) : ℝ))) hi

/-- Some sample is strictly inside the kept range. -/
def InteriorHit (zs : List ℤ) (lo hi : ℤ) : Prop := ∃ z ∈ zs, lo < z ∧ z < hi

/-! ## Auxiliary facts -/

theorem intMax_spec (zs : List ℤ) (h : zs ≠ []) : intMax zs ∈ zs ∧ ∀ z ∈ zs, z ≤ intMax zs := by
  have k : ∀ (l : List ℤ) (a : ℤ), a ≤ l.foldl max a ∧ (∀ z ∈ l, z ≤ l.foldl max a) ∧ (l.foldl max a = a ∨ l.foldl max a ∈ l) := by
    intro l
    induction l with
    | nil => intro a; simp
    | cons x t ih =>
      intro a
      obtain ⟨h1, h2, h3⟩ := ih (max a x)
      rw [List.foldl_cons]
      refine ⟨(le_max_left _ _).trans h1, ?_, ?_⟩
      · intro y hy
        rcases List.mem_cons.mp hy with rfl | hy
        · exact (le_max_right _ _).trans h1
        · exact h2 y hy
      · rcases h3 with h3 | h3
        · rw [h3]
          rcases max_choice a x with h | h
          · left; exact h
          · right; rw [h]; simp
        · right; simp [h3]
  obtain ⟨a, t, rfl⟩ := List.exists_cons_of_ne_nil h
  obtain ⟨_, h2, h3⟩ := k (a :: t) a
  refine ⟨?_, h2⟩
  unfold intMax
  rcases h3 with h3 | h3
  · rw [List.headD_cons, h3]; simp
  · exact h3

theorem intMin_spec (zs : List ℤ) (h : zs ≠ []) : intMin zs ∈ zs ∧ ∀ z ∈ zs, intMin zs ≤ z := by
  have k : ∀ (l : List ℤ) (a : ℤ), l.foldl min a ≤ a ∧ (∀ z ∈ l, l.foldl min a ≤ z) ∧ (l.foldl min a = a ∨ l.foldl min a ∈ l) := by
    intro l
    induction l with
    | nil => intro a; simp
    | cons x t ih =>
      intro a
      obtain ⟨h1, h2, h3⟩ := ih (min a x)
      rw [List.foldl_cons]
      refine ⟨h1.trans (min_le_left _ _), ?_, ?_⟩
      · intro y hy
        rcases List.mem_cons.mp hy with rfl | hy
        · exact h1.trans (min_le_right _ _)
        · exact h2 y hy
      · rcases h3 with h3 | h3
        · rw [h3]
          rcases min_choice a x with h | h
          · left; exact h
          · right; rw [h]; simp
        · right; simp [h3]
  obtain ⟨a, t, rfl⟩ := List.exists_cons_of_ne_nil h
  obtain ⟨_, h2, h3⟩ := k (a :: t) a
  refine ⟨?_, h2⟩
  unfold intMin
  rcases h3 with h3 | h3
  · rw [List.headD_cons, h3]; simp
  · exact h3

private theorem kept_eq (zs : List ℤ) (hne : zs ≠ []) (clipPercent : ℝ) (lo hi : ℤ) (h : KeptRange zs clipPercent lo hi) :
    keptRange zs clipPercent = (lo, hi) := by
  obtain ⟨mn, mx, ⟨h1, h2⟩, ⟨h3, h4⟩, rfl, rfl⟩ := h
  obtain ⟨h5, h6⟩ := intMax_spec zs hne
  obtain ⟨h7, h8⟩ := intMin_spec zs hne
  have e1 : intMax zs = mx := le_antisymm (h4 _ h5) (h6 _ h3)
  have e2 : intMin zs = mn := le_antisymm (h8 _ h1) (h2 _ h7)
  unfold keptRange
  simp only [e1, e2]

private theorem kept_exists (zs : List ℤ) (hne : zs ≠ []) (clipPercent : ℝ) : ∃ lo hi, KeptRange zs clipPercent lo hi :=
  ⟨_, _, intMin zs, intMax zs, intMin_spec zs hne, intMax_spec zs hne, rfl, rfl⟩

private theorem atMost_succ (zs : List ℤ) (c : ℤ) : atMost zs (c + 1) = atMost zs c + zs.count (c + 1) := by
  unfold atMost
  induction zs with
  | nil => simp
  | cons z t ih =>
    rw [List.countP_cons, List.countP_cons, List.count_cons, ih]
    rcases lt_trichotomy z (c + 1) with h | h | h
    · have h1 : z ≤ c := by omega
      have h2 : z ≤ c + 1 := by omega
      have h3 : ¬ z = c + 1 := by omega
      simp only [h1, h2, h3, decide_true, if_true, beq_iff_eq, if_false]
      omega
    · subst h
      have h1 : ¬ c + 1 ≤ c := by omega
      simp only [h1, le_refl, decide_true, decide_false, Bool.false_eq_true, if_true, if_false, beq_self_eq_true]
      omega
    · have h1 : ¬ z ≤ c := by omega
      have h2 : ¬ z ≤ c + 1 := by omega
      have h3 : ¬ z = c + 1 := by omega
      simp only [h1, h2, h3, decide_false, Bool.false_eq_true, beq_iff_eq, if_false]
      omega

private theorem atMost_mono (zs : List ℤ) {c d : ℤ} (h : c ≤ d) : atMost zs c ≤ atMost zs d := by
  unfold atMost
  apply List.countP_mono_left
  intro z _ hz
  simp only [decide_eq_true_eq] at hz ⊢
  omega

private theorem atMost_le (zs : List ℤ) (c : ℤ) : atMost zs c ≤ zs.length := List.countP_le_length

private theorem take_hist_sum (cl : List ℤ) (lo : ℤ) (h : ∀ z ∈ cl, lo ≤ z) (n i : ℕ) (hi : i < n) :
    ((histogram cl lo n).take (i + 1)).sum = atMost cl (lo + i) := by
  have e : ∀ i, i < n → (histogram cl lo n).take (i + 1) = (List.range (i + 1)).map fun (j : ℕ) => cl.count (lo + (j : ℤ)) := by
    intro i hi
    unfold histogram
    rw [← List.map_take, List.take_range, min_eq_left (by omega)]
  rw [e i hi]
  have k : ∀ i : ℕ, ((List.range (i + 1)).map fun (j : ℕ) => cl.count (lo + (j : ℤ))).sum = atMost cl (lo + i) := by
    intro i
    induction i with
    | zero =>
      have h0 : atMost cl (lo - 1) = 0 := by
        unfold atMost
        rw [List.countP_eq_zero]
        intro z hz
        have := h z hz
        simp only [decide_eq_true_eq]
        omega
      have := atMost_succ cl (lo - 1)
      rw [sub_add_cancel] at this
      simp [this, h0]
    | succ i ih =>
      rw [List.range_succ, List.map_append, List.sum_append, ih]
      have := atMost_succ cl (lo + i)
      push_cast
      rw [← add_assoc, this]
      simp [add_assoc]
  exact k i

private theorem hist_sum (cl : List ℤ) (lo : ℤ) (n : ℕ) (hn : 0 < n) (h : ∀ z ∈ cl, lo ≤ z ∧ z ≤ lo + (n - 1 : ℕ)) :
    (histogram cl lo n).sum = cl.length := by
  have h1 := take_hist_sum cl lo (fun z hz => (h z hz).1) n (n - 1) (by omega)
  rw [List.take_of_length_le (by unfold histogram; simp; omega)] at h1
  rw [h1]
  unfold atMost
  rw [List.countP_eq_length]
  intro z hz
  simpa using (h z hz).2

private theorem atMost_clip (zs : List ℤ) (lo hi c : ℤ) (hlh : lo ≤ hi) (h1 : lo ≤ c) (h2 : c < hi) : atMost (zs.map fun z => clip z lo hi) c = atMost zs c := by
  unfold atMost
  rw [List.countP_map]
  apply List.countP_congr
  intro z _
  simp only [Function.comp_apply, decide_eq_true_eq]
  unfold clip
  rcases le_total z lo with h3 | h3
  · rw [max_eq_right h3, min_eq_left hlh]
    omega
  · rw [max_eq_left h3]
    rcases le_total z hi with h4 | h4
    · rw [min_eq_left h4]
    · rw [min_eq_right h4]
      omega

/-- The transformed histogram without its last entry, in closed form. -/
private theorem transform_eq (zs : List ℤ) (lo hi : ℤ) (hlh : lo ≤ hi) :
    (cosTransform (histogram (zs.map fun z => clip z lo hi) lo (hi + 1 - lo).toNat)).dropLast =
      (List.range (hi - lo).toNat).map fun (i : ℕ) => sineLevel zs (lo + i) := by
  have hcl : ∀ z ∈ zs.map (fun z => clip z lo hi), lo ≤ z ∧ z ≤ lo + (((hi + 1 - lo).toNat - 1 : ℕ) : ℤ) := by
    intro z hz
    obtain ⟨y, _, rfl⟩ := List.mem_map.mp hz
    obtain ⟨h1, h2⟩ := clip_mem (x := y) hlh
    exact ⟨h1, by omega⟩
  have hs := hist_sum _ lo (hi + 1 - lo).toNat (by omega) hcl
  rw [List.length_map] at hs
  have hlen : (histogram (zs.map fun z => clip z lo hi) lo (hi + 1 - lo).toNat).length = (hi + 1 - lo).toNat := by
    unfold histogram; simp
  unfold cosTransform cumsum
  rw [hs, hlen]
  apply List.ext_getElem
  · simp; omega
  · intro i h1 h2
    have hi' : i < (hi - lo).toNat := by simpa using h2
    rw [List.getElem_dropLast]
    simp only [List.getElem_map, List.getElem_range]
    rw [take_hist_sum _ lo (fun z hz => (hcl z hz).1) _ i (by omega), atMost_clip zs lo hi _ hlh (by omega) (by omega)]
    rfl

private theorem sum_range_fn (n : ℕ) (f : ℕ → ℝ) : ((List.range n).map f).sum = ∑ i ∈ Finset.range n, f i := by
  rw [Finset.sum_range]
  rw [← List.sum_ofFn]
  congr 1
  apply List.ext_getElem
  · simp
  · intro i h1 h2
    simp

private theorem sineDnl_eq (zs : List ℤ) (lo hi : ℤ) (hlh : lo + 1 < hi) (hD : sineLevel zs (hi - 1) - sineLevel zs lo ≠ 0) :
    sineDnl (histogram (zs.map fun z => clip z lo hi) lo (hi + 1 - lo).toNat) =
      (List.range (hi - lo - 1).toNat).map fun (i : ℕ) =>
        max (((hi : ℝ) - lo + 1) * ((sineLevel zs (lo + i + 1) - sineLevel zs (lo + i)) / (sineLevel zs (hi - 1) - sineLevel zs lo) - 1 / ((hi : ℝ) - lo - 1))) (-1) := by
  have hlen : (histogram (zs.map fun z => clip z lo hi) lo (hi + 1 - lo).toNat).length = (hi + 1 - lo).toNat := by
    unfold histogram; simp
  unfold sineDnl
  rw [transform_eq zs lo hi (by omega), hlen]
  simp only
  obtain ⟨m, hm⟩ : ∃ m : ℕ, hi = lo + m + 1 := ⟨(hi - lo - 1).toNat, by omega⟩
  have hm0 : 0 < m := by omega
  have e1 : (hi - lo).toNat = m + 1 := by omega
  have e2 : (hi - lo - 1).toNat = m := by omega
  have e3 : (hi + 1 - lo).toNat = m + 2 := by omega
  have hd : diffs ((List.range (m + 1)).map fun (i : ℕ) => sineLevel zs (lo + i)) = (List.range m).map fun (i : ℕ) => sineLevel zs (lo + i + 1) - sineLevel zs (lo + i) := by
    unfold diffs
    apply List.ext_getElem
    · simp
    · intro i h1 h2
      simp only [List.getElem_zipWith, List.getElem_tail, List.getElem_map, List.getElem_range]
      push_cast
      rw [add_assoc]
  have hsum : ((List.range m).map fun (i : ℕ) => sineLevel zs (lo + i + 1) - sineLevel zs (lo + i)).sum = sineLevel zs (hi - 1) - sineLevel zs lo := by
    rw [sum_range_fn]
    have := Finset.sum_range_sub (fun (i : ℕ) => sineLevel zs (lo + i)) m
    simp only [Nat.cast_zero, add_zero] at this
    rw [show hi - 1 = lo + m by omega, ← this]
    apply Finset.sum_congr rfl
    intro i _
    push_cast
    rw [add_assoc]
  rw [e1, e2, e3, hd, hsum]
  set D := sineLevel zs (hi - 1) - sineLevel zs lo
  have hmR : (m : ℝ) ≠ 0 := by exact_mod_cast hm0.ne'
  have hmean : meanOf ((((List.range m).map fun (i : ℕ) => sineLevel zs (lo + i + 1) - sineLevel zs (lo + i)).map fun x => x / D).map fun (x : ℝ) => x * ((m + 2 : ℕ) : ℝ) - 1) = 2 / m := by
    unfold meanOf
    rw [List.map_map, List.map_map, sum_range_fn]
    simp only [Function.comp_apply, List.length_map, List.length_range, Finset.sum_sub_distrib, Finset.sum_const, Finset.card_range, nsmul_eq_mul, mul_one]
    have h2 := hsum
    rw [sum_range_fn, Finset.sum_sub_distrib] at h2
    rw [← Finset.sum_mul, ← Finset.sum_div, Finset.sum_sub_distrib, h2, div_self hD]
    push_cast
    ring
  rw [hmean, List.map_map, List.map_map, List.map_map]
  apply List.map_congr_left
  intro i _
  simp only [Function.comp_apply]
  congr 1
  subst hm
  push_cast
  rw [show (lo : ℝ) + m + 1 - lo - 1 = m by ring, show (lo : ℝ) + m + 1 - lo + 1 = m + 2 by ring]
  field_simp
  ring

private theorem level_lt (zs : List ℤ) (lo hi : ℤ) (h : InteriorHit zs lo hi) : sineLevel zs lo < sineLevel zs (hi - 1) := by
  obtain ⟨z, hz, h1, h2⟩ := h
  have hlen : 0 < zs.length := List.length_pos_of_mem hz
  have hlt : atMost zs lo < atMost zs (hi - 1) := by
    have a1 : atMost zs lo ≤ atMost zs (z - 1) := atMost_mono zs (by omega)
    have a2 := atMost_succ zs (z - 1)
    rw [sub_add_cancel] at a2
    have a3 : atMost zs z ≤ atMost zs (hi - 1) := atMost_mono zs (by omega)
    have a4 := List.count_pos_iff.mpr hz
    omega
  unfold sineLevel
  have hN : (0 : ℝ) < zs.length := by exact_mod_cast hlen
  have hpi := Real.pi_pos
  rw [neg_lt_neg_iff]
  apply Real.cos_lt_cos_of_nonneg_of_le_pi
  · positivity
  · rw [div_le_iff₀ hN]
    have : (atMost zs (hi - 1) : ℝ) ≤ zs.length := by exact_mod_cast atMost_le zs _
    nlinarith
  · apply div_lt_div_of_pos_right _ hN
    have : (atMost zs lo : ℝ) < atMost zs (hi - 1) := by exact_mod_cast hlt
    nlinarith

private theorem level_mono (zs : List ℤ) (c d : ℤ) (h : c ≤ d) : sineLevel zs c ≤ sineLevel zs d := by
  unfold sineLevel
  rw [neg_le_neg_iff]
  have hpi := Real.pi_pos
  rcases Nat.eq_zero_or_pos zs.length with h0 | h0
  · rw [h0]; simp
  have hN : (0 : ℝ) < zs.length := by exact_mod_cast h0
  apply Real.cos_le_cos_of_nonneg_of_le_pi
  · positivity
  · rw [div_le_iff₀ hN]
    have : (atMost zs d : ℝ) ≤ zs.length := by exact_mod_cast atMost_le zs _
    nlinarith
  · apply div_le_div_of_nonneg_right _ hN.le
    have : (atMost zs c : ℝ) ≤ atMost zs d := by exact_mod_cast atMost_mono zs h
    nlinarith

private theorem diffs_length (l : List ℝ) : (diffs l).length = l.length - 1 := by
  unfold diffs; simp

private theorem sineDnl_length (counts : List ℕ) : (sineDnl counts).length = counts.length - 2 := by
  unfold sineDnl cosTransform cumsum
  simp [diffs_length]
  omega

private theorem sineDnl_ge (counts : List ℕ) : ∀ x ∈ sineDnl counts, -1 ≤ x := by
  unfold sineDnl
  intro x hx
  obtain ⟨y, _, rfl⟩ := List.mem_map.mp hx
  exact le_max_right _ _

private theorem codes_int (zs : List ℤ) (numBits : Option ℕ) (fullScale : Option ℝ) :
    sineCodes (zs.map fun (z : ℤ) => (z : ℝ)) false numBits fullScale = zs := by
  unfold sineCodes
  simp only
  rw [if_neg (by simp), List.map_map]
  conv_rhs => rw [← List.map_id zs]
  apply List.map_congr_left
  intro z _
  simp [rint_intCast]

private theorem sine_eq (zs : List ℤ) (hne : zs ≠ []) (numBits : Option ℕ) (fullScale : Option ℝ) (clipPercent : ℝ) (lo hi : ℤ)
    (hk : KeptRange zs clipPercent lo hi) :
    inlFromSine (zs.map fun (z : ℤ) => (z : ℝ)) false numBits fullScale clipPercent =
      .ok { inl := cumsum (sineDnl (histogram (zs.map fun z => clip z lo hi) lo (hi + 1 - lo).toNat)),
            dnl := sineDnl (histogram (zs.map fun z => clip z lo hi) lo (hi + 1 - lo).toNat),
            code := (List.range (hi - lo - 1).toNat).map fun (i : ℕ) => lo + (i : ℤ) } := by
  unfold inlFromSine
  rw [if_neg (by simpa using hne), codes_int]
  simp only [kept_eq zs hne clipPercent lo hi hk]
  congr 2
  apply List.ext_getElem
  · simp; omega
  · intro i h1 h2
    simp [List.getElem_dropLast]

/-! ## Theorems -/

/-- **C48 (bookkeeping).** For a non-empty integer record the call succeeds. The codes are `c_min .. c_max-2`, there is one DNL and one INL
value per code, DNL is at least −1 and INL is its running sum. -/
theorem C48_sine_bookkeeping (zs : List ℤ) (hne : zs ≠ []) (numBits : Option ℕ) (fullScale : Option ℝ) (clipPercent : ℝ) :
    ∃ r lo hi, KeptRange zs clipPercent lo hi ∧ inlFromSine (zs.map fun (z : ℤ) => (z : ℝ)) false numBits fullScale clipPercent = .ok r ∧
      r.dnl.length = (hi - lo - 1).toNat ∧ r.inl.length = r.dnl.length ∧ r.code.length = r.dnl.length ∧
      ∀ i < r.dnl.length, r.code.getD i 0 = lo + i ∧ -1 ≤ r.dnl.getD i 0 ∧ r.inl.getD i 0 = ∑ j ∈ Finset.range (i + 1), r.dnl.getD j 0 := by
  obtain ⟨lo, hi, hk⟩ := kept_exists zs hne clipPercent
  refine ⟨_, lo, hi, hk, sine_eq zs hne numBits fullScale clipPercent lo hi hk, ?_⟩
  have hl : (sineDnl (histogram (zs.map fun z => clip z lo hi) lo (hi + 1 - lo).toNat)).length = (hi - lo - 1).toNat := by
    rw [sineDnl_length]
    unfold histogram
    simp; omega
  refine ⟨hl, by unfold cumsum; simp, by simp [hl], ?_⟩
  intro i hi'
  simp only at hi' ⊢
  refine ⟨?_, ?_, ?_⟩
  · rw [List.getD_eq_getElem _ _ (by simp; omega)]
    simp
  · rw [List.getD_eq_getElem _ _ hi']
    exact sineDnl_ge _ _ (List.getElem_mem _)
  · unfold cumsum
    rw [List.getD_eq_getElem _ _ (by simpa using hi')]
    simp only [List.getElem_map, List.getElem_range]
    have : ∀ (l : List ℝ) (k : ℕ), k ≤ l.length → (l.take k).sum = ∑ j ∈ Finset.range k, l.getD j 0 := by
      intro l k
      induction k with
      | zero => simp
      | succ k ih =>
        intro hk
        rw [Finset.sum_range_succ, ← ih (by omega), ← List.take_append_getElem (by omega), List.sum_append, List.getD_eq_getElem _ _ (by omega)]
        simp
    exact this _ _ (by omega)

/-- **C48 (value).** With at least one sample strictly inside the kept range, entry `i` is computed from the width of code `c_min + i + 1`
relative to the average interior width, scaled by the number of kept codes `n` instead of the `n - 2` interior ones, and clipped at −1. -/
theorem C48_sine_value (zs : List ℤ) (numBits : Option ℕ) (fullScale : Option ℝ) (clipPercent : ℝ) (lo hi : ℤ)
    (hk : KeptRange zs clipPercent lo hi) (hin : InteriorHit zs lo hi) :
    ∃ r, inlFromSine (zs.map fun (z : ℤ) => (z : ℝ)) false numBits fullScale clipPercent = .ok r ∧ r.dnl.length = (hi - lo - 1).toNat ∧
      ∀ i < r.dnl.length, r.dnl.getD i 0 =
        max (((hi : ℝ) - lo + 1) * ((sineLevel zs (lo + i + 1) - sineLevel zs (lo + i)) / (sineLevel zs (hi - 1) - sineLevel zs lo) - 1 / ((hi : ℝ) - lo - 1))) (-1) := by
  have hne : zs ≠ [] := by
    obtain ⟨z, hz, _⟩ := hin
    exact List.ne_nil_of_mem hz
  have hlh : lo + 1 < hi := by
    obtain ⟨z, _, h1, h2⟩ := hin
    omega
  refine ⟨_, sine_eq zs hne numBits fullScale clipPercent lo hi hk, ?_⟩
  have hD : sineLevel zs (hi - 1) - sineLevel zs lo ≠ 0 := (sub_pos.mpr (level_lt zs lo hi hin)).ne'
  rw [sineDnl_eq zs lo hi hlh hD]
  refine ⟨by simp, ?_⟩
  intro i hi'
  have hi2 : i < (hi - lo - 1).toNat := by simpa using hi'
  simp only
  rw [List.getD_eq_getElem _ _ (by simpa using hi2)]
  simp

/-- **C48 (missing codes, weaker form).** A code strictly inside the kept range that never occurs gives DNL −1, one position before its own:
the entry labelled `m - 1`. Missing from the claim: the entry carrying the label of the missing code need not be −1, see
`C48_label_shift`. -/
theorem C48_sine_missing_partial (zs : List ℤ) (numBits : Option ℕ) (fullScale : Option ℝ) (clipPercent : ℝ) (lo hi : ℤ)
    (hk : KeptRange zs clipPercent lo hi) (hin : InteriorHit zs lo hi) (m : ℤ) (h1 : lo < m) (h2 : m < hi) (hm : m ∉ zs) :
    ∃ r, inlFromSine (zs.map fun (z : ℤ) => (z : ℝ)) false numBits fullScale clipPercent = .ok r ∧
      ∃ i < r.dnl.length, r.code.getD i 0 = m - 1 ∧ r.dnl.getD i 0 = -1 := by
  have hne : zs ≠ [] := by
    obtain ⟨z, hz, _⟩ := hin
    exact List.ne_nil_of_mem hz
  obtain ⟨r, lo', hi', hk', hr, hl, _, _, hb⟩ := C48_sine_bookkeeping zs hne numBits fullScale clipPercent
  obtain ⟨r2, hr2, hl2, hv⟩ := C48_sine_value zs numBits fullScale clipPercent lo hi hk hin
  have e := kept_eq zs hne clipPercent lo hi hk
  rw [kept_eq zs hne clipPercent lo' hi' hk'] at e
  obtain ⟨rfl, rfl⟩ := Prod.mk.inj e
  obtain rfl : r = r2 := by
    rw [hr] at hr2
    injection hr2
  refine ⟨r, hr, (m - lo' - 1).toNat, by omega, ?_, ?_⟩
  · rw [(hb _ (by omega)).1]
    omega
  · rw [hv _ (by omega)]
    have e1 : lo' + ((m - lo' - 1).toNat : ℤ) + 1 = m := by omega
    have e2 : lo' + ((m - lo' - 1).toNat : ℤ) = m - 1 := by omega
    rw [e1, e2]
    have e3 : sineLevel zs m = sineLevel zs (m - 1) := by
      unfold sineLevel
      have := atMost_succ zs (m - 1)
      rw [sub_add_cancel, List.count_eq_zero.mpr hm, add_zero] at this
      rw [this]
    rw [e3, sub_self, zero_div, zero_sub]
    apply max_eq_right
    have hp : (0 : ℝ) < (hi' : ℝ) - lo' - 1 := by
      have : (1 : ℤ) ≤ hi' - lo' - 1 := by omega
      have : (1 : ℝ) ≤ ((hi' - lo' - 1 : ℤ) : ℝ) := by exact_mod_cast this
      push_cast at this
      linarith
    rw [mul_neg, neg_le_neg_iff, mul_one_div, le_div_iff₀ hp]
    linarith

/-- **C48 (uniform).** If the estimated transition levels are equally spaced, DNL and INL are zero. -/
theorem C48_sine_uniform (zs : List ℤ) (numBits : Option ℕ) (fullScale : Option ℝ) (clipPercent : ℝ) (lo hi : ℤ)
    (hk : KeptRange zs clipPercent lo hi) (hin : InteriorHit zs lo hi) (w : ℝ)
    (hw : ∀ c, lo < c → c < hi → sineLevel zs c - sineLevel zs (c - 1) = w) :
    ∃ r, inlFromSine (zs.map fun (z : ℤ) => (z : ℝ)) false numBits fullScale clipPercent = .ok r ∧ (∀ x ∈ r.dnl, x = 0) ∧ ∀ x ∈ r.inl, x = 0 := by
  have hne : zs ≠ [] := by
    obtain ⟨z, hz, _⟩ := hin
    exact List.ne_nil_of_mem hz
  obtain ⟨r, lo', hi', hk', hr, hl, hil, _, hb⟩ := C48_sine_bookkeeping zs hne numBits fullScale clipPercent
  obtain ⟨r2, hr2, hl2, hv⟩ := C48_sine_value zs numBits fullScale clipPercent lo hi hk hin
  have e := kept_eq zs hne clipPercent lo hi hk
  rw [kept_eq zs hne clipPercent lo' hi' hk'] at e
  obtain ⟨rfl, rfl⟩ := Prod.mk.inj e
  obtain rfl : r = r2 := by
    rw [hr] at hr2
    injection hr2
  obtain ⟨m, hm⟩ : ∃ m : ℕ, hi' = lo' + m + 1 := ⟨(hi' - lo' - 1).toNat, by obtain ⟨z, _, h1, h2⟩ := hin; omega⟩
  have hm0 : 0 < m := by obtain ⟨z, _, h1, h2⟩ := hin; omega
  have hD : sineLevel zs (hi' - 1) - sineLevel zs lo' = m * w := by
    have := Finset.sum_range_sub (fun (i : ℕ) => sineLevel zs (lo' + i)) m
    simp only [Nat.cast_zero, add_zero] at this
    rw [show hi' - 1 = lo' + m by omega, ← this]
    rw [Finset.sum_congr rfl (g := fun _ => w)]
    · simp
    · intro i hi
      have hi2 := Finset.mem_range.mp hi
      have := hw (lo' + (i + 1 : ℕ)) (by omega) (by omega)
      rw [← this]
      congr 2
      push_cast
      ring
  have hw0 : w ≠ 0 := by
    intro h0
    have := level_lt zs lo' hi' hin
    rw [h0, mul_zero] at hD
    linarith
  have hz : ∀ i < r.dnl.length, r.dnl.getD i 0 = 0 := by
    intro i hi
    have hi2 : i < m := by omega
    rw [hv i hi]
    have e1 := hw (lo' + i + 1) (by omega) (by omega)
    rw [add_sub_cancel_right] at e1
    rw [e1, hD]
    have hmR : (m : ℝ) ≠ 0 := by exact_mod_cast hm0.ne'
    have : w / (m * w) - 1 / ((hi' : ℝ) - lo' - 1) = 0 := by
      rw [hm]
      push_cast
      rw [show (lo' : ℝ) + m + 1 - lo' - 1 = m by ring]
      field_simp
      ring
    rw [this, mul_zero]
    simp
  refine ⟨r, hr, ?_, ?_⟩
  · intro x hx
    obtain ⟨i, hi, rfl⟩ := List.getElem_of_mem hx
    have := hz i hi
    rwa [List.getD_eq_getElem _ _ hi] at this
  · intro x hx
    obtain ⟨i, hi, rfl⟩ := List.getElem_of_mem hx
    have := (hb i (by omega)).2.2
    rw [List.getD_eq_getElem _ _ hi] at this
    rw [this]
    apply Finset.sum_eq_zero
    intro j hj
    have := Finset.mem_range.mp hj
    exact hz j (by omega)

/-- **C48 (what is measured).** If the share of samples at or below each kept code is the one a sine of amplitude `A` and offset `B` gives
for the transition level `T c`, the reported DNL is the true DNL of code `c_min + i + 1` times `n / (n - 2)`, clipped at −1. Amplitude and
offset drop out. -/
theorem C48_sine_exact (zs : List ℤ) (numBits : Option ℕ) (fullScale : Option ℝ) (clipPercent : ℝ) (lo hi : ℤ)
    (hk : KeptRange zs clipPercent lo hi) (hin : InteriorHit zs lo hi) (A B : ℝ) (hA : 0 < A) (T : ℤ → ℝ)
    (hT : ∀ c, lo ≤ c → c < hi → |T c - B| ≤ A ∧ (atMost zs c : ℝ) / zs.length = Real.arccos (-((T c - B) / A)) / Real.pi) :
    ∃ r, inlFromSine (zs.map fun (z : ℤ) => (z : ℝ)) false numBits fullScale clipPercent = .ok r ∧ r.dnl.length = (hi - lo - 1).toNat ∧
      ∀ i < r.dnl.length, r.dnl.getD i 0 =
        max (((hi : ℝ) - lo + 1) / ((hi : ℝ) - lo - 1) * ((T (lo + i + 1) - T (lo + i)) / ((T (hi - 1) - T lo) / ((hi : ℝ) - lo - 1)) - 1)) (-1) := by
  obtain ⟨r, hr, hl, hv⟩ := C48_sine_value zs numBits fullScale clipPercent lo hi hk hin
  refine ⟨r, hr, hl, ?_⟩
  have hlev : ∀ c, lo ≤ c → c < hi → sineLevel zs c = (T c - B) / A := by
    intro c h1 h2
    obtain ⟨h3, h4⟩ := hT c h1 h2
    unfold sineLevel
    rw [mul_div_assoc, h4, mul_div_cancel₀ _ Real.pi_ne_zero, Real.cos_arccos, neg_neg]
    · rw [neg_le_neg_iff, div_le_one hA]
      exact (abs_le.mp h3).2
    · rw [neg_le, le_div_iff₀ hA]
      have := (abs_le.mp h3).1
      linarith
  have hlt := level_lt zs lo hi hin
  have hlh : lo + 1 < hi := by
    obtain ⟨z, _, h1, h2⟩ := hin
    omega
  have hp : (0 : ℝ) < (hi : ℝ) - lo - 1 := by
    have : (1 : ℤ) ≤ hi - lo - 1 := by omega
    have : (1 : ℝ) ≤ ((hi - lo - 1 : ℤ) : ℝ) := by exact_mod_cast this
    push_cast at this
    linarith
  rw [hlev lo le_rfl (by omega), hlev (hi - 1) (by omega) (by omega), div_lt_div_iff_of_pos_right hA] at hlt
  intro i hi'
  rw [hl] at hi'
  rw [hv i (by omega), hlev _ (by omega) (by omega), hlev _ (by omega) (by omega), hlev _ (by omega) (by omega), hlev _ le_rfl (by omega)]
  congr 1
  have h1 : T (hi - 1) - T lo ≠ 0 := by linarith
  have h2 : (T (hi - 1) - B) / A - (T lo - B) / A = (T (hi - 1) - T lo) / A := by ring
  have h3 : (T (lo + i + 1) - B) / A - (T (lo + i) - B) / A = (T (lo + i + 1) - T (lo + i)) / A := by ring
  rw [h2, h3]
  have hA' := hA.ne'
  have hp' := hp.ne'
  field_simp

/-- **C48 (order and repetition).** Only the shares of the samples at each code matter: reordering the record or repeating it `q` times
changes nothing. -/
theorem C48_sine_histogram_only (zs zs' : List ℤ) (q : ℕ) (hq : q ≠ 0) (h : zs'.Perm (List.replicate q zs).flatten) (hne : zs ≠ [])
    (numBits : Option ℕ) (fullScale : Option ℝ) (clipPercent : ℝ) (lo hi : ℤ) (hk : KeptRange zs clipPercent lo hi) (hin : InteriorHit zs lo hi) :
    inlFromSine (zs'.map fun (z : ℤ) => (z : ℝ)) false numBits fullScale clipPercent = inlFromSine (zs.map fun (z : ℤ) => (z : ℝ)) false numBits fullScale clipPercent := by
  have hmem : ∀ z, z ∈ zs' ↔ z ∈ zs := by
    intro z
    rw [h.mem_iff, List.mem_flatten]
    constructor
    · rintro ⟨l, hl, hz⟩
      rw [(List.mem_replicate.mp hl).2] at hz
      exact hz
    · intro hz
      exact ⟨zs, List.mem_replicate.mpr ⟨hq, rfl⟩, hz⟩
  have hne' : zs' ≠ [] := by
    obtain ⟨z, hz⟩ := List.exists_mem_of_ne_nil zs hne
    exact List.ne_nil_of_mem ((hmem z).mpr hz)
  have hk' : KeptRange zs' clipPercent lo hi := by
    unfold KeptRange at hk ⊢
    simpa only [hmem] using hk
  have hin' : InteriorHit zs' lo hi := by
    unfold InteriorHit at hin ⊢
    simpa only [hmem] using hin
  have hlh : lo + 1 < hi := by
    obtain ⟨z, _, h1, h2⟩ := hin
    omega
  have hq0 : (q : ℝ) ≠ 0 := by exact_mod_cast hq
  have hlev : ∀ c, sineLevel zs' c = sineLevel zs c := by
    intro c
    have h1 : atMost zs' c = q * atMost zs c := by
      unfold atMost
      rw [h.countP_eq, List.countP_flatten, List.map_replicate, List.sum_replicate, smul_eq_mul]
    have h2 : zs'.length = q * zs.length := by
      rw [h.length_eq, List.length_flatten, List.map_replicate, List.sum_replicate, smul_eq_mul]
    unfold sineLevel
    rw [h1, h2]
    push_cast
    rw [mul_left_comm, mul_div_mul_left _ _ hq0]
  have hD : sineLevel zs (hi - 1) - sineLevel zs lo ≠ 0 := (sub_pos.mpr (level_lt zs lo hi hin)).ne'
  have hD' : sineLevel zs' (hi - 1) - sineLevel zs' lo ≠ 0 := (sub_pos.mpr (level_lt zs' lo hi hin')).ne'
  rw [sine_eq zs hne numBits fullScale clipPercent lo hi hk, sine_eq zs' hne' numBits fullScale clipPercent lo hi hk',
    sineDnl_eq zs lo hi hlh hD, sineDnl_eq zs' lo hi hlh hD']
  simp only [hlev]

/-- **C48 (voltage input).** A floating-point record spanning at most 2 is first quantised: the result is that of an integer record of
the same length with codes in `0 .. 2^B - 1`, each being the scaled sample clipped to the range and rounded to nearest. -/
theorem C48_sine_voltage (data : List ℝ) (hne : data ≠ []) (hspan : ∀ x ∈ data, ∀ y ∈ data, x - y ≤ 2) (numBits : Option ℕ)
    (fullScale : Option ℝ) (clipPercent : ℝ) :
    ∃ (zs : List ℤ) (g o : ℝ), zs.length = data.length ∧
      (match fullScale with
        | some fs => g = 2 ^ numBits.getD 10 / fs ∧ o = 0
        | none => if ∃ x ∈ data, x < -(1 / 10) then g = 2 ^ numBits.getD 10 / 2 ∧ o = 2 ^ numBits.getD 10 / 2 else g = 2 ^ numBits.getD 10 ∧ o = 0) ∧
      (∀ j < data.length, (0 ≤ zs.getD j 0 ∧ zs.getD j 0 ≤ 2 ^ numBits.getD 10 - 1) ∧
        |(zs.getD j 0 : ℝ) - min (max (g * data.getD j 0 + o) 0) (2 ^ numBits.getD 10 - 1)| ≤ 1 / 2) ∧
      inlFromSine data true numBits fullScale clipPercent = inlFromSine (zs.map fun (z : ℤ) => (z : ℝ)) false none none clipPercent := by
  have kmin : ∀ (l : List ℝ) (a : ℝ), l.foldl min a ≤ a ∧ (∀ z ∈ l, l.foldl min a ≤ z) ∧ (l.foldl min a = a ∨ l.foldl min a ∈ l) := by
    intro l
    induction l with
    | nil => intro a; simp
    | cons x t ih =>
      intro a
      obtain ⟨h1, h2, h3⟩ := ih (min a x)
      rw [List.foldl_cons]
      refine ⟨h1.trans (min_le_left _ _), ?_, ?_⟩
      · intro y hy
        rcases List.mem_cons.mp hy with rfl | hy
        · exact h1.trans (min_le_right _ _)
        · exact h2 y hy
      · rcases h3 with h3 | h3
        · rw [h3]
          rcases min_choice a x with h | h
          · left; exact h
          · right; rw [h]; simp
        · right; simp [h3]
  have kmax : ∀ (l : List ℝ) (a : ℝ), a ≤ l.foldl max a ∧ (∀ z ∈ l, z ≤ l.foldl max a) ∧ (l.foldl max a = a ∨ l.foldl max a ∈ l) := by
    intro l
    induction l with
    | nil => intro a; simp
    | cons x t ih =>
      intro a
      obtain ⟨h1, h2, h3⟩ := ih (max a x)
      rw [List.foldl_cons]
      refine ⟨(le_max_left _ _).trans h1, ?_, ?_⟩
      · intro y hy
        rcases List.mem_cons.mp hy with rfl | hy
        · exact (le_max_right _ _).trans h1
        · exact h2 y hy
      · rcases h3 with h3 | h3
        · rw [h3]
          rcases max_choice a x with h | h
          · left; exact h
          · right; rw [h]; simp
        · right; simp [h3]
  have hmn : foldMin (data.headD 0) data ∈ data ∧ ∀ z ∈ data, foldMin (data.headD 0) data ≤ z := by
    obtain ⟨a, t, rfl⟩ := List.exists_cons_of_ne_nil hne
    obtain ⟨_, h2, h3⟩ := kmin (a :: t) a
    refine ⟨?_, h2⟩
    unfold foldMin
    rcases h3 with h3 | h3
    · rw [List.headD_cons, h3]; simp
    · exact h3
  have hmx : foldMax (data.headD 0) data ∈ data ∧ ∀ z ∈ data, z ≤ foldMax (data.headD 0) data := by
    obtain ⟨a, t, rfl⟩ := List.exists_cons_of_ne_nil hne
    obtain ⟨_, h2, h3⟩ := kmax (a :: t) a
    refine ⟨?_, h2⟩
    unfold foldMax
    rcases h3 with h3 | h3
    · rw [List.headD_cons, h3]; simp
    · exact h3
  set b := numBits.getD 10 with hb
  have hsp : foldMax (data.headD 0) data - foldMin (data.headD 0) data ≤ 2 := hspan _ hmx.1 _ hmn.1
  have hpow : (1 : ℤ) ≤ 2 ^ b := one_le_pow₀ (by norm_num)
  -- one affine map in all three cases
  have key : ∀ g o : ℝ, sineCodes data true numBits fullScale = data.map (fun d => clip (rint (g * d + o)) 0 (2 ^ b - 1)) →
      ∃ zs : List ℤ, zs.length = data.length ∧
      (∀ j < data.length, (0 ≤ zs.getD j 0 ∧ zs.getD j 0 ≤ 2 ^ b - 1) ∧ |(zs.getD j 0 : ℝ) - min (max (g * data.getD j 0 + o) 0) (2 ^ b - 1)| ≤ 1 / 2) ∧
      inlFromSine data true numBits fullScale clipPercent = inlFromSine (zs.map fun (z : ℤ) => (z : ℝ)) false none none clipPercent := by
    intro g o hcodes
    refine ⟨data.map (fun d => clip (rint (g * d + o)) 0 (2 ^ b - 1)), by simp, ?_, ?_⟩
    · intro j hj
      rw [List.getD_eq_getElem _ _ (by simpa using hj), List.getD_eq_getElem _ _ hj, List.getElem_map]
      refine ⟨clip_mem (by omega), ?_⟩
      set x := g * data[j] + o
      have hr := abs_sub_rint_le x
      unfold clip
      push_cast
      have habs := abs_le.mp hr
      -- clipping does not increase the distance
      have h1 : |max (rint x : ℝ) 0 - max x 0| ≤ |(rint x : ℝ) - x| := by
        have := abs_max_sub_max_le_abs (rint x : ℝ) x 0
        exact this
      have h2 : |min (max (rint x : ℝ) 0) (2 ^ b - 1) - min (max x 0) (2 ^ b - 1)| ≤ |max (rint x : ℝ) 0 - max x 0| := by
        have := abs_min_sub_min_le_max (max (rint x : ℝ) 0) ((2 : ℝ) ^ b - 1) (max x 0) ((2 : ℝ) ^ b - 1)
        simpa using this
      rw [abs_sub_comm] at hr
      exact h2.trans (h1.trans hr)
    · unfold inlFromSine
      rw [if_neg hne, if_neg (by simpa using hne), codes_int, hcodes]
  have hcast : ((2 ^ b : ℤ) : ℝ) = 2 ^ b := by push_cast; rfl
  cases fullScale with
  | some fs =>
    obtain ⟨zs, h1, h2, h3⟩ := key (2 ^ b / fs) 0 (by
      unfold sineCodes
      simp only
      rw [if_pos ⟨trivial, hsp⟩, List.map_map]
      apply List.map_congr_left
      intro d _
      simp only [Function.comp_apply]
      rw [← hb, hcast, add_zero]
      congr 2
      ring)
    exact ⟨zs, 2 ^ b / fs, 0, h1, ⟨rfl, rfl⟩, h2, h3⟩
  | none =>
    by_cases hneg : ∃ x ∈ data, x < -(1 / 10)
    · have hlt : foldMin (data.headD 0) data < -(1 / 10) := by
        obtain ⟨x, hx, h⟩ := hneg
        exact lt_of_le_of_lt (hmn.2 x hx) h
      obtain ⟨zs, h1, h2, h3⟩ := key (2 ^ b / 2) (2 ^ b / 2) (by
        unfold sineCodes
        simp only
        rw [if_pos ⟨trivial, hsp⟩, if_pos hlt, List.map_map]
        apply List.map_congr_left
        intro d _
        simp only [Function.comp_apply]
        rw [← hb, hcast]
        congr 2
        ring)
      refine ⟨zs, 2 ^ b / 2, 2 ^ b / 2, h1, ?_, h2, h3⟩
      show if _ then _ else _
      rw [if_pos hneg]
      exact ⟨rfl, rfl⟩
    · have hlt : ¬ foldMin (data.headD 0) data < -(1 / 10) := fun h => hneg ⟨_, hmn.1, h⟩
      obtain ⟨zs, h1, h2, h3⟩ := key (2 ^ b) 0 (by
        unfold sineCodes
        simp only
        rw [if_pos ⟨trivial, hsp⟩, if_neg hlt, List.map_map]
        apply List.map_congr_left
        intro d _
        simp only [Function.comp_apply]
        rw [← hb, hcast, add_zero, mul_comm])
      refine ⟨zs, 2 ^ b, 0, h1, ?_, h2, h3⟩
      show if _ then _ else _
      rw [if_neg hneg]
      exact ⟨rfl, rfl⟩

/-- The only error is `ValueError` for an empty record. -/
theorem C48_sine_errors (data : List ℝ) (isFloat : Bool) (numBits : Option ℕ) (fullScale : Option ℝ) (clipPercent : ℝ) (e : PyErr) :
    inlFromSine data isFloat numBits fullScale clipPercent = .error e ↔ data = [] ∧ e = .valueError := by
  unfold inlFromSine
  by_cases h : data = []
  · rw [if_pos h]
    simp [h, @eq_comm PyErr]
  · rw [if_neg h]
    simp [h]

private theorem zero_clip (zs : List ℤ) (mn mx : ℤ) (h1 : mn ∈ zs ∧ ∀ z ∈ zs, mn ≤ z) (h2 : mx ∈ zs ∧ ∀ z ∈ zs, z ≤ mx) : KeptRange zs 0 mn mx := by
  have e : rint (0 * ((mx - mn : ℤ) : ℝ)) = 0 := by
    rw [zero_mul]
    have := rint_intCast (K := ℝ) 0
    simpa using this
  refine ⟨mn, mx, h1, h2, ?_, ?_⟩
  · rw [e, sub_zero]
  · rw [e, add_zero, min_eq_left (h1.2 _ h2.1)]

/-- **C48 (label shift).** In this record code 3 never occurs and code 2 does. The entry −1 carries the label 2, the label 3 has a different
value. -/
theorem C48_label_shift : ∃ r, inlFromSine ([0, 1, 2, 4, 5].map fun (z : ℤ) => (z : ℝ)) false none none 0 = .ok r ∧
    r.code.getD 2 0 = 2 ∧ r.dnl.getD 2 0 = -1 ∧ r.code.getD 3 0 = 3 ∧ -1 < r.dnl.getD 3 0 := by
  have hk : KeptRange [0, 1, 2, 4, 5] 0 0 5 := zero_clip _ _ _ (by simp) (by simp)
  have hin : InteriorHit [0, 1, 2, 4, 5] 0 5 := ⟨1, by simp, by norm_num, by norm_num⟩
  obtain ⟨r, lo, hi, hk', hr, hl, _, _, hb⟩ := C48_sine_bookkeeping [0, 1, 2, 4, 5] (by simp) none none 0
  obtain ⟨r2, hr2, hl2, hv⟩ := C48_sine_value [0, 1, 2, 4, 5] none none 0 0 5 hk hin
  have e := kept_eq _ (by simp) 0 0 5 hk
  rw [kept_eq _ (by simp) 0 lo hi hk'] at e
  obtain ⟨rfl, rfl⟩ := Prod.mk.inj e
  obtain rfl : r = r2 := by
    rw [hr] at hr2
    injection hr2
  have hl4 : r.dnl.length = 4 := by rw [hl]; rfl
  have a0 : atMost [0, 1, 2, 4, 5] 0 = 1 := by decide +kernel
  have a2 : atMost [0, 1, 2, 4, 5] 2 = 3 := by decide +kernel
  have a3 : atMost [0, 1, 2, 4, 5] 3 = 3 := by decide +kernel
  have a4 : atMost [0, 1, 2, 4, 5] 4 = 4 := by decide +kernel
  have hlt : sineLevel [0, 1, 2, 4, 5] 0 < sineLevel [0, 1, 2, 4, 5] (5 - 1) := level_lt _ _ _ hin
  have h32 : sineLevel [0, 1, 2, 4, 5] 3 = sineLevel [0, 1, 2, 4, 5] 2 := by
    unfold sineLevel
    rw [a2, a3]
  refine ⟨r, hr, ?_, ?_, ?_, ?_⟩
  · rw [(hb 2 (by omega)).1]; rfl
  · rw [hv 2 (by omega)]
    norm_num [h32]
  · rw [(hb 3 (by omega)).1]; rfl
  · rw [hv 3 (by omega)]
    apply lt_max_of_lt_left
    have hpi := Real.pi_pos
    norm_num
    have hD : 0 < sineLevel [0, 1, 2, 4, 5] 4 - sineLevel [0, 1, 2, 4, 5] 0 := by
      have : (5 : ℤ) - 1 = 4 := by norm_num
      rw [this] at hlt
      linarith
    have c1 : Real.cos (Real.pi * 4 / 5) = -Real.cos (Real.pi / 5) := by
      rw [← Real.cos_pi_sub]
      congr 1
      ring
    have c3 : Real.cos (Real.pi * 3 / 5) < 0 := Real.cos_neg_of_pi_div_two_lt_of_lt (by linarith) (by linarith)
    have l4 : sineLevel [0, 1, 2, 4, 5] 4 = Real.cos (Real.pi / 5) := by
      unfold sineLevel
      rw [a4]
      rw [show Real.pi * ((4 : ℕ) : ℝ) / (([0, 1, 2, 4, 5] : List ℤ).length : ℝ) = Real.pi * 4 / 5 by norm_num, c1, neg_neg]
    have l3 : sineLevel [0, 1, 2, 4, 5] 3 = -Real.cos (Real.pi * 3 / 5) := by
      unfold sineLevel
      rw [a3, show Real.pi * ((3 : ℕ) : ℝ) / (([0, 1, 2, 4, 5] : List ℤ).length : ℝ) = Real.pi * 3 / 5 by norm_num]
    have l0 : sineLevel [0, 1, 2, 4, 5] 0 = -Real.cos (Real.pi / 5) := by
      unfold sineLevel
      rw [a0, show Real.pi * ((1 : ℕ) : ℝ) / (([0, 1, 2, 4, 5] : List ℤ).length : ℝ) = Real.pi / 5 by norm_num]
    have hc := Real.cos_pi_div_five
    have c3' : Real.cos (Real.pi * 3 / 5) = -(2 * Real.cos (Real.pi / 5) ^ 2 - 1) := by
      rw [← Real.cos_two_mul, ← Real.cos_pi_sub]
      congr 1
      ring
    rw [c3', neg_neg, hc] at l3
    rw [hc] at l4 l0
    have hs : √5 ^ 2 = (5 : ℝ) := Real.sq_sqrt (by norm_num)
    have hs0 : (2 : ℝ) < √5 := by
      rw [Real.lt_sqrt (by norm_num)]
      norm_num
    have hs1 : √5 < (3 : ℝ) := by
      rw [Real.sqrt_lt' (by norm_num)]
      norm_num
    have hq : (1 : ℝ) / 12 < (sineLevel [0, 1, 2, 4, 5] 4 - sineLevel [0, 1, 2, 4, 5] 3) / (sineLevel [0, 1, 2, 4, 5] 4 - sineLevel [0, 1, 2, 4, 5] 0) := by
      rw [lt_div_iff₀ hD, l4, l3, l0]
      nlinarith
    linarith

/-- The hypotheses of the value theorem hold for a small record. -/
example : KeptRange [3, 1, 2, 2, 4, 5, 4] 0 1 5 ∧ InteriorHit [3, 1, 2, 2, 4, 5, 4] 1 5 :=
  ⟨zero_clip _ _ _ (by simp) (by simp), 2, by simp, by norm_num, by norm_num⟩

end Verif
