import Verif.Proofs.Bins

/-!
# C49: value-binned error statistics
-/

namespace Verif

open Model Finset

/-- Which bins are kept (specification): all of them without clipping, otherwise those at least `⌊n_bins * clip⌋` bins from either end. -/
def KeptBin (nb : ℕ) (clipPercent : ℝ) (b : ℕ) : Prop :=
  clipPercent = 0 ∨ (⌊(nb : ℝ) * clipPercent⌋ ≤ (b : ℤ) ∧ (b : ℤ) + ⌊(nb : ℝ) * clipPercent⌋ < nb)

/-- What a successful call computed. -/
theorem value_ok (solve : Lstsq) (n : ℕ) (x : ℕ → ℝ) (freq : Option ℝ) (nBins : ℤ) (clipPercent : ℝ) (given : Option (ℝ × ℝ)) (maxIter : ℤ) (tol : ℝ)
    (r : ValueBins) (h : rearrangeByValue solve n x freq nBins clipPercent given maxIter tol = .ok r) :
    ∃ lo hi fit, n ≠ 0 ∧ 0 < nBins ∧ 0 ≤ clipPercent ∧ inferRange n x given = .ok (lo, hi) ∧ lo < hi ∧ fitCore solve n x freq maxIter tol = .ok fit ∧
      (0 < clipPercent → 2 * ⌊(nBins.toNat : ℝ) * clipPercent⌋ < nBins) ∧ (∃ t < n, valueMask nBins.toNat clipPercent (valueIndex nBins.toNat lo hi (x t)) = true) ∧
      r = { mean := binMean n (fun t => valueIndex nBins.toNat lo hi (x t)) (fun t => valueMask nBins.toNat clipPercent (valueIndex nBins.toNat lo hi (x t))) (fun t => x t - fit.fitted t),
            rms := binRms n (fun t => valueIndex nBins.toNat lo hi (x t)) (fun t => valueMask nBins.toNat clipPercent (valueIndex nBins.toNat lo hi (x t))) (fun t => x t - fit.fitted t),
            centers := valueCenter nBins.toNat lo hi,
            count := binCount n (fun t => valueIndex nBins.toNat lo hi (x t)) (fun t => valueMask nBins.toNat clipPercent (valueIndex nBins.toNat lo hi (x t))),
            index := fun t => valueIndex nBins.toNat lo hi (x t), err := fun t => x t - fit.fitted t, fitted := fit.fitted, nBins := nBins.toNat,
            normFreq := freq.getD fit.frequency } := by
  unfold rearrangeByValue at h
  by_cases h1 : n = 0
  · rw [if_pos h1] at h; cases h
  rw [if_neg h1] at h
  by_cases h2 : nBins ≤ 0
  · rw [if_pos h2] at h; cases h
  rw [if_neg h2] at h
  by_cases h3 : clipPercent < 0
  · rw [if_pos h3] at h; cases h
  rw [if_neg h3] at h
  by_cases h4 : given.any (fun r => decide (r.2 ≤ r.1)) = true
  · rw [if_pos h4] at h; cases h
  rw [if_neg h4] at h
  cases h5 : inferRange n x given with
  | error e => rw [h5] at h; cases h
  | ok p =>
    obtain ⟨lo, hi⟩ := p
    rw [h5] at h
    simp only at h
    by_cases h6 : hi ≤ lo
    · rw [if_pos h6] at h; cases h
    rw [if_neg h6] at h
    cases h7 : fitCore solve n x freq maxIter tol with
    | error e => rw [h7] at h; cases h
    | ok fit =>
      rw [h7] at h
      simp only at h
      by_cases h8 : 0 < clipPercent ∧ nBins ≤ 2 * ⌊(nBins.toNat : ℝ) * clipPercent⌋
      · rw [if_pos h8] at h; cases h
      rw [if_neg h8] at h
      by_cases h9 : ∀ t < n, valueMask nBins.toNat clipPercent (valueIndex nBins.toNat lo hi (x t)) = false
      · rw [if_pos h9] at h; cases h
      rw [if_neg h9] at h
      injection h with h
      refine ⟨lo, hi, fit, h1, by omega, not_lt.mp h3, rfl, not_le.mp h6, rfl, ?_, ?_, h.symm⟩
      · intro hc
        by_contra hcon
        exact h8 ⟨hc, by omega⟩
      · push Not at h9
        obtain ⟨t, ht, hm⟩ := h9
        exact ⟨t, ht, by simpa using hm⟩

theorem mask_iff (nb : ℕ) (clipPercent : ℝ) (hc : 0 ≤ clipPercent) (b : ℕ) : valueMask nb clipPercent b = true ↔ KeptBin nb clipPercent b := by
  unfold valueMask KeptBin
  by_cases h : 0 < clipPercent
  · rw [if_pos h, decide_eq_true_iff]
    constructor
    · rintro ⟨h1, h2⟩
      exact Or.inr ⟨h1, by omega⟩
    · rintro (h0 | ⟨h1, h2⟩)
      · exact absurd h0 h.ne'
      · exact ⟨h1, by omega⟩
  · rw [if_neg h]
    exact ⟨fun _ => Or.inl (le_antisymm (not_lt.mp h) hc), fun _ => rfl⟩

private theorem index_lt (nb : ℕ) (hnb : 0 < nb) (lo hi v : ℝ) : valueIndex nb lo hi v < nb := by
  unfold valueIndex
  have := clip_mem (x := rint ((v - lo) * (((nb : ℝ) - 1) / (hi - lo)))) (lo := 0) (hi := (nb : ℤ) - 1) (by omega)
  omega

private theorem clip_rint_closest (u : ℝ) (m : ℕ) (j : ℕ) (hj : j ≤ m) : |u - (clip (rint u) 0 (m : ℤ) : ℤ)| ≤ |u - j| := by
  have hr := abs_le.mp (abs_sub_rint_le u)
  have hj0 : (0 : ℝ) ≤ j := by positivity
  have hjm : (j : ℝ) ≤ m := by exact_mod_cast hj
  by_cases h0 : rint u < 0
  · have e : clip (rint u) 0 (m : ℤ) = 0 := by
      unfold clip
      rw [max_eq_right h0.le, min_eq_left (by positivity)]
    have : (rint u : ℝ) ≤ -1 := by exact_mod_cast (by omega : rint u ≤ -1)
    rw [e, Int.cast_zero, sub_zero, abs_of_nonpos (by linarith), abs_of_nonpos (by linarith)]
    linarith
  · by_cases h1 : (m : ℤ) < rint u
    · have e : clip (rint u) 0 (m : ℤ) = m := by
        unfold clip
        rw [max_eq_left (by omega), min_eq_right h1.le]
      have : (m : ℝ) + 1 ≤ rint u := by exact_mod_cast (by omega : (m : ℤ) + 1 ≤ rint u)
      rw [e, Int.cast_natCast, abs_of_nonneg (by linarith), abs_of_nonneg (by linarith)]
      linarith
    · rw [clip_of_mem (by omega) (by omega)]
      have := rint_closest u (j : ℤ)
      rwa [Int.cast_natCast] at this

private theorem nearest (nb : ℕ) (hnb : 0 < nb) (lo hi v : ℝ) (hlt : lo < hi) (j : ℕ) (hj : j < nb) :
    |v - valueCenter nb lo hi (valueIndex nb lo hi v)| ≤ |v - valueCenter nb lo hi j| := by
  obtain ⟨m, rfl⟩ : ∃ m, nb = m + 1 := ⟨nb - 1, by omega⟩
  rcases Nat.eq_zero_or_pos m with hm | hm
  · subst hm
    have e1 : valueIndex (0 + 1) lo hi v = 0 := by
      have := index_lt (0 + 1) (by norm_num) lo hi v
      omega
    rw [e1, show j = 0 by omega]
  set w := (hi - lo) / (((m + 1 : ℕ) : ℝ) - 1) with hw
  have hmR : (0 : ℝ) < m := by exact_mod_cast hm
  have hw0 : 0 < w := by
    rw [hw]
    push_cast
    rw [add_sub_cancel_right]
    exact div_pos (by linarith) hmR
  set u := (v - lo) * ((((m + 1 : ℕ) : ℝ) - 1) / (hi - lo)) with hu
  have hvu : v = lo + w * u := by
    rw [hw, hu]
    have h1 : ((m + 1 : ℕ) : ℝ) - 1 ≠ 0 := by push_cast; rw [add_sub_cancel_right]; exact hmR.ne'
    have h2 : hi - lo ≠ 0 := by linarith
    field_simp
    ring
  have hidx : ((valueIndex (m + 1) lo hi v : ℕ) : ℝ) = ((clip (rint u) 0 (m : ℤ) : ℤ) : ℝ) := by
    unfold valueIndex
    rw [← hu]
    have h1 : (((m + 1 : ℕ) : ℤ) - 1) = m := by push_cast; ring
    rw [h1]
    have h2 := clip_mem (x := rint u) (lo := 0) (hi := (m : ℤ)) (by positivity)
    have h3 : (((clip (rint u) 0 (m : ℤ)).toNat : ℕ) : ℤ) = clip (rint u) 0 (m : ℤ) := Int.toNat_of_nonneg h2.1
    exact_mod_cast h3
  have hdist : ∀ z : ℕ, v - valueCenter (m + 1) lo hi z = w * (u - z) := by
    intro z
    unfold valueCenter
    rw [← hw, hvu]
    ring
  rw [hdist, hdist, abs_mul, abs_mul, hidx]
  exact mul_le_mul_of_nonneg_left (clip_rint_closest u m j (by omega)) (abs_nonneg _)

/-- **C49 (bin assignment).** Every sample gets a bin in range, and the centre of that bin is the nearest of all bin centres to the sample. -/
theorem C49_nearest_bin (solve : Lstsq) (n : ℕ) (x : ℕ → ℝ) (freq : Option ℝ) (nBins : ℤ) (clipPercent : ℝ) (given : Option (ℝ × ℝ)) (maxIter : ℤ) (tol : ℝ)
    (r : ValueBins) (h : rearrangeByValue solve n x freq nBins clipPercent given maxIter tol = .ok r) :
    (r.nBins : ℤ) = nBins ∧ ∀ t, r.index t < r.nBins ∧ ∀ j < r.nBins, |x t - r.centers (r.index t)| ≤ |x t - r.centers j| := by
  obtain ⟨lo, hi, fit, _, h2, _, _, h5, _, _, _, rfl⟩ := value_ok solve n x freq nBins clipPercent given maxIter tol r h
  have hpos : 0 < nBins.toNat := by omega
  exact ⟨Int.toNat_of_nonneg h2.le, fun t => ⟨index_lt _ hpos _ _ _, fun j hj => nearest _ hpos lo hi (x t) h5 j hj⟩⟩

/-- **C49 (range).** The bin centres run from the lower to the upper end of the requested range; for raw codes (some magnitude above 2) without
a requested range they run exactly from the smallest to the largest sample, so each sample is at most half a bin from its centre. -/
theorem C49_range (solve : Lstsq) (n : ℕ) (x : ℕ → ℝ) (freq : Option ℝ) (nBins : ℤ) (clipPercent : ℝ) (given : Option (ℝ × ℝ)) (maxIter : ℤ) (tol : ℝ)
    (r : ValueBins) (h : rearrangeByValue solve n x freq nBins clipPercent given maxIter tol = .ok r) (hb : 2 ≤ nBins) :
    (∀ lo hi, given = some (lo, hi) → r.centers 0 = lo ∧ r.centers (r.nBins - 1) = hi) ∧
    (given = none → (∃ t < n, 2 < |x t|) → (∀ t < n, r.centers 0 ≤ x t ∧ x t ≤ r.centers (r.nBins - 1)) ∧
      (∃ t < n, x t = r.centers 0) ∧ ∃ t < n, x t = r.centers (r.nBins - 1)) ∧
    (∀ t, r.centers 0 ≤ x t → x t ≤ r.centers (r.nBins - 1) →
      |x t - r.centers (r.index t)| ≤ (r.centers (r.nBins - 1) - r.centers 0) / (nBins - 1) / 2) := by
  obtain ⟨lo, hi, fit, h1, h2, _, h4, h5, _, _, _, rfl⟩ := value_ok solve n x freq nBins clipPercent given maxIter tol r h
  obtain ⟨m, hm⟩ : ∃ m : ℕ, nBins = m + 1 := ⟨(nBins - 1).toNat, by omega⟩
  subst hm
  have hnb : ((m : ℤ) + 1).toNat = m + 1 := by omega
  have hmR : (1 : ℝ) ≤ m := by exact_mod_cast (by omega : 1 ≤ m)
  simp only [hnb, Nat.add_sub_cancel]
  have c0 : valueCenter (m + 1) lo hi 0 = lo := by unfold valueCenter; simp
  have c1 : valueCenter (m + 1) lo hi m = hi := by
    unfold valueCenter
    push_cast
    rw [add_sub_cancel_right]
    field_simp
    ring
  rw [c0, c1]
  refine ⟨?_, ?_, ?_⟩
  · rintro a b rfl
    unfold inferRange at h4
    by_cases hab : a < b
    · simp only [hab, if_true] at h4
      injection h4 with h4
      injection h4 with e1 e2
      exact ⟨e1.symm, e2.symm⟩
    · simp only [hab, if_false] at h4
      cases h4
  · rintro rfl ⟨t0, ht0, hbig⟩
    have hmn := minOf_le (x 0) ((List.range n).map x)
    have hmx := le_maxOf (x 0) ((List.range n).map x)
    have hmem : ∀ t < n, x t ∈ x 0 :: (List.range n).map x := fun t ht => List.mem_cons_of_mem _ (List.mem_map.mpr ⟨t, List.mem_range.mpr ht, rfl⟩)
    have hat : ∀ v ∈ x 0 :: (List.range n).map x, ∃ t < n, x t = v := by
      intro v hv
      rcases List.mem_cons.mp hv with hv | hv
      · exact ⟨0, by omega, hv.symm⟩
      · obtain ⟨t, ht, e⟩ := List.mem_map.mp hv
        exact ⟨t, List.mem_range.mp ht, e⟩
    have habs : 2 < max |recMin n x| |recMax n x| := by
      refine lt_of_lt_of_le hbig ?_
      have e1 : recMin n x ≤ x t0 := hmn _ (hmem t0 ht0)
      have e2 : x t0 ≤ recMax n x := hmx _ (hmem t0 ht0)
      exact abs_le_max_abs_abs e1 e2
    unfold inferRange at h4
    simp only [habs, if_true] at h4
    injection h4 with h4
    injection h4 with e1 e2
    subst e1
    subst e2
    exact ⟨fun t ht => ⟨hmn _ (hmem t ht), hmx _ (hmem t ht)⟩, hat _ (minOf_mem _ _), hat _ (maxOf_mem _ _)⟩
  · intro t hl hh
    push_cast
    rw [add_sub_cancel_right]
    set w := (hi - lo) / (m : ℝ) with hw
    have hw0 : 0 < w := div_pos (by linarith) (by linarith)
    -- the nearest integer to the scaled sample is itself a bin
    set u := (x t - lo) / w with hu
    have hxu : x t = lo + w * u := by rw [hu]; field_simp; ring
    have hu0 : 0 ≤ u := div_nonneg (by linarith) hw0.le
    have hum : u ≤ m := by
      rw [hu, div_le_iff₀ hw0, hw, mul_div_cancel₀ _ (by linarith : (m : ℝ) ≠ 0)]
      linarith
    have hr0 : 0 ≤ rint u := by
      have := rint_mono (K := ℝ) hu0
      rw [show (0 : ℝ) = ((0 : ℤ) : ℝ) by norm_num, rint_intCast] at this
      exact this
    have hrm : rint u ≤ m := by
      have := rint_mono (K := ℝ) hum
      rw [show ((m : ℕ) : ℝ) = ((m : ℤ) : ℝ) by norm_num, rint_intCast] at this
      exact this
    refine le_trans (nearest (m + 1) (by omega) lo hi (x t) h5 (rint u).toNat (by omega)) ?_
    have hcast : (((rint u).toNat : ℕ) : ℝ) = (rint u : ℝ) := by exact_mod_cast Int.toNat_of_nonneg hr0
    have e : x t - valueCenter (m + 1) lo hi (rint u).toNat = w * (u - rint u) := by
      unfold valueCenter
      push_cast
      rw [add_sub_cancel_right, ← hw, hcast]
      linarith
    rw [e, abs_mul, abs_of_pos hw0]
    have := abs_sub_rint_le u
    nlinarith

/-- **C49 (conservation).** The counts add up to the number of kept samples, counts times means to the sum of the kept errors, counts times
squared RMS to the sum of the kept squared errors; a bin reads NaN exactly when it is empty; RMS is at least `|mean|`. The error is signal
minus fit. Without clipping every sample is kept. -/
theorem C49_conservation (solve : Lstsq) (n : ℕ) (x : ℕ → ℝ) (freq : Option ℝ) (nBins : ℤ) (clipPercent : ℝ) (given : Option (ℝ × ℝ)) (maxIter : ℤ) (tol : ℝ)
    (r : ValueBins) (h : rearrangeByValue solve n x freq nBins clipPercent given maxIter tol = .ok r) (kept : ℕ → Prop) [DecidablePred kept]
    (hk : ∀ t, kept t ↔ KeptBin r.nBins clipPercent (r.index t)) :
    Conserves n r.nBins kept r.err r.count r.mean r.rms ∧ (∀ t, r.err t + r.fitted t = x t) ∧ (∃ t < n, kept t) ∧ (clipPercent = 0 → ∀ t, kept t) := by
  obtain ⟨lo, hi, fit, _, h2, h3, _, _, _, _, h8, rfl⟩ := value_ok solve n x freq nBins clipPercent given maxIter tol r h
  have hpos : 0 < nBins.toNat := by omega
  have hkm : ∀ t, kept t ↔ valueMask nBins.toNat clipPercent (valueIndex nBins.toNat lo hi (x t)) = true := fun t => by rw [hk t, mask_iff _ _ h3]
  refine ⟨?_, fun t => by simp, ?_, fun hc t => by rw [hk t]; exact Or.inl hc⟩
  · have hb := bins_conserve n nBins.toNat (fun t => valueIndex nBins.toNat lo hi (x t))
      (fun t => valueMask nBins.toNat clipPercent (valueIndex nBins.toNat lo hi (x t))) (fun t => x t - fit.fitted t) (fun t _ _ => index_lt _ hpos _ _ _)
    have hf : (range n).filter kept = (range n).filter fun t => valueMask nBins.toNat clipPercent (valueIndex nBins.toNat lo hi (x t)) = true :=
      filter_congr fun t _ => hkm t
    refine ⟨?_, ?_, ?_, hb.nan, hb.le⟩
    · rw [hf]; exact hb.total
    · rw [hf]; exact hb.sum
    · rw [hf]; exact hb.sumSq
  · obtain ⟨t, ht, hm⟩ := h8
    exact ⟨t, ht, (hkm t).mpr hm⟩

/-- **C49 (members of a bin).** The statistics of a kept bin are those of exactly the samples whose returned index is that bin; a clipped bin and a bin without samples count nothing and
read NaN. -/
theorem C49_bin_members (solve : Lstsq) (n : ℕ) (x : ℕ → ℝ) (freq : Option ℝ) (nBins : ℤ) (clipPercent : ℝ) (given : Option (ℝ × ℝ)) (maxIter : ℤ) (tol : ℝ)
    (r : ValueBins) (h : rearrangeByValue solve n x freq nBins clipPercent given maxIter tol = .ok r) (b : ℕ) :
    (KeptBin r.nBins clipPercent b → r.count b = ((range n).filter fun t => r.index t = b).card ∧
      (((range n).filter fun t => r.index t = b).Nonempty →
        r.mean b = some ((∑ t ∈ (range n).filter fun t => r.index t = b, r.err t) / ((range n).filter fun t => r.index t = b).card) ∧
        r.rms b = some (Real.sqrt ((∑ t ∈ (range n).filter fun t => r.index t = b, r.err t ^ 2) / ((range n).filter fun t => r.index t = b).card)))) ∧
    (¬ KeptBin r.nBins clipPercent b ∨ (range n).filter (fun t => r.index t = b) = ∅ → r.count b = 0 ∧ r.mean b = none ∧ r.rms b = none) := by
  obtain ⟨lo, hi, fit, _, h2, h3, _, _, _, _, h8, rfl⟩ := value_ok solve n x freq nBins clipPercent given maxIter tol r h
  simp only
  have hS : ((range n).filter fun t => valueMask nBins.toNat clipPercent (valueIndex nBins.toNat lo hi (x t)) = true ∧ valueIndex nBins.toNat lo hi (x t) = b) =
      if valueMask nBins.toNat clipPercent b = true then (range n).filter fun t => valueIndex nBins.toNat lo hi (x t) = b else ∅ := by
    by_cases hm : valueMask nBins.toNat clipPercent b = true
    · rw [if_pos hm]
      apply filter_congr
      intro t _
      constructor
      · exact fun ht => ht.2
      · intro ht
        exact ⟨by rw [ht]; exact hm, ht⟩
    · rw [if_neg hm, filter_eq_empty_iff]
      rintro t _ ⟨h4, h5⟩
      rw [h5] at h4
      exact hm h4
  unfold binMean binRms binSum binCount
  rw [hS, ← mask_iff _ _ h3]
  constructor
  · intro hk
    rw [if_pos hk]
    refine ⟨rfl, fun hne => ?_⟩
    rw [if_pos (card_pos.mpr hne), if_pos (card_pos.mpr hne)]
    exact ⟨rfl, rfl⟩
  · intro hk
    have he : (if valueMask nBins.toNat clipPercent b = true then (range n).filter fun t => valueIndex nBins.toNat lo hi (x t) = b else ∅) = ∅ := by
      rcases hk with hk | hk
      · rw [if_neg hk]
      · rw [hk, ite_self]
    rw [he]
    simp

/-- **C49 (errors).** The only exception is `ValueError`; it is raised for an empty record, a non-positive number of bins, negative clipping, a
range that does not increase, and for a constant record of raw codes. With a valid range, two samples and no clipping the call succeeds. -/
theorem C49_errors (solve : Lstsq) (n : ℕ) (x : ℕ → ℝ) (freq : Option ℝ) (nBins : ℤ) (clipPercent : ℝ) (given : Option (ℝ × ℝ)) (maxIter : ℤ) (tol : ℝ) :
    (∀ e, rearrangeByValue solve n x freq nBins clipPercent given maxIter tol = .error e → e = .valueError) ∧
    (n = 0 ∨ nBins ≤ 0 ∨ clipPercent < 0 ∨ (∃ a b, given = some (a, b) ∧ b ≤ a) ∨ (given = none ∧ ∃ c, 2 < |c| ∧ ∀ t, x t = c) →
      rearrangeByValue solve n x freq nBins clipPercent given maxIter tol = .error .valueError) ∧
    (2 ≤ n → 0 < nBins → clipPercent = 0 → (∃ a b, given = some (a, b) ∧ a < b) →
      ∃ r, rearrangeByValue solve n x freq nBins clipPercent given maxIter tol = .ok r) := by
  have hfit : ∀ e, fitCore solve n x freq maxIter tol = .error e → e = .valueError := by
    intro e he
    unfold fitCore at he
    cases freq with
    | some f => cases he
    | none =>
      unfold estimateFreq at he
      by_cases hn : n < 2
      · rw [if_pos hn] at he
        injection he with he
        exact he.symm
      · rw [if_neg hn] at he
        simp only at he
        split_ifs at he <;> cases he
  refine ⟨?_, ?_, ?_⟩
  · intro e he
    unfold rearrangeByValue at he
    by_cases h1 : n = 0
    · rw [if_pos h1] at he; injection he with he; exact he.symm
    rw [if_neg h1] at he
    by_cases h2 : nBins ≤ 0
    · rw [if_pos h2] at he; injection he with he; exact he.symm
    rw [if_neg h2] at he
    by_cases h3 : clipPercent < 0
    · rw [if_pos h3] at he; injection he with he; exact he.symm
    rw [if_neg h3] at he
    by_cases h4 : given.any (fun r => decide (r.2 ≤ r.1)) = true
    · rw [if_pos h4] at he; injection he with he; exact he.symm
    rw [if_neg h4] at he
    cases h5 : inferRange n x given with
    | error e' =>
      exfalso
      unfold inferRange at h5
      cases given with
      | some p =>
        simp at h4
        simp [h4] at h5
      | none =>
        simp only at h5
        split_ifs at h5 <;> cases h5
    | ok p =>
      obtain ⟨lo, hi⟩ := p
      rw [h5] at he
      simp only at he
      by_cases h6 : hi ≤ lo
      · rw [if_pos h6] at he; injection he with he; exact he.symm
      rw [if_neg h6] at he
      cases h7 : fitCore solve n x freq maxIter tol with
      | error e' =>
        rw [h7] at he
        injection he with he
        rw [← he]
        exact hfit e' h7
      | ok fit =>
        rw [h7] at he
        simp only at he
        by_cases h8 : 0 < clipPercent ∧ nBins ≤ 2 * ⌊(nBins.toNat : ℝ) * clipPercent⌋
        · rw [if_pos h8] at he; injection he with he; exact he.symm
        rw [if_neg h8] at he
        by_cases h9 : ∀ t < n, valueMask nBins.toNat clipPercent (valueIndex nBins.toNat lo hi (x t)) = false
        · rw [if_pos h9] at he; injection he with he; exact he.symm
        rw [if_neg h9] at he
        cases he
  · intro hbad
    unfold rearrangeByValue
    by_cases h1 : n = 0
    · rw [if_pos h1]
    rw [if_neg h1]
    by_cases h2 : nBins ≤ 0
    · rw [if_pos h2]
    rw [if_neg h2]
    by_cases h3 : clipPercent < 0
    · rw [if_pos h3]
    rw [if_neg h3]
    by_cases h4 : given.any (fun r => decide (r.2 ≤ r.1)) = true
    · rw [if_pos h4]
    rw [if_neg h4]
    rcases hbad with h | h | h | ⟨a, b, rfl, hab⟩ | ⟨rfl, c, hc, hx⟩
    · exact absurd h h1
    · exact absurd h h2
    · exact absurd h h3
    · simp at h4
      linarith
    · have e1 : recMin n x = c := minOf_eq _ _ _ (by simp [hx]) (by simp [hx])
      have e2 : recMax n x = c := maxOf_eq _ _ _ (by simp [hx]) (by simp [hx])
      unfold inferRange
      simp only [e1, e2, max_self, hc, if_true, le_refl]
  · intro hn hb hc ⟨a, b, hg, hab⟩
    subst hg
    subst hc
    have hfok : ∃ fit, fitCore solve n x freq maxIter tol = .ok fit := by
      unfold fitCore
      cases freq with
      | some f => exact ⟨_, rfl⟩
      | none =>
        have : ∃ f, estimateFreq n x = .ok f := by
          unfold estimateFreq
          rw [if_neg (by omega)]
          simp only
          split_ifs <;> exact ⟨_, rfl⟩
        obtain ⟨f, hf⟩ := this
        rw [hf]
        exact ⟨_, rfl⟩
    obtain ⟨fit, hfit'⟩ := hfok
    unfold rearrangeByValue
    rw [if_neg (by omega), if_neg (by omega), if_neg (lt_irrefl _), if_neg (by simpa using hab)]
    unfold inferRange
    simp only [hab, if_true]
    rw [if_neg (not_le.mpr hab), hfit']
    simp only
    rw [if_neg (by simp), if_neg]
    · exact ⟨_, rfl⟩
    · push Not
      refine ⟨0, by omega, ?_⟩
      unfold valueMask
      simp

/-- The inferred range of small signals need not contain the data: these three samples are binned over `[0, 1]`. -/
theorem C49_inferred_range_misses_data :
    ∃ x : ℕ → ℝ, inferRange 3 x none = .ok (0, 1) ∧ x 0 = -1 ∧ x 1 = 2 := by
  refine ⟨fun t => if t = 0 then -1 else 2, ?_, by simp, by simp⟩
  have e1 : recMin 3 (fun t => if t = 0 then (-1 : ℝ) else 2) = -1 := by
    apply minOf_eq
    · simp
    · intro v hv
      simp [List.range_succ] at hv
      rcases hv with rfl | rfl <;> norm_num
  have e2 : recMax 3 (fun t => if t = 0 then (-1 : ℝ) else 2) = 2 := by
    apply maxOf_eq
    · simp [List.range_succ]
    · intro v hv
      simp [List.range_succ] at hv
      rcases hv with rfl | rfl <;> norm_num
  unfold inferRange
  simp only [e1, e2]
  rw [if_neg (by norm_num), if_pos]
  unfold colMean
  simp [sum_range_succ]
  norm_num

/-- A call that succeeds: four samples, ten bins over `[-3, 3]`. -/
example (solve : Lstsq) (x : ℕ → ℝ) : ∃ r, rearrangeByValue solve 4 x (some (1 / 10)) 10 0 (some (-3, 3)) 1 (1 / 10 ^ 9) = .ok r ∧
    ∀ t, r.index t < 10 := by
  obtain ⟨r, hr⟩ := (C49_errors solve 4 x (some (1 / 10)) 10 0 (some (-3, 3)) 1 (1 / 10 ^ 9)).2.2 (by norm_num) (by norm_num) rfl ⟨-3, 3, rfl, by norm_num⟩
  obtain ⟨h1, h2⟩ := C49_nearest_bin _ _ _ _ _ _ _ _ _ _ hr
  exact ⟨r, hr, fun t => by have := (h2 t).1; omega⟩

end Verif
