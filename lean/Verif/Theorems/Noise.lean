import Verif.Proofs.SpectrumBins

/-!
# C37: noise power estimation
-/

namespace Verif

open Model Spec Finset

variable {K : Type} [Field K] [LinearOrder K] [IsStrictOrderedRing K] [FloorRing K]

/-- **C37 (floor).** Whatever the method, a finite estimate is at least `1e-15`. -/
theorem C37_estimate_floor (p : List K) (method : ℤ) (n M f : ℕ) (hs : List ℤ) (sb : ℕ) (v : K)
    (h : estimateNoisePower p method n M f hs sb = .ok (some v)) : 1 / 10 ^ 15 ≤ v := by
  have key : ∀ w : K, Except.ok (ε := PyErr) (some (max w pFloor)) = Except.ok (some v) → 1 / 10 ^ 15 ≤ v := by
    intro w hw
    injection hw with hw
    injection hw with hw
    rw [← hw]
    exact le_max_right _ _
  unfold estimateNoisePower at h
  simp only at h
  split_ifs at h
  all_goals first | exact key _ h | (injection h with h; simp at h)

/-- **C37 (errors).** Exactly the methods outside `0..4` fail, with `ValueError`. -/
theorem C37_error_iff (p : List K) (method : ℤ) (n M f : ℕ) (hs : List ℤ) (sb : ℕ) (e : PyErr) :
    estimateNoisePower p method n M f hs sb = .error e ↔ ¬ (0 ≤ method ∧ method ≤ 4) ∧ e = .valueError := by
  unfold estimateNoisePower
  simp only
  split_ifs
  all_goals first
    | (simp; omega)
    | (constructor
       · intro h; injection h with h; exact ⟨by omega, h.symm⟩
       · rintro ⟨_, rfl⟩; rfl)

private theorem median3 (a b c : K) : median [a, b, c] = max (min a b) (min (max a b) c) := by
  have hs : median [a, b, c] = (sortAsc [a, b, c]).getD 1 0 := by
    unfold median
    simp
  rw [hs]
  unfold sortAsc
  simp only [List.insertionSort_cons, List.insertionSort_nil, List.orderedInsert_nil]
  by_cases h1 : b ≤ c <;> by_cases h2 : a ≤ b <;> by_cases h3 : a ≤ c <;>
    simp only [List.orderedInsert_cons, List.orderedInsert_nil, h1, h2, h3, if_true, if_false, List.getD_cons_succ,
      List.getD_cons_zero] <;> (try push Not at h1 h2 h3) <;> clear hs <;>
    first
      | (exfalso; linarith)
      | (simp only [min_def, max_def]; split_ifs <;> first | rfl | (apply le_antisymm <;> linarith))

/-- **C37 (automatic method).** Method 0 returns the middle one of the three estimates of methods 1, 2 and 3: it is one of
them, at least the smaller and at most the larger of any two of them. -/
theorem C37_auto_is_median (p : List K) (n M f : ℕ) (hs : List ℤ) (sb : ℕ) :
    ∃ v₀ v₁ v₂ v₃, estimateNoisePower p 0 n M f hs sb = .ok (some v₀) ∧ estimateNoisePower p 1 n M f hs sb = .ok (some v₁) ∧
      estimateNoisePower p 2 n M f hs sb = .ok (some v₂) ∧ estimateNoisePower p 3 n M f hs sb = .ok (some v₃) ∧
      (v₀ = v₁ ∨ v₀ = v₂ ∨ v₀ = v₃) ∧ min v₁ v₂ ≤ v₀ ∧ v₀ ≤ max v₁ v₂ ∧ min v₁ v₃ ≤ v₀ ∧ v₀ ≤ max v₁ v₃ ∧
      min v₂ v₃ ≤ v₀ ∧ v₀ ≤ max v₂ v₃ := by
  refine ⟨_, _, _, _, rfl, rfl, rfl, rfl, ?_⟩
  rw [median3]
  generalize medianNoise (clearedInband p n sb (f - sb) (min (f + sb + 1) n)) M n = a
  generalize trimmedNoise (clearedInband p n sb (f - sb) (min (f + sb + 1) n)) n = b
  generalize excludeNoise (clearedInband p n sb (f - sb) (min (f + sb + 1) n)) hs n = c
  generalize (pFloor : K) = d
  have hmm : ∀ x y : K, max (min x y) d = min (max x d) (max y d) := fun x y => max_min_distrib_right x y d
  have e : max (max (min a b) (min (max a b) c)) d
      = max (min (max a d) (max b d)) (min (max (max a d) (max b d)) (max c d)) := by
    rw [show max (max (min a b) (min (max a b) c)) d = max (max (min a b) d) (max (min (max a b) c) d) by
      rw [max_max_max_comm, max_self], hmm, hmm, show max (max a b) d = max (max a d) (max b d) by
      rw [max_max_max_comm, max_self]]
  rw [e]
  generalize max a d = x
  generalize max b d = y
  generalize max c d = z
  rcases le_total x y with h1 | h1 <;> rcases le_total y z with h2 | h2 <;> rcases le_total x z with h3 | h3 <;>
    simp [*] <;> try (constructor <;> linarith)

/-- **C37 (trimmed mean is defined).** The trimmed range is never empty, so the mean is taken over at least one bin. -/
theorem C37_trim_nonempty (n : ℕ) (hn : 0 < n) : (trimmedIndices n).1 < (trimmedIndices n).2 ∧ (trimmedIndices n).2 ≤ n := by
  unfold trimmedIndices
  simp only
  omega

/-- **C37 (method 4 candidates).** Bins left for the wide exclusion: in band, above the DC lobe and outside the lobes of the
signal and of every in-band harmonic. -/
theorem C37_candidate_bins_spec (n f : ℕ) (hs : List ℤ) (sb i : ℕ) :
    i ∈ candidateBins n f hs sb ↔
      i < n ∧ sb < i ∧ ∀ b ∈ (f : ℤ) :: hs, 1 ≤ b → b < n → ¬ |(i : ℤ) - b| ≤ sb := by
  have hdrop : ∀ (c : Finset ℕ) (b : ℤ), c ⊆ range n → ∀ i,
      i ∈ (if 1 ≤ b ∧ b < n then c \ Ico (max (b - sb) 0).toNat (min (b + sb + 1) n).toNat else c) ↔
        i ∈ c ∧ (1 ≤ b → b < n → ¬ |(i : ℤ) - b| ≤ sb) := by
    intro c b hc i
    by_cases hic : i ∈ c
    · have hin : i < n := mem_range.mp (hc hic)
      split_ifs with hb
      · rw [mem_sdiff, mem_Ico, abs_le]
        constructor
        · rintro ⟨_, h2⟩
          refine ⟨hic, fun _ _ => ?_⟩
          omega
        · rintro ⟨_, h2⟩
          refine ⟨hic, ?_⟩
          have := h2 hb.1 hb.2
          omega
      · simp only [hic, true_and, true_iff]
        intro h1 h2
        exact absurd ⟨h1, h2⟩ hb
    · split_ifs <;> simp [hic]
  have hfold : ∀ (l : List ℤ) (c : Finset ℕ), c ⊆ range n → ∀ i,
      i ∈ l.foldl (fun (c : Finset ℕ) (b : ℤ) =>
        if 1 ≤ b ∧ b < n then c \ Ico (max (b - sb) 0).toNat (min (b + sb + 1) n).toNat else c) c ↔
        i ∈ c ∧ ∀ b ∈ l, 1 ≤ b → b < n → ¬ |(i : ℤ) - b| ≤ sb := by
    intro l
    induction l with
    | nil => intro c _ i; simp
    | cons b l ih =>
      intro c hc i
      rw [List.foldl_cons, ih _ (by
        intro j hj
        exact hc ((hdrop c b hc j).mp hj).1), hdrop c b hc]
      simp only [List.mem_cons, forall_eq_or_imp]
      tauto
  unfold candidateBins
  simp only
  rw [hfold, hdrop]
  · simp only [mem_sdiff, mem_range, List.mem_cons, forall_eq_or_imp]
    constructor
    · rintro ⟨⟨⟨h1, h2⟩, h3⟩, h4⟩
      exact ⟨h1, by omega, h3, h4⟩
    · rintro ⟨h1, h2, h3, h4⟩
      exact ⟨⟨⟨h1, by omega⟩, h3⟩, h4⟩
  · exact sdiff_subset
  · intro j hj
    rw [hdrop _ _ sdiff_subset] at hj
    exact sdiff_subset hj.1

private theorem sum_indicator (p : List K) (n : ℕ) (hn : n ≤ p.length) (s : List K) (hl : s.length = n) (c : Finset ℕ)
    (hc : c ⊆ range n) (hs : ∀ i < n, s.getD i 0 = if i ∈ c then p.getD i 0 else 0) :
    s.sum = power (fun i => p.getD i 0) c := by
  rw [list_sum_eq, hl]
  unfold power
  rw [← sum_subset hc]
  · apply sum_congr rfl
    intro i hi
    rw [hs i (mem_range.mp (hc hi)), if_pos hi]
  · intro i hi hni
    rw [hs i (mem_range.mp hi), if_neg hni]

/-- **C37 (method 4).** The two independently coded exclusions agree: the cleared spectrum's sum is the power of the
candidate bins; the result is NaN exactly when no candidate bin is left. -/
theorem C37_wide_exclusion (p : List K) (n M f : ℕ) (hs : List ℤ) (sb : ℕ) (hn : n ≤ p.length) :
    estimateNoisePower p 4 n M f hs sb =
      .ok (if candidateBins n f hs sb = ∅ then none
        else some (max (power (fun i => p.getD i 0) (candidateBins n f hs sb)) (1 / 10 ^ 15))) := by
  have hsum : (excludeBins p f hs sb n).sum = power (fun i => p.getD i 0) (candidateBins n f hs sb) := by
    let clear : List K → ℤ → List K := fun s b =>
      if 1 ≤ b ∧ b < s.length then zeroRange s (max (b - sb) 0).toNat (min (b + sb + 1) s.length).toNat else s
    have hlen1 : ∀ (s : List K) (b : ℤ), (clear s b).length = s.length := by
      intro s b; simp only [clear]; split_ifs <;> simp [zeroRange_length]
    have hlenf : ∀ (l : List ℤ) (s : List K), (l.foldl clear s).length = s.length := by
      intro l
      induction l with
      | nil => intro s; rfl
      | cons b l ih => intro s; rw [List.foldl_cons, ih, hlen1]
    have hget1 : ∀ (s : List K) (b : ℤ), s.length = n → ∀ i < n,
        (clear s b).getD i 0 = if (1 ≤ b → b < n → ¬ |(i : ℤ) - b| ≤ sb) then s.getD i 0 else 0 := by
      intro s b hl i hi
      simp only [clear, hl]
      split_ifs with h1 h2 h2
      · rw [zeroRange_getD, if_neg]
        have := h2 h1.1 h1.2
        rw [abs_le] at this
        omega
      · rw [zeroRange_getD, if_pos]
        push Not at h2
        obtain ⟨_, _, h3⟩ := h2
        rw [abs_le] at h3
        omega
      · rfl
      · exfalso; apply h2; intro ha hb; exact absurd ⟨ha, hb⟩ h1
    have hgetf : ∀ (l : List ℤ) (s : List K), s.length = n → ∀ i < n,
        (l.foldl clear s).getD i 0 = if (∀ b ∈ l, 1 ≤ b → b < n → ¬ |(i : ℤ) - b| ≤ sb) then s.getD i 0 else 0 := by
      intro l
      induction l with
      | nil => intro s _ i _; simp
      | cons b l ih =>
        intro s hl i hi
        rw [List.foldl_cons, ih _ (by rw [hlen1, hl]) i hi, hget1 s b hl i hi]
        simp only [List.mem_cons, forall_eq_or_imp]
        split_ifs <;> first | rfl | tauto
    have h0 : (zeroRange (p.take n) 0 (sb + 1)).length = n := by simp [zeroRange_length, hn]
    apply sum_indicator p n hn
    · show (hs.foldl clear (clear (zeroRange (p.take n) 0 (sb + 1)) f)).length = n
      rw [hlenf, hlen1, h0]
    · intro i hi
      rw [C37_candidate_bins_spec] at hi
      exact mem_range.mpr hi.1
    · intro i hi
      show (hs.foldl clear (clear (zeroRange (p.take n) 0 (sb + 1)) f)).getD i 0 = _
      rw [hgetf hs _ (by rw [hlen1, h0]) i hi, hget1 _ _ h0 i hi, zeroRange_getD, take_getD, if_pos hi]
      have hcs := C37_candidate_bins_spec n f hs sb i
      simp only [List.mem_cons, forall_eq_or_imp] at hcs
      by_cases hc : i ∈ candidateBins n f hs sb
      · rw [if_pos hc]
        obtain ⟨_, h2, h3, h4⟩ := hcs.mp hc
        rw [if_pos h4, if_pos h3, if_neg (by omega)]
      · rw [if_neg hc]
        split_ifs with h4 h3 h5
        · rfl
        · exact absurd (hcs.mpr ⟨hi, by omega, h3, h4⟩) hc
        · rfl
        · rfl
  unfold estimateNoisePower
  rw [if_pos rfl]
  split_ifs with h
  · rfl
  · rw [hsum]; rfl

/-- **C37 (method 3).** The harmonic-excluding estimate sums the noise-and-distortion bins except the harmonics' centre
bins, so for a non-negative spectrum it never exceeds the noise-and-distortion power (SNR ≥ SNDR for this method). -/
theorem C37_exclude_harmonics (p : List K) (hp : NonnegSpec p) (n f : ℕ) (hs : List ℤ) (sb : ℕ) (hn : n ≤ p.length) :
    excludeNoise (clearedInband p n sb (f - sb) (min (f + sb + 1) n)) hs n =
      power (fun i => p.getD i 0) ((nadBins n sb f).filter fun i => (i : ℤ) ∉ hs) ∧
    excludeNoise (clearedInband p n sb (f - sb) (min (f + sb + 1) n)) hs n ≤ power (fun i => p.getD i 0) (nadBins n sb f) := by
  have heq : excludeNoise (clearedInband p n sb (f - sb) (min (f + sb + 1) n)) hs n =
      power (fun i => p.getD i 0) ((nadBins n sb f).filter fun i => (i : ℤ) ∉ hs) := by
    let step : List K → ℤ → List K := fun s h => if 0 ≤ h ∧ h < n then zeroRange s h.toNat (h.toNat + 1) else s
    have hlenf : ∀ (l : List ℤ) (s : List K), (l.foldl step s).length = s.length := by
      intro l
      induction l with
      | nil => intro s; rfl
      | cons b l ih =>
        intro s
        rw [List.foldl_cons, ih]
        simp only [step]
        split_ifs <;> simp [zeroRange_length]
    have hgetf : ∀ (l : List ℤ) (s : List K) (i : ℕ), i < n →
        (l.foldl step s).getD i 0 = if (i : ℤ) ∉ l then s.getD i 0 else 0 := by
      intro l
      induction l with
      | nil => intro s i _; simp
      | cons b l ih =>
        intro s i hi
        rw [List.foldl_cons, ih _ i hi]
        have h1 : (step s b).getD i 0 = if (i : ℤ) = b then 0 else s.getD i 0 := by
          simp only [step]
          by_cases hb : 0 ≤ b ∧ b < n
          · rw [if_pos hb, zeroRange_getD]
            by_cases hib : (i : ℤ) = b
            · rw [if_pos (by omega), if_pos hib]
            · rw [if_neg (by omega), if_neg hib]
          · rw [if_neg hb, if_neg (by omega)]
        rw [h1]
        simp only [List.mem_cons, not_or]
        by_cases h2 : (i : ℤ) = b <;> by_cases h3 : (i : ℤ) ∈ l <;> simp [h2, h3]
    have hlen : (clearedInband p n sb (f - sb) (min (f + sb + 1) n)).length = n := by rw [cleared_length, min_eq_left hn]
    apply sum_indicator p n hn
    · show (hs.foldl step _).length = n
      rw [hlenf, hlen]
    · intro i hi
      rw [mem_filter] at hi
      unfold nadBins at hi
      simp only [mem_sdiff] at hi
      exact hi.1.1.1
    · intro i hi
      show (hs.foldl step _).getD i 0 = _
      rw [hgetf hs _ i hi, cleared_getD]
      have hm : i ∈ nadBins n sb f ↔ (i < n ∧ sb < i ∧ ¬ (f - sb ≤ i ∧ i < min (f + sb + 1) n)) := by
        unfold nadBins dcLobe lobe
        simp only [mem_sdiff, mem_range, mem_Icc]
        omega
      simp only [mem_filter, hm]
      split_ifs <;> first | rfl | tauto
  refine ⟨heq, ?_⟩
  rw [heq]
  unfold power
  apply sum_le_sum_of_subset_of_nonneg (filter_subset _ _)
  intro i _ _
  exact getD_nonneg p hp i

/-! ### Concrete cases -/

example : estimateNoisePower ([9, 1, 1, 50, 1, 4, 1, 1, 1] : List ℚ) 3 9 1 3 [6] 0 = .ok (some 9) := by decide +kernel
example : estimateNoisePower ([9, 1, 1, 50, 1, 4, 1, 1, 1] : List ℚ) 4 9 1 3 [6] 1 = .ok (some 1) := by decide +kernel
example : estimateNoisePower ([9, 1, 1] : List ℚ) 4 3 1 1 [] 1 = .ok none := by decide +kernel
example : estimateNoisePower ([9, 1, 1] : List ℚ) 7 3 1 1 [] 1 = .error .valueError := by decide +kernel

end Verif
