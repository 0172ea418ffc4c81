import Verif.Model.AutoFreq
import Verif.Theorems.EnobSweep
import Verif.Theorems.SineFit

/-!
# C84: the automatic frequency estimate of the weight calibration
-/

namespace Verif.Spec

/-- The same samples with the bit columns in another order: new column `i` is old column `σ[i]`. -/
def reorderBits (σ : List ℕ) (seg : List (List ℝ)) : List (List ℝ) := seg.map fun r => σ.map fun j => r.getD j 0

/-- Number of sample-to-sample changes of bit `j`. -/
def Changes (seg : List (List ℝ)) (j c : ℕ) : Prop :=
  Nat.card {i : ℕ // i + 1 < seg.length ∧ (seg.getD (i + 1) []).getD j 0 ≠ (seg.getD i []).getD j 0} = c

end Verif.Spec

namespace Verif

open Model Spec Finset

theorem toggleCount_changes (seg : List (List ℝ)) (j : ℕ) : Changes seg j (toggleCount seg j) := by
  classical
  unfold Changes toggleCount
  rw [Nat.card_congr (β := {i : ℕ // i ∈ ((List.range (seg.length - 1)).filter fun (i : ℕ) =>
    decide ((seg.getD (i + 1) []).getD j 0 - (seg.getD i []).getD j 0 ≠ 0)).toFinset})
    (Equiv.subtypeEquivRight (by
      intro i
      simp only [List.mem_toFinset, List.mem_filter, List.mem_range, decide_eq_true_eq, sub_ne_zero]
      constructor
      · rintro ⟨h1, h2⟩; exact ⟨by omega, h2⟩
      · rintro ⟨h1, h2⟩; exact ⟨by omega, h2⟩))]
  rw [Nat.card_eq_fintype_card, Fintype.card_coe, List.toFinset_card_of_nodup]
  exact List.Nodup.filter _ List.nodup_range

/-! ## Given frequencies -/

/-- **C84 (given frequency).** As soon as one of the given frequencies is not zero, the data are not used to estimate any: the
calibration is the one at the given frequencies, whatever the automatic estimate would have been. -/
theorem C84_given_frequency (lib : WinLib) (solve : Lstsq) (argsort : List ℕ → List ℕ) (segs : List (List (List ℝ))) (freq : FreqArg)
    (force : Option Bool) (given : Option (List ℝ)) (H : ℕ) (lr reltol : ℝ) (maxIter : ℕ) (h : ∃ f ∈ freq.values, f ≠ 0) (est : List ℝ) :
    calibrateAuto lib solve argsort segs freq force given H lr reltol maxIter = calibrate solve est segs freq force given H lr reltol maxIter := by
  have h' : ¬ ∀ f ∈ freq.values, f = 0 := by push Not; exact h
  have same : ∀ (n : ℕ) (e e' : List ℝ), estimateFrequencies n e freq = estimateFrequencies n e' freq := by
    intro n e e'
    cases freq with
    | auto => simp [FreqArg.values] at h
    | scalar f =>
      have : f ≠ 0 := by simpa [FreqArg.values] using h
      simp [estimateFrequencies, this]
    | list fs =>
      have : ¬ ∀ f ∈ fs, f = 0 := h'
      simp only [estimateFrequencies]
      rw [if_neg this, if_neg this]
  have same' : ∀ e, calibrate solve e segs freq force given H lr reltol maxIter = calibrate solve est segs freq force given H lr reltol maxIter := by
    intro e
    unfold calibrate
    split
    · rfl
    · split
      · rfl
      · simp only
        rw [same _ e est]
  unfold calibrateAuto
  by_cases h1 : ∃ f ∈ freq.values, 1 / 2 < f
  · rw [if_pos h1]
    unfold calibrate
    rw [if_pos h1]
  · rw [if_neg h1]
    cases hp : prepareInput segs given with
    | error e =>
      unfold calibrate
      rw [if_neg h1, hp]
    | ok p =>
      obtain ⟨segs', width, nominal⟩ := p
      simp only
      unfold frequenciesInUse
      rw [if_neg h']
      cases hf : estimateFrequencies segs'.length [] freq with
      | error e =>
        unfold calibrate
        rw [if_neg h1, hp]
        simp only
        rw [same _ est [], List.length_map, hf]
      | ok fa => exact same' fa

/-! ## The estimate -/

theorem segmentEstimate_range (lib : WinLib) (solve : Lstsq) (argsort : List ℕ → List ℕ) (width : ℕ) (seg : List (List ℝ)) (f : ℝ)
    (h : segmentEstimate lib solve argsort width seg = .ok f) : 0 < f ∧ f < 1 / 2 := by
  unfold segmentEstimate at h
  simp only at h
  split at h
  · cases h
  split at h
  · cases h
  split at h
  · cases h
  unfold estimateFrequency at h
  split at h
  · cases h
  · rename_i r hr
    injection h with h
    have := (C58_iteration_control solve _ _ none 1 _ r (by exact_mod_cast hr)).2.2.1 (by norm_num)
    rw [← h, mul_one]
    exact ⟨this.2.1, this.2.2.1⟩

theorem autoFrequencies_ok (lib : WinLib) (solve : Lstsq) (argsort : List ℕ → List ℕ) (width : ℕ) (segs : List (List (List ℝ))) (fs : List ℝ) :
    autoFrequencies lib solve argsort width segs = .ok fs ↔
      fs.length = segs.length ∧ ∀ k < segs.length, segmentEstimate lib solve argsort width (segs.getD k []) = .ok (fs.getD k 0) := by
  induction segs generalizing fs with
  | nil =>
    constructor
    · intro h; simp only [autoFrequencies] at h; injection h with h; subst h; simp
    · rintro ⟨h, _⟩; rw [List.length_nil, List.length_eq_zero_iff] at h; subst h; rfl
  | cons s ss ih =>
    unfold autoFrequencies
    constructor
    · intro h
      cases hs : segmentEstimate lib solve argsort width s with
      | error e => rw [hs] at h; cases h
      | ok f =>
        rw [hs] at h
        simp only at h
        cases hr : autoFrequencies lib solve argsort width ss with
        | error e => rw [hr] at h; cases h
        | ok gs =>
          rw [hr] at h
          simp only at h
          injection h with h
          subst h
          obtain ⟨h1, h2⟩ := (ih gs).mp hr
          refine ⟨by simp [h1], ?_⟩
          intro k hk
          cases k with
          | zero => simpa using hs
          | succ k => simpa using h2 k (by simpa using hk)
    · rintro ⟨h1, h2⟩
      obtain ⟨f, gs, rfl⟩ := List.exists_cons_of_length_eq_add_one h1
      have a := h2 0 (by simp)
      simp only [List.getD_cons_zero] at a
      rw [a]
      simp only
      rw [(ih gs).mpr ⟨by simpa using h1, fun k hk => by simpa using h2 (k + 1) (by simpa using hk)⟩]

/-- **C84 (range).** Every automatic estimate lies strictly between zero and half the sampling rate, and there is one per dataset. -/
theorem C84_range (lib : WinLib) (solve : Lstsq) (argsort : List ℕ → List ℕ) (width : ℕ) (segs : List (List (List ℝ))) (freq : FreqArg)
    (fs : List ℝ) (h0 : ∀ f ∈ freq.values, f = 0) (h : frequenciesInUse lib solve argsort width segs freq = .ok fs) :
    fs.length = segs.length ∧ ∀ f ∈ fs, 0 < f ∧ f < 1 / 2 := by
  unfold frequenciesInUse at h
  rw [if_pos h0, autoFrequencies_ok] at h
  refine ⟨h.1, ?_⟩
  intro f hf
  obtain ⟨k, hk, rfl⟩ := List.mem_iff_getElem.mp hf
  have := h.2 k (by rw [← h.1]; exact hk)
  rw [List.getD_eq_getElem?_getD (l := fs), List.getElem?_eq_getElem hk] at this
  exact segmentEstimate_range _ _ _ _ _ _ this

/-- **C84 (datasets are independent).** The estimate of each dataset is the one it would get if it were calibrated alone. -/
theorem C84_datasets_independent (lib : WinLib) (solve : Lstsq) (argsort : List ℕ → List ℕ) (width : ℕ) (segs : List (List (List ℝ))) (fs : List ℝ) :
    frequenciesInUse lib solve argsort width segs .auto = .ok fs ↔
      fs.length = segs.length ∧ ∀ k < segs.length, frequenciesInUse lib solve argsort width [segs.getD k []] .auto = .ok [fs.getD k 0] := by
  have e : ∀ l, frequenciesInUse lib solve argsort width l .auto = autoFrequencies lib solve argsort width l := by
    intro l; unfold frequenciesInUse; rw [if_pos (by simp [FreqArg.values])]
  simp only [e]
  rw [autoFrequencies_ok]
  apply and_congr_right
  intro _
  apply forall₂_congr
  intro k _
  rw [autoFrequencies_ok]
  simp

/-- **C84 (when it works).** With at least one bit column, the estimate of a dataset succeeds exactly when it has at least two samples;
otherwise it raises `ValueError`. -/
theorem C84_succeeds (lib : WinLib) (solve : Lstsq) (argsort : List ℕ → List ℕ) (width : ℕ) (hw : 0 < width) (seg : List (List ℝ)) (hne : seg ≠ []) :
    (2 ≤ seg.length → ∃ f, frequenciesInUse lib solve argsort width [seg] .auto = .ok [f]) ∧
    (seg.length < 2 → frequenciesInUse lib solve argsort width [seg] .auto = .error .valueError) := by
  have e : frequenciesInUse lib solve argsort width [seg] .auto = autoFrequencies lib solve argsort width [seg] := by
    unfold frequenciesInUse; rw [if_pos (by simp [FreqArg.values])]
  rw [e]
  unfold autoFrequencies segmentEstimate
  simp only
  obtain ⟨rA, hA⟩ := computeSpectrum_one_total lib (assumedSignal seg ((argsort ((List.range width).map (toggleCount seg))).take (min 6 width)))
    (by unfold assumedSignal; simpa using hne) 1 one_pos "hann"
  obtain ⟨rB, hB⟩ := computeSpectrum_one_total lib (assumedSignal seg ((argsort ((List.range width).map (toggleCount seg))).reverse.take (min 6 width)))
    (by unfold assumedSignal; simpa using hne) 1 one_pos "hann"
  rw [hA, hB]
  simp only
  rw [if_neg hw.ne']
  generalize hz : (if rB.sndr ≤ rA.sndr then _ else _ : List ℝ) = z
  have hl : z.length = seg.length := by
    rw [← hz]; split_ifs <;> simp [assumedSignal]
  unfold estimateFrequency fitCore
  simp only
  rw [hl]
  constructor
  · intro h2
    obtain ⟨f, hf, _⟩ := (C58_estimate seg.length fun t => z.getD t 0).2 h2
    rw [hf]
    exact ⟨_, rfl⟩
  · intro h2
    rw [(C58_estimate seg.length fun t => z.getD t 0).1 h2]

/-! ## Bit order -/

theorem reorder_getD (σ : List ℕ) (seg : List (List ℝ)) (i j : ℕ) (hi : i < seg.length) (hj : j < σ.length) :
    ((reorderBits σ seg).getD i []).getD j 0 = (seg.getD i []).getD (σ.getD j 0) 0 := by
  unfold reorderBits
  rw [List.getD_eq_getElem?_getD (l := seg.map _), List.getElem?_map, List.getElem?_eq_getElem hi]
  simp only [Option.map_some, Option.getD_some]
  rw [List.getD_eq_getElem?_getD (l := σ.map _), List.getElem?_map, List.getElem?_eq_getElem hj]
  simp only [Option.map_some, Option.getD_some]
  rw [List.getD_eq_getElem?_getD (l := seg), List.getElem?_eq_getElem hi, List.getD_eq_getElem?_getD (l := σ), List.getElem?_eq_getElem hj]
  rfl

theorem toggle_reorder (σ : List ℕ) (seg : List (List ℝ)) (j : ℕ) (hj : j < σ.length) :
    toggleCount (reorderBits σ seg) j = toggleCount seg (σ.getD j 0) := by
  unfold toggleCount
  have hl : (reorderBits σ seg).length = seg.length := by simp [reorderBits]
  rw [hl]
  congr 1
  apply List.filter_congr
  intro i hi
  rw [List.mem_range] at hi
  rw [reorder_getD σ seg _ j (by omega) hj, reorder_getD σ seg _ j (by omega) hj]

theorem assumed_reorder (σ : List ℕ) (seg : List (List ℝ)) (idx : List ℕ) (h : ∀ i ∈ idx, i < σ.length) :
    assumedSignal (reorderBits σ seg) idx = assumedSignal seg (idx.map fun i => σ.getD i 0) := by
  unfold assumedSignal reorderBits
  rw [List.map_map, List.length_map]
  apply List.map_congr_left
  intro r _
  simp only [Function.comp]
  congr 1
  apply List.map_congr_left
  intro i hi
  rw [List.mem_range] at hi
  have h1 : idx.getD i 0 = idx[i] := by rw [List.getD_eq_getElem?_getD, List.getElem?_eq_getElem hi]; rfl
  have h2 : (idx.map fun i => σ.getD i 0).getD i 0 = σ.getD idx[i] 0 := by
    rw [List.getD_eq_getElem?_getD, List.getElem?_map, List.getElem?_eq_getElem hi]; rfl
  have h3 := h _ (List.getElem_mem hi)
  rw [h1, h2, List.getD_eq_getElem?_getD (l := σ.map _), List.getElem?_map, List.getElem?_eq_getElem h3,
    List.getD_eq_getElem?_getD (l := σ), List.getElem?_eq_getElem h3]
  rfl

theorem map_getD_range (σ : List ℕ) : (List.range σ.length).map (fun i => σ.getD i 0) = σ := by
  apply List.ext_getElem?
  intro i
  rw [List.getElem?_map]
  by_cases h : i < σ.length
  · rw [List.getElem?_range h, List.getElem?_eq_getElem h, Option.map_some, List.getD_eq_getElem?_getD, List.getElem?_eq_getElem h]; rfl
  · rw [List.getElem?_eq_none (by simpa using h), List.getElem?_eq_none (by simpa using h)]; rfl

/-- **C84 (bit order).** If no two bits change equally often, the estimate does not depend on the order of the bit columns (MSB first, LSB
first or shuffled). -/
theorem C84_bit_order (lib : WinLib) (solve : Lstsq) (argsort : List ℕ → List ℕ) (ha : IsArgsort argsort) (width : ℕ) (σ : List ℕ)
    (hσ : σ.Perm (List.range width)) (seg : List (List ℝ))
    (hdist : ∀ i < width, ∀ j < width, ∀ c, Changes seg i c → Changes seg j c → i = j) :
    frequenciesInUse lib solve argsort width [reorderBits σ seg] .auto = frequenciesInUse lib solve argsort width [seg] .auto := by
  have hlen : σ.length = width := by simpa using hσ.length_eq
  have hmem : ∀ i < width, σ.getD i 0 < width := by
    intro i hi
    rw [List.getD_eq_getElem?_getD, List.getElem?_eq_getElem (by omega)]
    exact List.mem_range.mp (hσ.mem_iff.mp (List.getElem_mem (by omega)))
  obtain ⟨p1, s1⟩ := ha ((List.range width).map (toggleCount seg))
  obtain ⟨p2, s2⟩ := ha ((List.range width).map (toggleCount (reorderBits σ seg)))
  rw [List.length_map, List.length_range] at p1 p2
  have hval : ∀ (g : ℕ → ℕ) (i : ℕ), i < width → ((List.range width).map g).getD i 0 = g i := by
    intro g i hi
    rw [List.getD_eq_getElem?_getD, List.getElem?_map, List.getElem?_range hi]; rfl
  set A := argsort ((List.range width).map (toggleCount seg)) with hA
  set B := argsort ((List.range width).map (toggleCount (reorderBits σ seg))) with hB
  have mA : ∀ i ∈ A, i < width := fun i hi => List.mem_range.mp (p1.mem_iff.mp hi)
  have mB : ∀ i ∈ B, i < width := fun i hi => List.mem_range.mp (p2.mem_iff.mp hi)
  have key : B.map (fun i => σ.getD i 0) = A := by
    apply List.Perm.eq_of_pairwise (le := fun i j => toggleCount seg i ≤ toggleCount seg j)
    · intro a b h1 h2 h3 h4
      obtain ⟨b', hb', rfl⟩ := List.mem_map.mp h1
      exact hdist _ (hmem _ (mB _ hb')) _ (mA _ h2) _ (toggleCount_changes seg _) (by rw [le_antisymm h3 h4]; exact toggleCount_changes seg _)
    · rw [List.pairwise_map]
      refine s2.imp_of_mem ?_
      intro a b h1 h2 h3
      rw [hval _ _ (mB _ h1), hval _ _ (mB _ h2), toggle_reorder σ seg _ (by rw [hlen]; exact mB _ h1),
        toggle_reorder σ seg _ (by rw [hlen]; exact mB _ h2)] at h3
      exact h3
    · refine s1.imp_of_mem ?_
      intro a b h1 h2 h3
      rwa [hval _ _ (mA _ h1), hval _ _ (mA _ h2)] at h3
    · have : (B.map fun i => σ.getD i 0).Perm σ := by
        have := p2.map fun i => σ.getD i 0
        rwa [← hlen, map_getD_range] at this
      exact this.trans (hσ.trans p1.symm)
  have e1 : assumedSignal (reorderBits σ seg) (B.take (min 6 width)) = assumedSignal seg (A.take (min 6 width)) := by
    rw [assumed_reorder σ seg _ fun i hi => by rw [hlen]; exact mB i (List.mem_of_mem_take hi), List.map_take, key]
  have e2 : assumedSignal (reorderBits σ seg) (B.reverse.take (min 6 width)) = assumedSignal seg (A.reverse.take (min 6 width)) := by
    rw [assumed_reorder σ seg _ fun i hi => by rw [hlen]; exact mB i (List.mem_reverse.mp (List.mem_of_mem_take hi)), List.map_take, List.map_reverse, key]
  have e : segmentEstimate lib solve argsort width (reorderBits σ seg) = segmentEstimate lib solve argsort width seg := by
    unfold segmentEstimate
    simp only
    rw [← hA, ← hB, e1, e2]
  unfold frequenciesInUse
  rw [if_pos (by simp [FreqArg.values]), if_pos (by simp [FreqArg.values])]
  unfold autoFrequencies
  rw [e]

/-! ## Exactness -/

theorem assumed_sine (seg : List (List ℝ)) (width : ℕ) (f θ : ℝ) (a c : ℕ → ℝ) (ha : ∀ j < width, 0 < a j)
    (hcol : ∀ t < seg.length, ∀ j < width, (seg.getD t []).getD j 0 = sineAt (a j) f θ (c j) t) (idx : List ℕ) (hne : idx ≠ [])
    (hi : ∀ i ∈ idx, i < width) : ∃ A C, 0 < A ∧ ∀ t < seg.length, (assumedSignal seg idx).getD t 0 = sineAt A f θ C t := by
  have hmem : ∀ i < idx.length, idx.getD i 0 < width := by
    intro i h
    rw [List.getD_eq_getElem?_getD, List.getElem?_eq_getElem h]
    exact hi _ (List.getElem_mem h)
  refine ⟨∑ i ∈ range idx.length, a (idx.getD i 0) * (2 : ℝ) ^ (idx.length - 1 - i), ∑ i ∈ range idx.length, c (idx.getD i 0) * (2 : ℝ) ^ (idx.length - 1 - i), ?_, ?_⟩
  · apply sum_pos
    · intro i h
      exact mul_pos (ha _ (hmem i (mem_range.mp h))) (by positivity)
    · rw [nonempty_range_iff]; simpa using hne
  · intro t ht
    unfold assumedSignal
    rw [List.getD_eq_getElem?_getD, List.getElem?_map, List.getElem?_eq_getElem ht]
    simp only [Option.map_some, Option.getD_some]
    rw [sum_range_list]
    unfold sineAt
    rw [sum_mul, ← sum_add_distrib]
    apply sum_congr rfl
    intro i h
    have := hcol t ht _ (hmem i (mem_range.mp h))
    rw [List.getD_eq_getElem?_getD (l := seg), List.getElem?_eq_getElem ht, Option.getD_some] at this
    rw [this]
    unfold sineAt
    ring

/-- **C84 (exactness).** If every bit column is itself a sampled sine of bin `k` (an in-phase one, with its own amplitude and offset), the
estimate is exactly `k / n`. -/
theorem C84_exact (lib : WinLib) (solve : Lstsq) (hs : IsLstsq solve) (argsort : List ℕ → List ℕ) (hsort : IsArgsort argsort) (width : ℕ)
    (hw : 0 < width) (seg : List (List ℝ)) (k : ℕ) (hn : 5 ≤ seg.length) (hbig : seg.length ≤ 10 ^ 9) (hk : 0 < k) (hlast : k < seg.length / 2)
    (θ : ℝ) (ht0 : -Real.pi < θ) (ht1 : θ ≤ Real.pi) (a c : ℕ → ℝ) (ha : ∀ j < width, 0 < a j)
    (hcol : ∀ t < seg.length, ∀ j < width, (seg.getD t []).getD j 0 = sineAt (a j) ((k : ℝ) / seg.length) θ (c j) t) :
    frequenciesInUse lib solve argsort width [seg] .auto = .ok [(k : ℝ) / seg.length] := by
  have hne : seg ≠ [] := by rintro rfl; simp at hn
  unfold frequenciesInUse
  rw [if_pos (by simp [FreqArg.values])]
  unfold autoFrequencies segmentEstimate
  simp only
  obtain ⟨p1, _⟩ := hsort ((List.range width).map (toggleCount seg))
  rw [List.length_map, List.length_range] at p1
  set S := argsort ((List.range width).map (toggleCount seg))
  have mS : ∀ i ∈ S, i < width := fun i hi => List.mem_range.mp (p1.mem_iff.mp hi)
  have lS : S.length = width := by simpa using p1.length_eq
  obtain ⟨rA, hA⟩ := computeSpectrum_one_total lib (assumedSignal seg (S.take (min 6 width)))
    (by unfold assumedSignal; simpa using hne) 1 one_pos "hann"
  obtain ⟨rB, hB⟩ := computeSpectrum_one_total lib (assumedSignal seg (S.reverse.take (min 6 width)))
    (by unfold assumedSignal; simpa using hne) 1 one_pos "hann"
  rw [hA, hB]
  simp only
  rw [if_neg hw.ne']
  generalize hz : (if rB.sndr ≤ rA.sndr then _ else _ : List ℝ) = z
  have hl : z.length = seg.length := by
    rw [← hz]; split_ifs <;> simp [assumedSignal]
  have hzs : ∃ A C, 0 < A ∧ ∀ t < seg.length, z.getD t 0 = sineAt A ((k : ℝ) / seg.length) θ C t := by
    rw [← hz]
    split_ifs
    · apply assumed_sine seg width _ θ a c ha hcol
      · rw [Ne, ← List.length_eq_zero_iff, List.length_take, lS]; omega
      · exact fun i hi => mS i (List.mem_of_mem_take hi)
    · apply assumed_sine seg width _ θ a c ha hcol
      · rw [Ne, ← List.length_eq_zero_iff, List.length_take, List.length_reverse, lS]; omega
      · exact fun i hi => mS i (List.mem_reverse.mp (List.mem_of_mem_take hi))
  obtain ⟨A, C, hA0, hsin⟩ := hzs
  rw [hl, C58_estimate_frequency solve hs seg.length k hn hbig hk hlast A θ C hA0 ht0 ht1 1 _ hsin]
  simp [autoFrequencies]

/-! ## Inside the calibration -/

/-- **C84 (zero means automatic).** A given frequency of zero, or a list of zeros of any length, is the same as no frequency. -/
theorem C84_zero_is_automatic (lib : WinLib) (solve : Lstsq) (argsort : List ℕ → List ℕ) (segs : List (List (List ℝ))) (freq : FreqArg)
    (force : Option Bool) (given : Option (List ℝ)) (H : ℕ) (lr reltol : ℝ) (maxIter : ℕ) (h : ∀ f ∈ freq.values, f = 0) :
    calibrateAuto lib solve argsort segs freq force given H lr reltol maxIter
      = calibrateAuto lib solve argsort segs .auto force given H lr reltol maxIter := by
  have h1 : ¬ ∃ f ∈ freq.values, (1 : ℝ) / 2 < f := by
    rintro ⟨f, hf, hf'⟩
    rw [h f hf] at hf'
    norm_num at hf'
  have h2 : ¬ ∃ f ∈ FreqArg.auto.values, (1 : ℝ) / 2 < f := by simp [FreqArg.values]
  have h3 : ∀ f ∈ FreqArg.auto.values, f = 0 := by simp [FreqArg.values]
  have he : ∀ n est, estimateFrequencies n est freq = .ok est := by
    intro n est
    cases freq with
    | auto => rfl
    | scalar f => simp only [estimateFrequencies]; rw [if_pos (by simpa [FreqArg.values] using h)]
    | list fs => simp only [estimateFrequencies]; rw [if_pos (by simpa [FreqArg.values] using h)]
  have hw : ∀ fa, searchWanted force freq.values fa = searchWanted force FreqArg.auto.values fa := by
    intro fa
    unfold searchWanted
    rw [decide_eq_true h, decide_eq_true h3]
  have hc : ∀ est, calibrate solve est segs freq force given H lr reltol maxIter = calibrate solve est segs .auto force given H lr reltol maxIter := by
    intro est
    unfold calibrate
    rw [if_neg h1, if_neg h2]
    simp only [he, hw]
    rfl
  unfold calibrateAuto frequenciesInUse
  rw [if_neg h1, if_neg h2]
  simp only [if_pos h, if_pos h3, hc]

/-- **C84 (calibration from the estimate).** A calibration without a given frequency succeeds only from starting frequencies, one per
dataset, strictly between zero and half the sampling rate, each of which is the estimate of that dataset alone; it is then the
calibration started there. -/
theorem C84_calibration_from_estimate (lib : WinLib) (solve : Lstsq) (argsort : List ℕ → List ℕ) (segs : List (List (List ℝ)))
    (force : Option Bool) (given : Option (List ℝ)) (H : ℕ) (lr reltol : ℝ) (maxIter : ℕ) (r : CalResult)
    (h : calibrateAuto lib solve argsort segs .auto force given H lr reltol maxIter = .ok r) :
    ∃ segs' width nominal fs, prepareInput segs given = .ok (segs', width, nominal) ∧ fs.length = segs'.length ∧ (∀ f ∈ fs, 0 < f ∧ f < 1 / 2) ∧
      (∀ k < segs'.length, frequenciesInUse lib solve argsort width [segs'.getD k []] .auto = .ok [fs.getD k 0]) ∧
      calibrate solve fs segs .auto force given H lr reltol maxIter = .ok r := by
  unfold calibrateAuto at h
  rw [if_neg (by simp [FreqArg.values])] at h
  cases hp : prepareInput segs given with
  | error e => rw [hp] at h; cases h
  | ok p =>
    obtain ⟨segs', width, nominal⟩ := p
    rw [hp] at h
    simp only at h
    cases hf : frequenciesInUse lib solve argsort width segs' .auto with
    | error e => rw [hf] at h; cases h
    | ok fs =>
      rw [hf] at h
      simp only at h
      have hr := C84_range lib solve argsort width segs' .auto fs (by simp [FreqArg.values]) hf
      exact ⟨segs', width, nominal, fs, rfl, hr.1, hr.2, ((C84_datasets_independent lib solve argsort width segs' fs).mp hf).2, h⟩

/-! ## Concrete cases -/

theorem changes_iff (seg : List (List ℝ)) (j c : ℕ) : Changes seg j c ↔ toggleCount seg j = c :=
  ⟨fun h => by have := toggleCount_changes seg j; unfold Changes at this h; rw [← this, h], fun h => h ▸ toggleCount_changes seg j⟩

/-- A two-bit ramp up and down: the slow bit changes once, the fast bit three times; the two orders give the same estimate. -/
example (lib : WinLib) (solve : Lstsq) (argsort : List ℕ → List ℕ) (ha : IsArgsort argsort) :
    frequenciesInUse lib solve argsort 2 [[[0, 0], [1, 0], [0, 1], [1, 1]]] .auto
      = frequenciesInUse lib solve argsort 2 [[[0, 0], [0, 1], [1, 0], [1, 1]]] .auto := by
  have h := C84_bit_order lib solve argsort ha 2 [1, 0] (by decide) [[0, 0], [0, 1], [1, 0], [1, 1]] (by
    have h0 : toggleCount [[0, 0], [0, 1], [1, 0], [1, 1]] 0 = 1 := by simp [toggleCount, List.range_succ]
    have h1 : toggleCount [[0, 0], [0, 1], [1, 0], [1, 1]] 1 = 3 := by simp [toggleCount, List.range_succ]
    intro i hi j hj c hci hcj
    rw [changes_iff] at hci hcj
    interval_cases i <;> interval_cases j <;> simp_all)
  simpa [reorderBits] using h

/-- A one-bit clock at a quarter of the sampling rate is a sampled sine; its frequency is found exactly. -/
example (lib : WinLib) (solve : Lstsq) (hs : IsLstsq solve) (argsort : List ℕ → List ℕ) (ha : IsArgsort argsort) :
    frequenciesInUse lib solve argsort 1 [[[1], [1], [0], [0], [1], [1], [0], [0]]] .auto = .ok [1 / 4] := by
  have h := C84_exact lib solve hs argsort ha 1 one_pos [[1], [1], [0], [0], [1], [1], [0], [0]] 2 (by simp) (by norm_num) (by norm_num) (by norm_num)
    (-(Real.pi / 4)) (by linarith [Real.pi_pos]) (by linarith [Real.pi_pos]) (fun _ => Real.sqrt 2 / 2) (fun _ => 1 / 2)
    (fun _ _ => by positivity) (by
      intro t ht j hj
      have hj0 : j = 0 := by omega
      subst hj0
      have s2 : Real.sqrt 2 * Real.sqrt 2 = 2 := Real.mul_self_sqrt (by norm_num)
      have c1 : Real.cos (-(Real.pi / 4)) = Real.sqrt 2 / 2 := by rw [Real.cos_neg, Real.cos_pi_div_four]
      have c2 : Real.cos (Real.pi / 4) = Real.sqrt 2 / 2 := Real.cos_pi_div_four
      have per : ∀ x : ℝ, Real.cos (x + Real.pi) = -Real.cos x := Real.cos_add_pi
      have per2 : ∀ x : ℝ, Real.cos (x + 2 * Real.pi) = Real.cos x := Real.cos_add_two_pi
      simp only [List.length_cons, List.length_nil] at ht
      unfold sineAt
      have e0 : 2 * Real.pi * (((2 : ℕ) : ℝ) / (([[1], [1], [0], [0], [1], [1], [0], [0]] : List (List ℝ)).length : ℕ)) = Real.pi / 2 := by
        simp only [List.length_cons, List.length_nil]; push_cast; ring
      rw [e0]
      have a0 : Real.cos (Real.pi / 2 * ((0 : ℕ) : ℝ) + -(Real.pi / 4)) = Real.sqrt 2 / 2 := by rw [← c1]; congr 1; push_cast; ring
      have a1 : Real.cos (Real.pi / 2 * ((1 : ℕ) : ℝ) + -(Real.pi / 4)) = Real.sqrt 2 / 2 := by rw [← c2]; congr 1; push_cast; ring
      have a2 : Real.cos (Real.pi / 2 * ((2 : ℕ) : ℝ) + -(Real.pi / 4)) = -(Real.sqrt 2 / 2) := by rw [← c1, ← per]; congr 1; push_cast; ring
      have a3 : Real.cos (Real.pi / 2 * ((3 : ℕ) : ℝ) + -(Real.pi / 4)) = -(Real.sqrt 2 / 2) := by rw [← c2, ← per]; congr 1; push_cast; ring
      have a4 : Real.cos (Real.pi / 2 * ((4 : ℕ) : ℝ) + -(Real.pi / 4)) = Real.sqrt 2 / 2 := by rw [← c1, ← per2 (-(Real.pi / 4))]; congr 1; push_cast; ring
      have a5 : Real.cos (Real.pi / 2 * ((5 : ℕ) : ℝ) + -(Real.pi / 4)) = Real.sqrt 2 / 2 := by rw [← c2, ← per2 (Real.pi / 4)]; congr 1; push_cast; ring
      have a6 : Real.cos (Real.pi / 2 * ((6 : ℕ) : ℝ) + -(Real.pi / 4)) = -(Real.sqrt 2 / 2) := by rw [← c1, ← per, ← per2 (-(Real.pi / 4) + Real.pi)]; congr 1; push_cast; ring
      have a7 : Real.cos (Real.pi / 2 * ((7 : ℕ) : ℝ) + -(Real.pi / 4)) = -(Real.sqrt 2 / 2) := by rw [← c2, ← per, ← per2 (Real.pi / 4 + Real.pi)]; congr 1; push_cast; ring
      interval_cases t <;> simp only [a0, a1, a2, a3, a4, a5, a6, a7, List.getD_cons_zero, List.getD_cons_succ] <;> nlinarith [s2])
  rw [h]
  norm_num

/-- Two datasets, a given frequency of zero for both: the automatic one. -/
example (lib : WinLib) (solve : Lstsq) (argsort : List ℕ → List ℕ) (s1 s2 : List (List ℝ)) :
    calibrateAuto lib solve argsort [s1, s2] (.list [0, 0]) none none 1 (1 / 2) (1 / 10 ^ 12) 100
      = calibrateAuto lib solve argsort [s1, s2] .auto none none 1 (1 / 2) (1 / 10 ^ 12) 100 :=
  C84_zero_is_automatic lib solve argsort [s1, s2] (.list [0, 0]) none none 1 _ _ _ (by simp [FreqArg.values])

end Verif
