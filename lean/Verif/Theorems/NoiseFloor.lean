import Verif.Theorems.Noise
import Mathlib.Probability.Distributions.Gamma
import Mathlib.Analysis.SpecialFunctions.Integrals.Basic
import Mathlib.Analysis.Complex.ExponentialBounds
import Mathlib.Algebra.Order.Floor.Semifield
import Mathlib.Data.List.GetD

/-!
# C37: what the median and trimmed-mean noise estimates say
-/

namespace Verif.Spec

open Finset

variable {K : Type} [Field K] [LinearOrder K]

/-- Noise bins that enter the median and the trimmed mean: in band, outside the DC and signal lobes, not (numerically) zero. -/
def floorBins (p : ℕ → K) (nInband sideBin fund : ℕ) : Finset ℕ := (nadBins nInband sideBin fund).filter fun i => 1 / 10 ^ 20 < |p i|

/-- The ratio of median and mean that the median estimate assumes for `M` averaged runs. -/
def medianRatio (M : ℕ) : K := if M = 1 then 72 / 100 else (1 - 2 / (9 * (M : K))) ^ 3

end Verif.Spec

namespace Verif

open Model Spec Finset

variable {K : Type} [Field K] [LinearOrder K] [IsStrictOrderedRing K] [FloorRing K]

theorem sort_le_of_count (s : List K) (k : ℕ) (hk : k < s.length) (u : K) (hc : (s.filter fun x => decide (u < x)).length + k < s.length) :
    (sortAsc s).getD k 0 ≤ u := by
  by_contra hcon
  push Not at hcon
  have hl : (sortAsc s).length = s.length := sortAsc_length s
  have hall : ∀ x ∈ (sortAsc s).drop k, decide (u < x) = true := by
    intro x hx
    obtain ⟨j, hj, rfl⟩ := List.getElem_of_mem hx
    rw [List.getElem_drop, decide_eq_true_eq]
    rw [List.length_drop] at hj
    refine lt_of_lt_of_le hcon ?_
    rw [List.getD_eq_getElem _ _ (by omega)]
    rcases Nat.eq_zero_or_pos j with h | h
    · subst h; exact le_of_eq (by simp)
    · exact List.pairwise_iff_getElem.mp (sortAsc_sorted s) k (k + j) (by omega) (by omega) (by omega)
  have h1 : ((sortAsc s).filter fun x => decide (u < x)).length = (s.filter fun x => decide (u < x)).length := ((sortAsc_perm s).filter _).length_eq
  have h2 : ((sortAsc s).drop k).length ≤ ((sortAsc s).filter fun x => decide (u < x)).length := by
    conv_rhs => rw [← List.take_append_drop k (sortAsc s)]
    rw [List.filter_append, List.length_append, List.filter_eq_self.mpr hall]
    omega
  rw [List.length_drop] at h2
  omega

theorem le_sort_of_count (s : List K) (k : ℕ) (hk : k < s.length) (u : K) (hc : (s.filter fun x => decide (x < u)).length ≤ k) :
    u ≤ (sortAsc s).getD k 0 := by
  by_contra hcon
  push Not at hcon
  have hl : (sortAsc s).length = s.length := sortAsc_length s
  have hall : ∀ x ∈ (sortAsc s).take (k + 1), decide (x < u) = true := by
    intro x hx
    obtain ⟨j, hj, rfl⟩ := List.getElem_of_mem hx
    rw [List.getElem_take, decide_eq_true_eq]
    rw [List.length_take] at hj
    refine lt_of_le_of_lt ?_ hcon
    rw [List.getD_eq_getElem _ _ (by omega)]
    rcases Nat.lt_or_ge j k with h | h
    · exact List.pairwise_iff_getElem.mp (sortAsc_sorted s) j k (by omega) (by omega) h
    · have : j = k := by omega
      subst this; exact le_rfl
  have h1 : ((sortAsc s).filter fun x => decide (x < u)).length = (s.filter fun x => decide (x < u)).length := ((sortAsc_perm s).filter _).length_eq
  have h2 : ((sortAsc s).take (k + 1)).length ≤ ((sortAsc s).filter fun x => decide (x < u)).length := by
    conv_rhs => rw [← List.take_append_drop (k + 1) (sortAsc s)]
    rw [List.filter_append, List.length_append, List.filter_eq_self.mpr hall]
    omega
  rw [List.length_take] at h2
  omega

theorem median_le_of_count (s : List K) (hs : s ≠ []) (u : K) (hc : 2 * (s.filter fun x => decide (u < x)).length < s.length) : median s ≤ u := by
  have hpos : 0 < s.length := List.length_pos_iff.mpr hs
  unfold median
  simp only
  split_ifs with h
  · exact sort_le_of_count s _ (by omega) u (by omega)
  · have h1 := sort_le_of_count s (s.length / 2 - 1) (by omega) u (by omega)
    have h2 := sort_le_of_count s (s.length / 2) (by omega) u (by omega)
    linarith

theorem le_median_of_count (s : List K) (hs : s ≠ []) (u : K) (hc : 2 * (s.filter fun x => decide (x < u)).length < s.length) : u ≤ median s := by
  have hpos : 0 < s.length := List.length_pos_iff.mpr hs
  unfold median
  simp only
  split_ifs with h
  · exact le_sort_of_count s _ (by omega) u (by omega)
  · have h1 := le_sort_of_count s (s.length / 2 - 1) (by omega) u (by omega)
    have h2 := le_sort_of_count s (s.length / 2) (by omega) u (by omega)
    linarith

/-- Counting entries of the cleared in-band spectrum. -/
theorem cleared_count (p : List K) (n sb f : ℕ) (hn : n ≤ p.length) (P : K → Bool) (h0 : P 0 = false) :
    ((clearedInband p n sb (f - sb) (min (f + sb + 1) n)).filter P).length = ((nadBins n sb f).filter fun i => P (p.getD i 0) = true).card := by
  set c := clearedInband p n sb (f - sb) (min (f + sb + 1) n) with hc
  have hcl : c.length = n := by rw [hc, cleared_length, min_eq_left hn]
  have hmap : c = (List.range n).map fun (i : ℕ) => c.getD i 0 := by
    apply List.ext_getElem
    · simp [hcl]
    · intro i h1 h2
      rw [List.getElem_map, List.getElem_range, List.getD_eq_getElem _ _ h1]
  rw [hmap, List.filter_map, List.length_map]
  have hcard : ∀ (Q : ℕ → Bool) (m : ℕ), ((List.range m).filter Q).length = ((range m).filter fun i => Q i = true).card := by
    intro Q m
    induction m with
    | zero => simp
    | succ m ih =>
      rw [List.range_succ, List.filter_append, List.length_append, ih, range_add_one, filter_insert]
      by_cases hq : Q m = true
      · rw [if_pos hq, card_insert_of_notMem (by simp)]
        simp [hq]
      · rw [if_neg hq]
        simp [hq]
  rw [hcard]
  congr 1
  ext i
  have hg := cleared_getD p n sb (f - sb) (min (f + sb + 1) n) i
  rw [← hc] at hg
  simp only [mem_filter, mem_range, Function.comp, nadBins, dcLobe, lobe, mem_sdiff, mem_Icc, hg]
  constructor
  · rintro ⟨h1, h2⟩
    by_cases hcond : i < n ∧ sb < i ∧ ¬ (f - sb ≤ i ∧ i < min (f + sb + 1) n)
    · rw [if_pos hcond] at h2
      exact ⟨⟨⟨h1, by omega⟩, by omega⟩, h2⟩
    · rw [if_neg hcond, h0] at h2
      cases h2
  · rintro ⟨⟨⟨h1, h2⟩, h3⟩, h4⟩
    rw [if_pos ⟨h1, by omega, by omega⟩]
    exact ⟨h1, h4⟩

/-- The values the two estimates work on, counted over the bins of the specification. -/
theorem floor_values (p : List K) (n sb f : ℕ) (hn : n ≤ p.length) (hne : (floorBins (fun i => p.getD i 0) n sb f).Nonempty) :
    let l := specForFloor (clearedInband p n sb (f - sb) (min (f + sb + 1) n))
    l ≠ [] ∧ l.length = (floorBins (fun i => p.getD i 0) n sb f).card ∧
    ∀ P : K → Bool, (l.filter P).length = ((floorBins (fun i => p.getD i 0) n sb f).filter fun i => P (p.getD i 0) = true).card := by
  simp only
  set c := clearedInband p n sb (f - sb) (min (f + sb + 1) n) with hc
  have hz : (decide (|(0 : K)| > 1 / 10 ^ 20)) = false := by
    rw [abs_zero, decide_eq_false_iff_not, not_lt]; positivity
  have hlen : (c.filter fun v => decide (|v| > 1 / 10 ^ 20)).length = (floorBins (fun i => p.getD i 0) n sb f).card := by
    rw [hc, cleared_count p n sb f hn _ hz]
    simp [floorBins]
  have hpos := card_pos.mpr hne
  have hne' : (c.filter fun v => decide (|v| > 1 / 10 ^ 20)) ≠ [] := by
    intro h; rw [h, List.length_nil] at hlen; omega
  have hl : specForFloor c = c.filter fun v => decide (|v| > 1 / 10 ^ 20) := by
    unfold specForFloor
    simp only
    rw [if_neg hne']
  rw [hl]
  refine ⟨hne', hlen, ?_⟩
  intro P
  rw [List.filter_filter, hc, cleared_count p n sb f hn _ (by rw [hz]; simp)]
  congr 1
  ext i
  simp only [floorBins, mem_filter, Bool.and_eq_true, decide_eq_true_eq, gt_iff_lt]
  tauto

/-- **C37 (median is robust).** If fewer than half of the noise bins exceed `u`, the median estimate (method 1) is at most `u` per bin over the assumed
median-to-mean ratio; if fewer than half are below `u`, it is at least that. -/
theorem C37_median_bounds (p : List K) (n M f : ℕ) (hs : List ℤ) (sb : ℕ) (hn : n ≤ p.length) (hM : 1 ≤ M) (u : K)
    (hne : (floorBins (fun i => p.getD i 0) n sb f).Nonempty) :
    ∃ v, estimateNoisePower p 1 n M f hs sb = .ok (some v) ∧
      (2 * ((floorBins (fun i => p.getD i 0) n sb f).filter fun i => u < p.getD i 0).card < (floorBins (fun i => p.getD i 0) n sb f).card →
        v ≤ max (u / medianRatio M * n) (1 / 10 ^ 15)) ∧
      (2 * ((floorBins (fun i => p.getD i 0) n sb f).filter fun i => p.getD i 0 < u).card < (floorBins (fun i => p.getD i 0) n sb f).card →
        max (u / medianRatio M * n) (1 / 10 ^ 15) ≤ v) := by
  obtain ⟨h1, h2, h3⟩ := floor_values p n sb f hn hne
  have hrat : (0 : K) < medianRatio M := by
    unfold medianRatio
    split_ifs with h
    · norm_num
    · have hM2 : (2 : K) ≤ M := by exact_mod_cast (by omega : 2 ≤ M)
      have : (2 : K) / (9 * M) < 1 := by rw [div_lt_one (by linarith)]; linarith
      have : (0 : K) < 1 - 2 / (9 * M) := by linarith
      positivity
  refine ⟨_, rfl, ?_, ?_⟩
  · intro hc
    have := median_le_of_count _ h1 u (by rw [h3, h2]; simpa using hc)
    apply max_le_max _ le_rfl
    unfold medianNoise
    exact mul_le_mul_of_nonneg_right (div_le_div_of_nonneg_right this hrat.le) (by positivity)
  · intro hc
    have := le_median_of_count _ h1 u (by rw [h3, h2]; simpa using hc)
    apply max_le_max _ le_rfl
    unfold medianNoise
    exact mul_le_mul_of_nonneg_right (div_le_div_of_nonneg_right this hrat.le) (by positivity)

/-- **C37 (trimmed mean is robust).** With `m ≥ 2` noise bins, the trimmed mean (method 2) is at most `u` per bin as soon as at most `m - ⌊0.95 m⌋` of
them exceed `u`, however large those are; it is at least `u` per bin as soon as fewer than `max 1 ⌊0.05 m⌋` are below `u`. -/
theorem C37_trimmed_bounds (p : List K) (n M f : ℕ) (hs : List ℤ) (sb : ℕ) (hn : n ≤ p.length) (u : K) (m : ℕ)
    (hm : (floorBins (fun i => p.getD i 0) n sb f).card = m) (h2m : 2 ≤ m) :
    ∃ v, estimateNoisePower p 2 n M f hs sb = .ok (some v) ∧
      (((floorBins (fun i => p.getD i 0) n sb f).filter fun i => u < p.getD i 0).card ≤ m - ⌊(95 : ℚ) / 100 * m⌋₊ → v ≤ max (u * n) (1 / 10 ^ 15)) ∧
      (((floorBins (fun i => p.getD i 0) n sb f).filter fun i => p.getD i 0 < u).card < max 1 ⌊(5 : ℚ) / 100 * m⌋₊ → max (u * n) (1 / 10 ^ 15) ≤ v) := by
  have hne : (floorBins (fun i => p.getD i 0) n sb f).Nonempty := card_pos.mp (by omega)
  obtain ⟨h1, h2, h3⟩ := floor_values p n sb f hn hne
  set l := specForFloor (clearedInband p n sb (f - sb) (min (f + sb + 1) n)) with hl
  rw [hm] at h2
  have hfl : ∀ k : ℕ, ⌊(k : ℚ) / 100 * m⌋₊ = m * k / 100 := by
    intro k
    rw [show (k : ℚ) / 100 * m = ((m * k : ℕ) : ℚ) / ((100 : ℕ) : ℚ) by push_cast; ring, Nat.floor_div_eq_div]
  have e95 : ⌊(95 : ℚ) / 100 * m⌋₊ = m * 95 / 100 := by have := hfl 95; push_cast at this; exact this
  have e5 : ⌊(5 : ℚ) / 100 * m⌋₊ = m * 5 / 100 := by have := hfl 5; push_cast at this; exact this
  rw [e95, e5]
  have htr : trimmedNoise (clearedInband p n sb (f - sb) (min (f + sb + 1) n)) n
      = (slice (sortAsc l) (max 1 (m * 5 / 100) - 1) (m * 95 / 100)).sum / (slice (sortAsc l) (max 1 (m * 5 / 100) - 1) (m * 95 / 100)).length * n := by
    unfold trimmedNoise
    simp only
    rw [← hl, h2]
    have : trimmedIndices m = (max 1 (m * 5 / 100) - 1, m * 95 / 100) := by
      unfold trimmedIndices
      simp only [Prod.mk.injEq, true_and]
      omega
    rw [this]
  set t := slice (sortAsc l) (max 1 (m * 5 / 100) - 1) (m * 95 / 100) with ht
  have htl : t.length = m * 95 / 100 - (max 1 (m * 5 / 100) - 1) := by
    rw [ht, slice_length, sortAsc_length, h2]
    omega
  have htne : t ≠ [] := by
    intro h
    rw [h] at htl
    simp at htl
    omega
  have hget : ∀ x ∈ t, ∃ j, max 1 (m * 5 / 100) - 1 ≤ j ∧ j < m * 95 / 100 ∧ x = (sortAsc l).getD j 0 := by
    intro x hx
    obtain ⟨j, hj, rfl⟩ := List.getElem_of_mem hx
    rw [htl] at hj
    refine ⟨max 1 (m * 5 / 100) - 1 + j, by omega, by omega, ?_⟩
    rw [List.getD_eq_getElem _ _ (by rw [sortAsc_length, h2]; omega)]
    simp [ht, slice]
  have hnn : (0 : K) ≤ n := by positivity
  refine ⟨_, rfl, ?_, ?_⟩
  · intro hc
    apply max_le_max _ le_rfl
    rw [htr]
    apply mul_le_mul_of_nonneg_right _ hnn
    have hle : ∀ x ∈ t, x ≤ u := by
      intro x hx
      obtain ⟨j, hj1, hj2, rfl⟩ := hget x hx
      apply sort_le_of_count _ _ (by omega)
      rw [h3]
      have hc' : ((floorBins (fun i => p.getD i 0) n sb f).filter fun i => decide (u < p.getD i 0) = true).card ≤ m - m * 95 / 100 := by simpa using hc
      omega
    have hpos : (0 : K) < t.length := by exact_mod_cast List.length_pos_iff.mpr htne
    rw [div_le_iff₀ hpos]
    have := List.sum_le_card_nsmul t u hle
    rw [nsmul_eq_mul] at this
    linarith
  · intro hc
    apply max_le_max _ le_rfl
    rw [htr]
    apply mul_le_mul_of_nonneg_right _ hnn
    have hle : ∀ x ∈ t, u ≤ x := by
      intro x hx
      obtain ⟨j, hj1, hj2, rfl⟩ := hget x hx
      apply le_sort_of_count _ _ (by omega)
      rw [h3]
      have hc' : ((floorBins (fun i => p.getD i 0) n sb f).filter fun i => decide (p.getD i 0 < u) = true).card < max 1 (m * 5 / 100) := by simpa using hc
      omega
    have hpos : (0 : K) < t.length := by exact_mod_cast List.length_pos_iff.mpr htne
    rw [le_div_iff₀ hpos]
    have := List.card_nsmul_le_sum t u hle
    rw [nsmul_eq_mul] at this
    linarith

/-- **C37 (flat floor).** When every noise bin holds the same power `u`, the trimmed mean is exactly `u` times the number of in-band bins, and the median
estimate is that over the assumed ratio. -/
theorem C37_flat_floor (p : List K) (n M f : ℕ) (hs : List ℤ) (sb : ℕ) (hn : n ≤ p.length) (hM : 1 ≤ M) (u : K) (hu : 1 / 10 ^ 20 < u)
    (h2 : 2 ≤ (nadBins n sb f).card) (hflat : ∀ i ∈ nadBins n sb f, p.getD i 0 = u) :
    estimateNoisePower p 1 n M f hs sb = .ok (some (max (u / medianRatio M * n) (1 / 10 ^ 15))) ∧
    estimateNoisePower p 2 n M f hs sb = .ok (some (max (u * n) (1 / 10 ^ 15))) := by
  have hu0 : (0 : K) < u := lt_trans (by positivity) hu
  have hfb : floorBins (fun i => p.getD i 0) n sb f = nadBins n sb f := by
    unfold floorBins
    apply filter_true_of_mem
    intro i hi
    simp only [hflat i hi, abs_of_pos hu0]
    exact hu
  have ha : (nadBins n sb f).filter (fun i => u < p.getD i 0) = ∅ := by
    rw [filter_eq_empty_iff]; intro i hi; rw [hflat i hi]; exact lt_irrefl u
  have hb : (nadBins n sb f).filter (fun i => p.getD i 0 < u) = ∅ := by
    rw [filter_eq_empty_iff]; intro i hi; rw [hflat i hi]; exact lt_irrefl u
  obtain ⟨v, hv, v1, v2⟩ := C37_median_bounds p n M f hs sb hn hM u (by rw [hfb]; exact card_pos.mp (by omega))
  obtain ⟨w, hw, w1, w2⟩ := C37_trimmed_bounds p n M f hs sb hn u _ (by rw [hfb]) h2
  rw [hfb, ha, card_empty] at v1 w1
  rw [hfb, hb, card_empty] at v2 w2
  rw [hv, hw]
  rw [le_antisymm (v1 (by omega)) (v2 (by omega)), le_antisymm (w1 (by omega)) (w2 (by omega))]
  exact ⟨rfl, rfl⟩

/-- One huge spur among eight noise bins of power one: the trimmed mean still reads one per bin. -/
example : estimateNoisePower ([0, 1, 1, 1, 1, 1, 50, 1, 1, 1000] : List ℚ) 2 10 1 6 [] 0 = .ok (some 10) := by decide +kernel

/-- A flat floor of power two in eight noise bins. -/
example : estimateNoisePower ([0, 2, 2, 2, 2, 2, 50, 2, 2, 2] : List ℚ) 1 10 1 6 [] 0 = .ok (some (250 / 9)) := by
  have := (C37_flat_floor ([0, 2, 2, 2, 2, 2, 50, 2, 2, 2] : List ℚ) 10 1 6 [] 0 (by simp) le_rfl 2 (by norm_num) (by decide) (by
    intro i hi
    have : i ∈ ({1, 2, 3, 4, 5, 7, 8, 9} : Finset ℕ) := by
      have e : nadBins 10 0 6 = {1, 2, 3, 4, 5, 7, 8, 9} := by decide
      rw [← e]; exact hi
    fin_cases this <;> rfl)).1
  rw [this]
  norm_num [medianRatio]

/-- **C37 (the assumed median ratio is not that of averaged white noise).** A bin of the average of `M` white-noise periodograms with mean one has density
`gamma (M, M)`. The ratio used for one run is above its median, the one used for two runs far below: only 42 percent of the bins are below it. -/
theorem C37_median_ratio_biased :
    1 / 2 < ∫ x in (0 : ℝ)..medianRatio 1, ProbabilityTheory.gammaPDFReal 1 1 x ∧
    ∫ x in (0 : ℝ)..medianRatio 2, ProbabilityTheory.gammaPDFReal 2 2 x < 42 / 100 := by
  have hl1 := Real.log_two_gt_d9
  have hl2 := Real.log_two_lt_d9
  constructor
  · have e : ∫ x in (0 : ℝ)..medianRatio 1, ProbabilityTheory.gammaPDFReal 1 1 x = 1 - Real.exp (-(72 / 100)) := by
      have hm : (medianRatio 1 : ℝ) = 72 / 100 := by simp [medianRatio]
      rw [hm]
      have hc : ∫ x in (0 : ℝ)..72 / 100, ProbabilityTheory.gammaPDFReal 1 1 x = ∫ x in (0 : ℝ)..72 / 100, Real.exp (-x) := by
        apply intervalIntegral.integral_congr
        intro x hx
        rw [Set.uIcc_of_le (by norm_num)] at hx
        simp only [ProbabilityTheory.gammaPDFReal]
        rw [if_pos hx.1]
        simp
      rw [hc, intervalIntegral.integral_eq_sub_of_hasDerivAt (f := fun x => -Real.exp (-x))]
      · simp; ring
      · intro x _
        have h : HasDerivAt (fun x : ℝ => -x) (-1) x := hasDerivAt_neg x
        have h' : HasDerivAt (fun x : ℝ => -Real.exp (-x)) (-(Real.exp (-x) * -1)) x := h.exp.neg
        rw [show Real.exp (-x) = -(Real.exp (-x) * -1) by ring]
        exact h'
      · apply Continuous.intervalIntegrable
        fun_prop
    rw [e]
    have : Real.exp (-(72 / 100)) < Real.exp (-Real.log 2) := Real.exp_lt_exp.mpr (by linarith)
    rw [Real.exp_neg, Real.exp_neg, Real.exp_log (by norm_num)] at this
    rw [Real.exp_neg]
    norm_num at this ⊢
    linarith
  · have hm : (medianRatio 2 : ℝ) = 512 / 729 := by norm_num [medianRatio]
    have e : ∫ x in (0 : ℝ)..medianRatio 2, ProbabilityTheory.gammaPDFReal 2 2 x = 1 - (1 + 2 * (512 / 729)) * Real.exp (-(2 * (512 / 729))) := by
      rw [hm]
      have hc : ∫ x in (0 : ℝ)..512 / 729, ProbabilityTheory.gammaPDFReal 2 2 x = ∫ x in (0 : ℝ)..512 / 729, 4 * x * Real.exp (-(2 * x)) := by
        apply intervalIntegral.integral_congr
        intro x hx
        rw [Set.uIcc_of_le (by norm_num)] at hx
        simp only [ProbabilityTheory.gammaPDFReal]
        rw [if_pos hx.1]
        have g : Real.Gamma 2 = 1 := by
          simpa using Real.Gamma_nat_eq_factorial 1
        rw [g, show (2 : ℝ) - 1 = 1 by norm_num, Real.rpow_one, show ((2 : ℝ) ^ (2 : ℝ)) = 4 by
          rw [show (2 : ℝ) ^ (2 : ℝ) = (2 : ℝ) ^ ((2 : ℕ) : ℝ) by norm_num, Real.rpow_natCast]; norm_num]
        ring
      rw [hc, intervalIntegral.integral_eq_sub_of_hasDerivAt (f := fun x => -((1 + 2 * x) * Real.exp (-(2 * x))))]
      · simp; ring
      · intro x _
        have h1 : HasDerivAt (fun x : ℝ => 1 + 2 * x) 2 x := by
          simpa using ((hasDerivAt_id x).const_mul 2).const_add 1
        have h2 : HasDerivAt (fun x : ℝ => Real.exp (-(2 * x))) (Real.exp (-(2 * x)) * (-2)) x := by
          have h3 : HasDerivAt (fun x : ℝ => -(2 * x)) (-2) x := by
            have h4 : HasDerivAt (fun x : ℝ => 2 * x) 2 x := by simpa using (hasDerivAt_id x).const_mul 2
            exact h4.neg
          exact h3.exp
        have h5 : HasDerivAt (fun x : ℝ => -((1 + 2 * x) * Real.exp (-(2 * x))))
            (-(2 * Real.exp (-(2 * x)) + (1 + 2 * x) * (Real.exp (-(2 * x)) * -2))) x := (h1.mul h2).neg
        rw [show 4 * x * Real.exp (-(2 * x)) = -(2 * Real.exp (-(2 * x)) + (1 + 2 * x) * (Real.exp (-(2 * x)) * -2)) by ring]
        exact h5
      · apply Continuous.intervalIntegrable
        fun_prop
    rw [e]
    have h4 : Real.exp (-(2 * (512 / 729))) = Real.exp (-(2 * (512 / 729) - 2 * Real.log 2)) * (1 / 4) := by
      have : (1 : ℝ) / 4 = Real.exp (-(2 * Real.log 2)) := by
        rw [Real.exp_neg, two_mul, Real.exp_add, Real.exp_log (by norm_num)]
        norm_num
      rw [this, ← Real.exp_add]
      congr 1
      ring
    have h5 := Real.add_one_le_exp (-(2 * (512 / 729) - 2 * Real.log 2))
    rw [h4]
    nlinarith

end Verif
