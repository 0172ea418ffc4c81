import Verif.Proofs.Percentile
import Mathlib.Data.List.GetD
import Mathlib.Algebra.Order.Archimedean.Real.Basic

/-!
# C70: percentile clipping
-/

namespace Verif

open Model

/-- Number of samples of the record that satisfy a condition. -/
noncomputable def countRec (n : ℕ) (s : ℕ → ℝ) (P : ℝ → Bool) : ℕ := (((List.range n).map s).filter P).length

/-- **C70.** For a clip percentage between 0 and 50 there are two levels, both between two samples of the record, such that every sample is forced
between them: samples inside are unchanged, samples outside take the nearer level, and at most `⌈pct·(n-1)/100⌉` samples are raised and as many lowered. -/
theorem C70_clipping (g : Gen) (input : Option (ℕ → ℝ)) (hn : 0 < g.n) (pct : ℝ) (h0 : 0 ≤ pct) (h1 : pct ≤ 50) :
    ∃ y lo hi, g.clipping input pct = .ok y ∧ lo ≤ hi ∧ (∀ i, lo ≤ y i ∧ y i ≤ hi) ∧
      (∀ i, lo ≤ g.resolve input i → g.resolve input i ≤ hi → y i = g.resolve input i) ∧
      (∀ i, (g.resolve input i ≤ lo → y i = lo) ∧ (hi ≤ g.resolve input i → y i = hi)) ∧
      (∀ i j, g.resolve input i ≤ g.resolve input j → y i ≤ y j) ∧
      (∃ i < g.n, g.resolve input i ≤ lo) ∧ (∃ i < g.n, hi ≤ g.resolve input i) ∧
      countRec g.n (g.resolve input) (fun x => decide (x < lo)) ≤ ⌈pct / 100 * (g.n - 1)⌉.toNat ∧
      countRec g.n (g.resolve input) (fun x => decide (hi < x)) ≤ ⌈pct / 100 * (g.n - 1)⌉.toNat := by
  set s := (List.range g.n).map (g.resolve input) with hs
  have hlen : s.length = g.n := by rw [hs]; simp
  have hne : s ≠ [] := by
    intro h
    rw [h] at hlen
    simp at hlen
    omega
  set l := sortAsc s with hl
  have hll : l.length = g.n := by rw [hl, sortAsc_length, hlen]
  have hsorted : l.Pairwise (· ≤ ·) := sortAsc_sorted s
  have hn1 : (0 : ℝ) ≤ (g.n : ℝ) - 1 := by
    have : (1 : ℝ) ≤ g.n := by exact_mod_cast hn
    linarith
  have e1 := percentile_eq s hne pct h0 (by linarith)
  have e2 := percentile_eq s hne (100 - pct) (by linarith) (by linarith)
  rw [hlen, ← hl] at e1 e2
  set u := pct / 100 * ((g.n : ℝ) - 1) with hu
  set v := (100 - pct) / 100 * ((g.n : ℝ) - 1) with hv
  have hu0 : 0 ≤ u := mul_nonneg (by linarith) hn1
  have huv : u ≤ v := mul_le_mul_of_nonneg_right (by linarith) hn1
  have hv1 : v ≤ (l.length : ℝ) - 1 := by
    rw [hll]
    calc v ≤ 1 * ((g.n : ℝ) - 1) := mul_le_mul_of_nonneg_right (by linarith) hn1
      _ = _ := one_mul _
  have huvs : u + v = (g.n : ℝ) - 1 := by rw [hu, hv]; ring
  set lo := interp l u with hlo
  set hi := interp l v with hhi
  have hle : lo ≤ hi := interp_mono l hsorted u v hu0 huv hv1
  have hmem : ∀ j < l.length, ∃ i < g.n, g.resolve input i = l.getD j 0 := by
    intro j hj
    rw [List.getD_eq_getElem _ _ hj]
    have : l[j] ∈ s := (sortAsc_mem s _).mp (List.getElem_mem hj)
    rw [hs] at this
    obtain ⟨i, hi, he⟩ := List.mem_map.mp this
    exact ⟨i, List.mem_range.mp hi, he⟩
  have hcount : ∀ P : ℝ → Bool, countRec g.n (g.resolve input) P = (l.filter P).length := by
    intro P
    unfold countRec
    rw [← hs]
    exact (((sortAsc_perm s).filter P).length_eq).symm
  obtain ⟨a1, a2, a3, a4⟩ := interp_bounds l hsorted u hu0 (huv.trans hv1)
  obtain ⟨b1, b2, b3, b4⟩ := interp_bounds l hsorted v (hu0.trans huv) hv1
  refine ⟨fun i => clip (g.resolve input i) lo hi, lo, hi, ?_, hle, fun i => ⟨?_, min_le_right _ _⟩, ?_, fun i => ⟨fun h => ?_, fun h => ?_⟩, ?_, ?_, ?_, ?_, ?_⟩
  · unfold Gen.clipping
    simp only
    rw [← hs, e1, e2]
    rfl
  · exact le_min (le_max_right _ _) hle
  · intro i ha hb
    show min (max _ _) _ = _
    rw [max_eq_left ha, min_eq_left hb]
  · show min (max _ _) _ = _
    rw [max_eq_right h, min_eq_left hle]
  · show min (max _ _) _ = _
    rw [min_eq_right (h.trans (le_max_left _ _))]
  · intro i j hij
    exact min_le_min_right _ (max_le_max_right _ hij)
  · obtain ⟨i, hi', he⟩ := hmem ⌊u⌋.toNat (by omega)
    exact ⟨i, hi', by rw [he]; exact a1⟩
  · obtain ⟨i, hi', he⟩ := hmem (min (⌊v⌋.toNat + 1) (l.length - 1)) (by omega)
    exact ⟨i, hi', by rw [he]; exact b2⟩
  · rw [hcount]
    exact count_lt l lo _ (interp_split l hsorted u hu0 (huv.trans hv1)).1
  · rw [hcount]
    refine (count_gt l hi ⌊v⌋.toNat fun j hj _ => (interp_split l hsorted v (hu0.trans huv) hv1).2 j hj).trans ?_
    rw [hll]
    have hc : (⌈u⌉ : ℤ) = (g.n : ℤ) - 1 - ⌊v⌋ := by
      have : u = -v + (((g.n : ℤ) - 1 : ℤ) : ℝ) := by push_cast; linarith
      rw [this, Int.ceil_add_intCast, Int.ceil_neg]
      ring
    rw [hc]
    omega

/-- **C70 (zero and errors).** A percentage of 0 returns the record unchanged; a percentage outside 0 to 100 raises `ValueError`; an empty record
raises `IndexError`. -/
theorem C70_edge (g : Gen) (input : Option (ℕ → ℝ)) (pct : ℝ) :
    (0 < g.n → ∃ y, g.clipping input 0 = .ok y ∧ ∀ i < g.n, y i = g.resolve input i) ∧
    (pct < 0 ∨ 100 < pct → g.clipping input pct = .error .valueError) ∧
    (g.n = 0 → 0 ≤ pct → pct ≤ 100 → g.clipping input pct = .error .indexError) := by
  refine ⟨fun hn => ?_, fun h => ?_, fun hn h0 h1 => ?_⟩
  · obtain ⟨y, lo, hi, hy, _, _, hin, _, _, _, _, c1, c2⟩ := C70_clipping g input hn 0 le_rfl (by norm_num)
    refine ⟨y, hy, fun i hi' => hin i ?_ ?_⟩
    · by_contra hlt
      push Not at hlt
      simp only [zero_div, zero_mul, Int.ceil_zero, Int.toNat_zero, Nat.le_zero] at c1
      unfold countRec at c1
      rw [List.length_eq_zero_iff, List.filter_eq_nil_iff] at c1
      exact c1 (g.resolve input i) (List.mem_map.mpr ⟨i, List.mem_range.mpr hi', rfl⟩) (by simpa using hlt)
    · by_contra hlt
      push Not at hlt
      simp only [zero_div, zero_mul, Int.ceil_zero, Int.toNat_zero, Nat.le_zero] at c2
      unfold countRec at c2
      rw [List.length_eq_zero_iff, List.filter_eq_nil_iff] at c2
      exact c2 (g.resolve input i) (List.mem_map.mpr ⟨i, List.mem_range.mpr hi', rfl⟩) (by simpa using hlt)
  · unfold Gen.clipping percentile
    simp only
    rw [if_pos h]
    rfl
  · unfold Gen.clipping percentile
    simp only
    rw [if_neg (by push Not; exact ⟨h0, h1⟩), if_pos (by rw [hn]; rfl)]
    rfl

/-- Above 50 the levels cross and numpy's clip returns the upper one: the whole record collapses to a constant. -/
theorem C70_above_half (g : Gen) (input : Option (ℕ → ℝ)) (hn : 0 < g.n) (pct : ℝ) (h0 : 50 ≤ pct) (h1 : pct ≤ 100) :
    ∃ y c, g.clipping input pct = .ok y ∧ ∀ i, y i = c := by
  set s := (List.range g.n).map (g.resolve input) with hs
  have hlen : s.length = g.n := by rw [hs]; simp
  have hne : s ≠ [] := by
    intro h
    rw [h] at hlen
    simp at hlen
    omega
  have hn1 : (0 : ℝ) ≤ (g.n : ℝ) - 1 := by
    have : (1 : ℝ) ≤ g.n := by exact_mod_cast hn
    linarith
  have e1 := percentile_eq s hne pct (by linarith) h1
  have e2 := percentile_eq s hne (100 - pct) (by linarith) (by linarith)
  have hle : interp (sortAsc s) ((100 - pct) / 100 * (s.length - 1)) ≤ interp (sortAsc s) (pct / 100 * (s.length - 1)) := by
    apply interp_mono _ (sortAsc_sorted s)
    · rw [hlen]; exact mul_nonneg (by linarith) hn1
    · rw [hlen]; exact mul_le_mul_of_nonneg_right (by linarith) hn1
    · rw [sortAsc_length, hlen]
      calc pct / 100 * ((g.n : ℝ) - 1) ≤ 1 * ((g.n : ℝ) - 1) := mul_le_mul_of_nonneg_right (by linarith) hn1
        _ = _ := one_mul _
  refine ⟨fun i => clip (g.resolve input i) (interp (sortAsc s) (pct / 100 * (s.length - 1))) (interp (sortAsc s) ((100 - pct) / 100 * (s.length - 1))),
    interp (sortAsc s) ((100 - pct) / 100 * (s.length - 1)), ?_, fun i => ?_⟩
  · unfold Gen.clipping
    simp only
    rw [← hs, e1, e2]
    rfl
  · show min (max _ _) _ = _
    exact min_eq_right (hle.trans (le_max_right _ _))

/-- A 100-sample record with 1% clipping: at most one sample is raised. -/
example (x : ℕ → ℝ) : ∃ y lo hi, (Gen.mk 100 1 0 0 0).clipping (some x) 1 = .ok y ∧ lo ≤ hi ∧ countRec 100 x (fun v => decide (v < lo)) ≤ 1 := by
  obtain ⟨y, lo, hi, hy, hle, _, _, _, _, _, _, c, _⟩ := C70_clipping (Gen.mk 100 1 0 0 0) (some x) (by norm_num) 1 (by norm_num) (by norm_num)
  refine ⟨y, lo, hi, hy, hle, c.trans ?_⟩
  have : ⌈(1 : ℝ) / 100 * (((100 : ℕ) : ℝ) - 1)⌉ ≤ 1 := Int.ceil_le.mpr (by norm_num)
  simp only
  omega

end Verif
