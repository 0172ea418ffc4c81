import Verif.Model.Osr
import Verif.Theorems.BinRanges
import Verif.Theorems.Parseval

/-!
# C35, C64: performance versus oversampling ratio
-/

namespace Verif

open Model Finset

section

variable {K : Type} [Field K] [LinearOrder K] [IsStrictOrderedRing K] [FloorRing K]

/-- Direct definition: noise is the sum of the first `c` error bins, spur their maximum. -/
def DirectBand (e : List K) (c : ℕ) (r : K × K) : Prop :=
  r.1 = ∑ k ∈ range c, e.getD k 0 ∧ (∃ k < c, r.2 = e.getD k 0) ∧ ∀ k < c, e.getD k 0 ≤ r.2

/-- Invariant of the incremental sweeps: the accumulators hold sum and maximum of the bins met so far. -/
def SweepInv (e : List K) (s : SweepState K) : Prop :=
  s.noise = ∑ k ∈ range s.prev, e.getD k 0 ∧ (s.prev = 0 → s.spur = 0) ∧ (0 < s.prev → ∃ k < s.prev, s.spur = e.getD k 0) ∧
    (∀ k < s.prev, e.getD k 0 ≤ s.spur) ∧ 0 ≤ s.spur

private theorem slice_entry {α : Type} (l : List α) (lo hi : ℕ) (d : α) (i : ℕ) (h : lo + i < hi) :
    (slice l lo hi).getD i d = l.getD (lo + i) d := by
  unfold slice
  rw [List.getD_eq_getElem?_getD, List.getD_eq_getElem?_getD, List.getElem?_drop, List.getElem?_take, if_pos h]

theorem mem_slice {l : List K} {lo hi : ℕ} (hhi : hi ≤ l.length) (v : K) :
    v ∈ slice l lo hi ↔ ∃ k, lo ≤ k ∧ k < hi ∧ v = l.getD k 0 := by
  have hlen : (slice l lo hi).length = hi - lo := by
    unfold slice; rw [List.length_drop, List.length_take]; omega
  constructor
  · intro hv
    obtain ⟨i, hi', he⟩ := List.mem_iff_getElem.mp hv
    rw [hlen] at hi'
    refine ⟨lo + i, by omega, by omega, ?_⟩
    rw [← slice_entry l lo hi 0 i (by omega), ← he, List.getD_eq_getElem?_getD, List.getElem?_eq_getElem (by omega)]
    rfl
  · rintro ⟨k, h1, h2, rfl⟩
    have := slice_entry l lo hi 0 (k - lo) (by omega)
    rw [show lo + (k - lo) = k by omega] at this
    rw [← this, List.getD_eq_getElem?_getD, List.getElem?_eq_getElem (by omega)]
    exact List.getElem_mem _

private theorem step_ok (e : List K) (he : ∀ v ∈ e, 0 ≤ v) (N : ℤ) (hN : 0 < N) (hl : (e.length : ℤ) = N / 2 + 1)
    (osr : List K) (s : SweepState K) (i : ℕ) (hinv : SweepInv e s) (ho : 0 < osr.getD i 0) (c : ℕ)
    (hc : rfftInbandBinCount N (osr.getD i 0) = .ok c) (hprev : s.prev ≤ c) :
    ∃ s', sweepStep e N osr s i = .ok s' ∧ SweepInv e s' ∧ s'.prev = c ∧
      s'.out = Function.update s.out i (some (s'.noise, s'.spur)) := by
  obtain ⟨c', hc', h1, h2⟩ := C25_count_range N (osr.getD i 0) hN ho
  have : c' = c := by rw [hc] at hc'; injection hc' with h; exact h.symm
  subst this
  have hce : c' ≤ e.length := by omega
  obtain ⟨i1, i2, i3, i4, i5⟩ := hinv
  unfold sweepStep
  rw [hc]
  simp only
  by_cases hlt : s.prev < c'
  · rw [if_pos hlt]
    cases hs : slice e s.prev c' with
    | nil =>
      exfalso
      have : (slice e s.prev c').length = c' - s.prev := by
        unfold slice; rw [List.length_drop, List.length_take]; omega
      rw [hs] at this
      simp at this
      omega
    | cons a l =>
      refine ⟨_, rfl, ?_, rfl, rfl⟩
      have hmem : ∀ v, v ∈ a :: l ↔ ∃ k, s.prev ≤ k ∧ k < c' ∧ v = e.getD k 0 := by
        intro v; rw [← hs]; exact mem_slice hce v
      have hsum : (a :: l).sum = ∑ k ∈ Ico s.prev c', e.getD k 0 := by
        rw [← hs, slice_sum, min_eq_left hce]
      refine ⟨?_, fun h => by simp at h; omega, fun _ => ?_, ?_, le_trans i5 (le_max_left _ _)⟩
      · simp only
        rw [hsum, i1, ← sum_range_add_sum_Ico _ hlt.le]
      · simp only
        obtain ⟨k, k1, k2, k3⟩ := (hmem _).mp (maxOf_mem a l)
        rcases le_total s.spur (maxOf a l) with hle | hle
        · rw [max_eq_right hle]
          exact ⟨k, k2, k3⟩
        · rw [max_eq_left hle]
          by_cases hp : s.prev = 0
          · have h0 := i2 hp
            rw [h0] at hle ⊢
            have hnn : 0 ≤ maxOf a l := by
              rw [k3]
              apply he
              rw [List.getD_eq_getElem?_getD, List.getElem?_eq_getElem (by omega)]
              exact List.getElem_mem _
            exact ⟨k, k2, by rw [← k3]; exact le_antisymm hnn hle⟩
          · obtain ⟨j, j1, j2⟩ := i3 (by omega)
            exact ⟨j, by omega, j2⟩
      · intro k hk
        simp only at hk ⊢
        by_cases hkp : k < s.prev
        · exact le_trans (i4 k hkp) (le_max_left _ _)
        · exact le_trans (le_maxOf a l _ ((hmem _).mpr ⟨k, by omega, hk, rfl⟩)) (le_max_right _ _)
  · rw [if_neg hlt]
    have hcp : c' = s.prev := by omega
    refine ⟨_, rfl, ?_, rfl, rfl⟩
    rw [hcp]
    exact ⟨i1, i2, i3, i4, i5⟩

private theorem loop_ok (e : List K) (he : ∀ v ∈ e, 0 ≤ v) (N : ℤ) (hN : 0 < N) (hl : (e.length : ℤ) = N / 2 + 1)
    (osr : List K) (order : List ℕ) : ∀ s : SweepState K, SweepInv e s → (∀ i ∈ order, 0 < osr.getD i 0) →
    order.Nodup → order.Pairwise (fun i j => osr.getD j 0 ≤ osr.getD i 0) →
    (∀ i ∈ order, ∀ c, rfftInbandBinCount N (osr.getD i 0) = .ok c → s.prev ≤ c) →
    ∃ s', sweepLoop e N osr order s = .ok s' ∧ (∀ i ∉ order, s'.out i = s.out i) ∧
      ∀ i ∈ order, ∃ c r, rfftInbandBinCount N (osr.getD i 0) = .ok c ∧ s'.out i = some r ∧ DirectBand e c r := by
  induction order with
  | nil => intro s _ _ _ _ _; exact ⟨s, rfl, fun _ _ => rfl, by simp⟩
  | cons i rest ih =>
    intro s hinv ho hnd hpw hprev
    have hoi := ho i (by simp)
    obtain ⟨c, hc, hc1, hc2⟩ := C25_count_range N (osr.getD i 0) hN hoi
    obtain ⟨s1, h1, h2, h3, h4⟩ := step_ok e he N hN hl osr s i hinv hoi c hc (hprev i (by simp) c hc)
    rw [List.pairwise_cons] at hpw
    rw [List.nodup_cons] at hnd
    obtain ⟨s', g1, g2, g3⟩ := ih s1 h2 (fun j hj => ho j (by simp [hj])) hnd.2 hpw.2 (by
      intro j hj cj hcj
      rw [h3]
      exact C25_antitone N _ _ (ho j (by simp [hj])) (hpw.1 j hj) cj c hcj hc)
    refine ⟨s', ?_, ?_, ?_⟩
    · simp only [sweepLoop, h1]
      exact g1
    · intro j hj
      rw [List.mem_cons, not_or] at hj
      rw [g2 j hj.2, h4, Function.update_of_ne hj.1]
    · intro j hj
      by_cases hji : j ∈ rest
      · exact g3 j hji
      · have hji' : j = i := by
          rcases List.mem_cons.mp hj with h | h
          · exact h
          · exact absurd h hji
        subst hji'
        refine ⟨c, (s1.noise, s1.spur), hc, by rw [g2 j hji, h4, Function.update_self], ?_⟩
        obtain ⟨i1, i2, i3, i4, i5⟩ := h2
        rw [h3] at i1 i3 i4
        exact ⟨i1, i3 (by omega), i4⟩

/-- **C35.** For every error spectrum and every list of positive OSR values, in any order and with any repetitions (and any
tie-breaking of the sort), the incremental sweep stores for each requested OSR exactly the direct sum and the direct maximum
over that OSR's own band. -/
theorem C35_sweep_equals_direct (e : List K) (he : ∀ v ∈ e, 0 ≤ v) (N : ℤ) (hN : 0 < N) (hl : (e.length : ℤ) = N / 2 + 1)
    (osr : List K) (ho : ∀ v ∈ osr, 0 < v) (order : List ℕ) (hord : IsSweepOrder osr order) :
    ∃ out, sweep e N osr order = .ok out ∧ ∀ i < osr.length, ∃ c r,
      rfftInbandBinCount N (osr.getD i 0) = .ok c ∧ out i = some r ∧ DirectBand e c r := by
  obtain ⟨hperm, hpw⟩ := hord
  have hmem : ∀ i, i ∈ order ↔ i < osr.length := by
    intro i; rw [hperm.mem_iff, List.mem_range]
  obtain ⟨s', h1, _, h3⟩ := loop_ok e he N hN hl osr order ⟨0, 0, 0, fun _ => none⟩
    ⟨by simp, fun _ => rfl, fun h => absurd h (lt_irrefl 0), fun k hk => absurd hk (Nat.not_lt_zero k), le_refl _⟩
    (fun i hi => by
      have := (hmem i).mp hi
      apply ho
      rw [List.getD_eq_getElem?_getD, List.getElem?_eq_getElem this]
      exact List.getElem_mem _)
    (hperm.nodup_iff.mpr List.nodup_range) hpw (fun _ _ _ _ => Nat.zero_le _)
  refine ⟨s'.out, ?_, fun i hi => h3 i ((hmem i).mpr hi)⟩
  unfold sweep
  rw [h1]

/-- **C35 (order and repetition).** Two requests with the same OSR value, in different lists, get the same result. -/
theorem C35_order_irrelevant (e : List K) (he : ∀ v ∈ e, 0 ≤ v) (N : ℤ) (hN : 0 < N) (hl : (e.length : ℤ) = N / 2 + 1)
    (osr osr' : List K) (ho : ∀ v ∈ osr, 0 < v) (ho' : ∀ v ∈ osr', 0 < v) (order order' : List ℕ)
    (hord : IsSweepOrder osr order) (hord' : IsSweepOrder osr' order') (out out' : ℕ → Option (K × K))
    (h : sweep e N osr order = .ok out) (h' : sweep e N osr' order' = .ok out') (i j : ℕ) (hi : i < osr.length)
    (hj : j < osr'.length) (heq : osr.getD i 0 = osr'.getD j 0) : out i = out' j := by
  obtain ⟨o, a1, a2⟩ := C35_sweep_equals_direct e he N hN hl osr ho order hord
  obtain ⟨o', b1, b2⟩ := C35_sweep_equals_direct e he N hN hl osr' ho' order' hord'
  rw [h] at a1
  rw [h'] at b1
  injection a1 with a1
  injection b1 with b1
  subst a1 b1
  obtain ⟨c, r, c1, c2, c3, ⟨k, k1, k2⟩, c5⟩ := a2 i hi
  obtain ⟨c', r', d1, d2, d3, ⟨k', k1', k2'⟩, d5⟩ := b2 j hj
  rw [heq, d1] at c1
  injection c1 with c1
  subst c1
  rw [c2, d2]
  congr 1
  apply Prod.ext
  · rw [c3, d3]
  · exact le_antisymm (by rw [k2]; exact d5 k k1) (by rw [k2']; exact c5 k' k1')

/-- **C35 (monotone).** A larger OSR never reports more noise or a larger spur; the spur never exceeds the noise. -/
theorem C35_monotone (e : List K) (he : ∀ v ∈ e, 0 ≤ v) (N : ℤ) (hN : 0 < N) (hl : (e.length : ℤ) = N / 2 + 1)
    (osr : List K) (ho : ∀ v ∈ osr, 0 < v) (order : List ℕ) (hord : IsSweepOrder osr order) (out : ℕ → Option (K × K))
    (h : sweep e N osr order = .ok out) (i j : ℕ) (hi : i < osr.length) (hj : j < osr.length)
    (hij : osr.getD i 0 ≤ osr.getD j 0) (r s : K × K) (hr : out i = some r) (hs : out j = some s) :
    s.1 ≤ r.1 ∧ s.2 ≤ r.2 ∧ r.2 ≤ r.1 := by
  obtain ⟨o, a1, a2⟩ := C35_sweep_equals_direct e he N hN hl osr ho order hord
  rw [h] at a1
  injection a1 with a1
  subst a1
  obtain ⟨c, r', c1, c2, c3, ⟨k, k1, k2⟩, c5⟩ := a2 i hi
  obtain ⟨c', s', d1, d2, d3, ⟨k', k1', k2'⟩, d5⟩ := a2 j hj
  rw [hr] at c2
  rw [hs] at d2
  injection c2 with c2
  injection d2 with d2
  subst c2 d2
  have hoi : 0 < osr.getD i 0 := by
    apply ho
    rw [List.getD_eq_getElem?_getD, List.getElem?_eq_getElem hi]
    exact List.getElem_mem _
  have hcc := C25_antitone N _ _ hoi hij c c' c1 d1
  have hnn : ∀ k, 0 ≤ e.getD k 0 := by
    intro k
    rw [List.getD_eq_getElem?_getD]
    by_cases hk : k < e.length
    · rw [List.getElem?_eq_getElem hk]; exact he _ (List.getElem_mem _)
    · rw [List.getElem?_eq_none (by omega)]; exact le_refl _
  refine ⟨?_, ?_, ?_⟩
  · rw [c3, d3]
    exact sum_le_sum_of_subset_of_nonneg (range_subset_range.mpr hcc) (fun k _ _ => hnn k)
  · rw [k2']; exact c5 k' (by omega)
  · rw [k2, c3]
    exact single_le_sum (f := fun k => e.getD k 0) (fun k _ => hnn k) (mem_range.mpr k1)

private theorem loop_error (e : List K) (N : ℤ) (hN : 0 < N) (osr : List K) (order : List ℕ) :
    ∀ s : SweepState K, (∃ i ∈ order, osr.getD i 0 ≤ 0) → sweepLoop e N osr order s = .error .valueError := by
  induction order with
  | nil => intro s ⟨i, hi, _⟩; simp at hi
  | cons j rest ih =>
    intro s hex
    simp only [sweepLoop]
    cases hs : sweepStep e N osr s j with
    | error err =>
      simp only
      unfold sweepStep at hs
      split at hs
      · rename_i err' h
        injection hs with hs
        subst hs
        have := (C25_error_iff N (osr.getD j 0) err').mp h
        rw [this.2]
      · split_ifs at hs
        split at hs
        · injection hs with hs
          rw [← hs]
        · simp at hs
    | ok s' =>
      simp only
      apply ih
      obtain ⟨i, hi, hle⟩ := hex
      rcases List.mem_cons.mp hi with rfl | h
      · exfalso
        unfold sweepStep at hs
        rw [(C25_error_iff N (osr.getD i 0) .valueError).mpr ⟨Or.inr hle, rfl⟩] at hs
        simp at hs
      · exact ⟨i, h, hle⟩

/-- **C35 (errors).** Any non-positive OSR in the request raises `ValueError`. -/
theorem C35_nonpositive_osr (e : List K) (N : ℤ) (hN : 0 < N) (osr : List K) (order : List ℕ) (hord : IsSweepOrder osr order)
    (i : ℕ) (hi : i < osr.length) (hle : osr.getD i 0 ≤ 0) : sweep e N osr order = .error .valueError := by
  unfold sweep
  rw [loop_error e N hN osr order _ ⟨i, by rw [hord.1.mem_iff, List.mem_range]; exact hi, hle⟩]

/-- **C35 (perfosr checks).** `perfosr` rejects exactly: a harmonic count below one or not an integer, a smoothing width below
one, a non-positive OSR. -/
theorem C35_perfosr_check (harmonic : K) (smooth : Option K) (osr : Option (List K)) :
    perfosrCheck harmonic smooth osr = .ok () ↔
      (∃ n : ℤ, 1 ≤ n ∧ harmonic = n) ∧ (∀ v, smooth = some v → 1 ≤ v) ∧ ∀ l, osr = some l → ∀ v ∈ l, 0 < v := by
  have hh : ¬ (harmonic < 1 ∨ (⌊harmonic⌋ : K) ≠ harmonic) ↔ ∃ n : ℤ, 1 ≤ n ∧ harmonic = n := by
    push Not
    constructor
    · rintro ⟨h1, h2⟩
      refine ⟨⌊harmonic⌋, ?_, h2.symm⟩
      exact Int.le_floor.mpr (by exact_mod_cast h1)
    · rintro ⟨n, h1, rfl⟩
      exact ⟨by exact_mod_cast h1, by rw [Int.floor_intCast]⟩
  unfold perfosrCheck
  by_cases h1 : harmonic < 1 ∨ (⌊harmonic⌋ : K) ≠ harmonic
  · rw [if_pos h1]
    simp only [reduceCtorEq, false_iff]
    rintro ⟨h, _⟩
    exact (hh.mpr h) h1
  · rw [if_neg h1]
    have h1' := hh.mp h1
    cases smooth with
    | none => cases osr <;> simp [h1', -exists_and_left]
    | some v => cases osr with
      | none => simp [h1', -exists_and_left]
      | some l =>
        by_cases hv : v < 1
        · simp [h1', -exists_and_left, hv]
        · simp [h1', -exists_and_left, hv]
          intro _
          exact not_lt.mp hv

/-- **C35 (default sweep).** The default OSR list is positive and makes the in-band count run through every band from DC plus
one bin to the full one-sided spectrum: entry `i` has OSR `(N/2)/(N//2 - i)`. -/
theorem C35_default_osr_pos (n : ℕ) (hn : 0 < n) : ∀ v ∈ (defaultOsr n : List K), 0 < v := by
  intro v hv
  unfold defaultOsr at hv
  obtain ⟨i, hi, rfl⟩ := List.mem_map.mp hv
  rw [List.mem_range] at hi
  have h1 : (0 : K) < n := by exact_mod_cast hn
  have h2 : (0 : K) < ((n / 2 - i : ℕ) : K) := by exact_mod_cast (by omega : 0 < n / 2 - i)
  positivity

end

/-! ## C64: the sweep reads 3 dB low -/

private theorem sum_half (N : ℕ) (hN : 0 < N) (f : ℕ → ℝ) (hsym : ∀ k, 0 < k → k < N → f (N - k) = f k) :
    2 * ∑ k ∈ range (N / 2 + 1), f k = ∑ k ∈ range N, f k + f 0 + (if N % 2 = 0 then f (N / 2) else 0) := by
  by_cases h2 : N % 2 = 0
  · obtain ⟨h, rfl⟩ : ∃ h, N = 2 * (h + 1) := ⟨N / 2 - 1, by omega⟩
    rw [if_pos h2, show 2 * (h + 1) / 2 = h + 1 by omega, sum_range_succ, sum_range_succ']
    have e : ∑ k ∈ range (2 * (h + 1)), f k = f 0 + f (h + 1) + ∑ k ∈ range h, (f (k + 1) + f (2 * (h + 1) - (k + 1))) := by
      rw [show 2 * (h + 1) = (h + 1) + (h + 1) by ring, sum_range_add, sum_range_succ', sum_add_distrib,
        sum_range_succ' (fun k => f (h + 1 + k))]
      rw [← sum_range_reflect (fun k => f (h + 1 + (k + 1)))]
      have : ∑ j ∈ range h, f (h + 1 + (h - 1 - j + 1)) = ∑ k ∈ range h, f (h + 1 + (h + 1) - (k + 1)) := by
        apply sum_congr rfl
        intro j hj
        rw [mem_range] at hj
        congr 1
        omega
      rw [this]
      simp only [add_zero]
      ring
    rw [e, sum_add_distrib]
    have : ∑ k ∈ range h, f (2 * (h + 1) - (k + 1)) = ∑ k ∈ range h, f (k + 1) := by
      apply sum_congr rfl
      intro k hk
      rw [mem_range] at hk
      exact hsym (k + 1) (by omega) (by omega)
    rw [this]
    ring
  · obtain ⟨h, rfl⟩ : ∃ h, N = 2 * h + 1 := ⟨N / 2, by omega⟩
    rw [if_neg h2, show (2 * h + 1) / 2 = h by omega, sum_range_succ']
    have e : ∑ k ∈ range (2 * h + 1), f k = f 0 + ∑ k ∈ range h, (f (k + 1) + f (2 * h + 1 - (k + 1))) := by
      rw [show 2 * h + 1 = (h + 1) + h by ring, sum_range_add, sum_range_succ', sum_add_distrib]
      rw [← sum_range_reflect (fun k => f (h + 1 + k))]
      have : ∑ j ∈ range h, f (h + 1 + (h - 1 - j)) = ∑ k ∈ range h, f (h + 1 + h - (k + 1)) := by
        apply sum_congr rfl
        intro j hj
        rw [mem_range] at hj
        congr 1
        omega
      rw [this]
      ring
    rw [e, sum_add_distrib]
    have : ∑ k ∈ range h, f (2 * h + 1 - (k + 1)) = ∑ k ∈ range h, f (k + 1) := by
      apply sum_congr rfl
      intro k hk
      rw [mem_range] at hk
      exact hsym (k + 1) (by omega) (by omega)
    rw [this]
    ring

/-- **C64 (total sweep noise).** The noise the sweep uses at OSR 1 is *twice* the mean square of the windowed error, plus twice
the DC and (even `N`) Nyquist line powers. -/
theorem C64_total_noise (err : ℕ → ℝ) (N : ℕ) (hN : 0 < N) :
    (sweepSpectrum err N).sum = 2 * ((∑ n ∈ range N, sweepError err N n ^ 2) / N)
      + 2 * ‖dft N (fun n => (sweepError err N n : ℂ)) 0‖ ^ 2 / (N : ℝ) ^ 2
      + (if N % 2 = 0 then 2 * ‖dft N (fun n => (sweepError err N n : ℂ)) ((N / 2 : ℕ) : ℤ)‖ ^ 2 / (N : ℝ) ^ 2 else 0) := by
  have hNR : (N : ℝ) ≠ 0 := by exact_mod_cast hN.ne'
  set x : ℕ → ℝ := fun n => sweepError err N n with hx
  have hp := parseval N hN.ne' (fun n => (x n : ℂ))
  have e2 : ∀ n, ‖((x n : ℝ) : ℂ)‖ ^ 2 = x n ^ 2 := by
    intro n; rw [Complex.norm_real, Real.norm_eq_abs, sq_abs]
  simp only [e2] at hp
  have hsym : ∀ k, 0 < k → k < N → ‖dft N (fun n => (x n : ℂ)) ((N - k : ℕ) : ℤ)‖ ^ 2 = ‖dft N (fun n => (x n : ℂ)) k‖ ^ 2 := by
    intro k _ hk
    have e : (((N - k : ℕ) : ℤ)) = -(k : ℤ) + 1 * N := by push_cast [Nat.cast_sub hk.le]; ring
    rw [e, dft_periodic N hN.ne', ← dft_conj, RCLike.norm_conj]
  have h := sum_half N hN (fun k => ‖dft N (fun n => (x n : ℂ)) k‖ ^ 2) hsym
  unfold sweepSpectrum
  rw [list_sum_map_range]
  have e3 : ∑ k ∈ range (N / 2 + 1), ‖dft N (fun n => (sweepError err N n : ℂ)) k‖ ^ 2 / (N : ℝ) ^ 2 * 4
      = 2 / (N : ℝ) ^ 2 * (2 * ∑ k ∈ range (N / 2 + 1), ‖dft N (fun n => (x n : ℂ)) k‖ ^ 2) := by
    rw [mul_sum, mul_sum]
    apply sum_congr rfl
    intro k _
    simp only [hx]
    ring
  rw [e3, h, hp]
  split_ifs
  · field_simp
    push_cast
    ring
  · field_simp
    push_cast
    ring

/-- **C64 (3 dB low).** At OSR 1 the reported SNDR is at least `10·log10 2 ≈ 3.01` dB below the ratio of the sine's mean
square `A²/2` to the mean square of the (window-normalised) error. -/
theorem C64_sweep_reads_3dB_low (err : ℕ → ℝ) (N : ℕ) (hN : 0 < N) (A : ℝ) (hA : 0 < A)
    (hpos : 0 < ∑ n ∈ range N, sweepError err N n ^ 2) :
    sweepSndr A (sweepSpectrum err N).sum ≤
      10 * Real.logb 10 (A ^ 2 / 2 / ((∑ n ∈ range N, sweepError err N n ^ 2) / N)) - 10 * Real.logb 10 2 := by
  have hNR : (0 : ℝ) < N := by exact_mod_cast hN
  have h := C64_total_noise err N hN
  set mse := (∑ n ∈ range N, sweepError err N n ^ 2) / N with hm
  have hmp : 0 < mse := by positivity
  have hge : 2 * mse ≤ (sweepSpectrum err N).sum := by
    rw [h]
    have h1 : 0 ≤ 2 * ‖dft N (fun n => (sweepError err N n : ℂ)) 0‖ ^ 2 / (N : ℝ) ^ 2 := by positivity
    have h2 : 0 ≤ (if N % 2 = 0 then 2 * ‖dft N (fun n => (sweepError err N n : ℂ)) ((N / 2 : ℕ) : ℤ)‖ ^ 2 / (N : ℝ) ^ 2 else 0) := by
      split_ifs
      · positivity
      · exact le_refl _
    linarith
  unfold sweepSndr
  rw [← mul_sub, ← Real.logb_div (by positivity) (by norm_num)]
  have : A ^ 2 / 2 / (sweepSpectrum err N).sum ≤ A ^ 2 / 2 / mse / 2 := by
    rw [div_div (A ^ 2 / 2) mse 2]
    apply div_le_div_of_nonneg_left (by positivity) (by positivity)
    linarith
  have h3 : 0 < A ^ 2 / 2 / (sweepSpectrum err N).sum := by
    apply div_pos (by positivity)
    linarith
  have := Real.logb_le_logb_of_le (b := 10) (by norm_num) h3 this
  linarith

/-! ### Concrete cases -/

/-- Spectrum `[5, 1, 3, 2, 4]` (N = 8) swept at OSR 1, 4, 1, 2: unsorted and repeated. -/
example : ((sweep ([5, 1, 3, 2, 4] : List ℚ) 8 [1, 4, 1, 2] [1, 3, 2, 0]).toOption.map fun o => [o 0, o 1, o 2, o 3])
    = some [some (15, 5), some (6, 5), some (15, 5), some (9, 5)] := by
  decide +kernel

example : IsSweepOrder ([1, 4, 1, 2] : List ℚ) [1, 3, 2, 0] := by
  constructor
  · decide
  · decide +kernel

end Verif
