import Verif.Proofs.SpectrumBins
import Verif.Theorems.Frequency
import Mathlib.Analysis.SpecialFunctions.Log.Base

/-!
# C28, C29: SNDR, SFDR and THD bin accounting
-/

namespace Verif

open Model Spec Finset

variable {K : Type} [Field K] [LinearOrder K] [IsStrictOrderedRing K] [FloorRing K]

/-! ### C28 -/

/-- **C28 (what SNDR sums).** The noise-and-distortion power is exactly the power of the in-band bins outside the DC lobe and
the signal lobe. -/
theorem C28_noise_and_distortion_spec (p : List K) (n sb f : ℕ) (hn : n ≤ p.length) :
    noiseAndDistortion p n sb f = power (fun i => p.getD i 0) (nadBins n sb f) := by
  rw [nad_eq_cleared p n sb f hn, cleared_sum p n sb f hn]

/-- **C28 (nothing lost, nothing counted twice).** Signal power, noise-and-distortion power and the DC-lobe power outside
the signal lobe add up to the whole in-band power. -/
theorem C28_power_partition (p : List K) (n sb f : ℕ) (hn : n ≤ p.length) :
    signalPower p n sb f + noiseAndDistortion p n sb f
      + power (fun i => p.getD i 0) ((range n ∩ dcLobe sb) \ lobe f sb) = power (fun i => p.getD i 0) (range n) := by
  rw [C28_noise_and_distortion_spec p n sb f hn]
  have hs : signalPower p n sb f = power (fun i => p.getD i 0) (range n ∩ lobe f sb) := by
    unfold signalPower power
    rw [slice_sum]
    congr 1
    ext i
    unfold lobe
    simp only [mem_Ico, mem_inter, mem_range, mem_Icc]
    omega
  rw [hs]
  unfold power
  rw [← sum_union, ← sum_union]
  · congr 1
    ext i
    unfold nadBins dcLobe lobe
    simp only [mem_union, mem_inter, mem_sdiff, mem_range, mem_Icc]
    omega
  · rw [disjoint_left]
    intro i
    unfold nadBins dcLobe lobe
    simp only [mem_union, mem_inter, mem_sdiff, mem_range, mem_Icc]
    omega
  · rw [disjoint_left]
    intro i
    unfold nadBins dcLobe lobe
    simp only [mem_inter, mem_sdiff, mem_range, mem_Icc]
    omega

/-- **C28 (spur).** The reported spur power is at most the noise-and-distortion power, and at least the power of every
single noise-and-distortion bin. -/
theorem C28_spur_between (p : List K) (hp : NonnegSpec p) (n sb f : ℕ) (hn : n ≤ p.length) (idx : ℕ) (s : K)
    (h : extractHighestSpur p sb n (f - sb) (min (f + sb + 1) n) = .ok (idx, s)) :
    s ≤ noiseAndDistortion p n sb f ∧ idx < n ∧ ∀ i ∈ nadBins n sb f, p.getD i 0 ≤ s := by
  unfold extractHighestSpur at h
  simp only at h
  split_ifs at h with hne
  injection h with h
  set c := clearedInband p n sb (f - sb) (min (f + sb + 1) n) with hc
  have hlen : c.length = n := by rw [hc, cleared_length, min_eq_left hn]
  have hidx : argmax c < c.length := argmax_lt c hne
  have h1 : argmax c = idx := congrArg Prod.fst h
  have h2 : (slice c (argmax c - sb) (min (argmax c + sb + 1) n)).sum = s := congrArg Prod.snd h
  rw [h1] at h2 hidx
  have hnn : ∀ i, 0 ≤ c.getD i 0 := fun i => cleared_getD_nonneg p hp _ _ _ _ i
  refine ⟨?_, by omega, ?_⟩
  · rw [nad_eq_cleared p n sb f hn, ← hc, ← h2, slice_sum, list_sum_eq]
    apply sum_le_sum_of_subset_of_nonneg
    · intro i hi
      rw [mem_Ico] at hi
      rw [mem_range]; omega
    · intro i _ _; exact hnn i
  · intro i hi
    have hin : i < n := by
      unfold nadBins at hi
      simp only [mem_sdiff, mem_range] at hi
      exact hi.1.1
    have hci : c.getD i 0 = p.getD i 0 := by
      rw [hc, cleared_getD, if_pos]
      unfold nadBins dcLobe lobe at hi
      simp only [mem_sdiff, mem_range, mem_Icc] at hi
      omega
    have hmax : c.getD i 0 ≤ c.getD idx 0 := by
      have ha : c[argmax c]? = some (c[idx]'hidx) := by rw [h1]; exact List.getElem?_eq_getElem hidx
      have := argmax_max c _ ha (c[i]'(by omega)) (List.getElem_mem _)
      rw [List.getD_eq_getElem?_getD, List.getD_eq_getElem?_getD, List.getElem?_eq_getElem hidx,
        List.getElem?_eq_getElem (by omega : i < c.length)]
      exact this
    rw [← hci, ← h2, slice_sum]
    refine le_trans hmax ?_
    apply single_le_sum (f := fun i => c.getD i 0) (fun j _ => hnn j)
    rw [mem_Ico]; omega

/-- **C28 (dB).** SFDR is never below SNDR (both in dBc, for a positive signal and a positive spur; with a zero spur the
code reports `SFDR = inf`). -/
theorem C28_sfdr_ge_sndr (p : List ℝ) (hp : NonnegSpec p) (n sb f : ℕ) (hn : n ≤ p.length) (idx : ℕ) (s sig : ℝ)
    (h : extractHighestSpur p sb n (f - sb) (min (f + sb + 1) n) = .ok (idx, s)) (hs : 0 < s) (hsig : 0 < sig) :
    10 * Real.logb 10 (sig / (noiseAndDistortion p n sb f + 1 / 10 ^ 20)) ≤ 10 * Real.logb 10 (sig / s) := by
  have h1 := (C28_spur_between p hp n sb f hn idx s h).1
  have hpos : 0 < noiseAndDistortion p n sb f + 1 / 10 ^ 20 := by
    have : (0 : ℝ) < 1 / 10 ^ 20 := by positivity
    linarith
  apply mul_le_mul_of_nonneg_left _ (by norm_num)
  apply Real.logb_le_logb_of_le (by norm_num) (div_pos hsig hpos)
  apply div_le_div_of_nonneg_left hsig.le hs
  have : (0 : ℝ) < 1 / 10 ^ 20 := by positivity
  linarith

/-! ### C29 -/

private theorem thd_foldl (len f sb : ℕ) (hs : List ℤ) (acc : Finset ℕ) (i : ℕ) :
    i ∈ hs.foldl (thdStep len f sb) acc ↔ i ∈ acc ∨ ∃ h ∈ hs, ∃ lo hi, harmonicCase len f sb h = .range lo hi ∧ lo ≤ i ∧ i < hi := by
  induction hs generalizing acc with
  | nil => simp
  | cons h hs ih =>
    rw [List.foldl_cons, ih]
    unfold thdStep
    cases hc : harmonicCase len f sb h with
    | fundamentalCollision => simp [hc]
    | dcCollision => simp [hc]
    | range lo hi =>
      simp only [mem_union, mem_Ico, List.mem_cons]
      constructor
      · rintro ((h1 | h1) | ⟨h', hm, lo', hi', h2⟩)
        · exact Or.inl h1
        · exact Or.inr ⟨h, Or.inl rfl, lo, hi, hc, h1⟩
        · exact Or.inr ⟨h', Or.inr hm, lo', hi', h2⟩
      · rintro (h1 | ⟨h', rfl | hm, lo', hi', h2, h3⟩)
        · exact Or.inl (Or.inl h1)
        · rw [hc] at h2
          injection h2 with ha hb
          subst ha hb
          exact Or.inl (Or.inr h3)
        · exact Or.inr ⟨h', hm, lo', hi', h2, h3⟩

private theorem case_range (len f sb : ℕ) (h : ℤ) (i : ℕ) :
    (∃ lo hi, harmonicCase len f sb h = .range lo hi ∧ lo ≤ i ∧ i < hi) ↔
      i < len ∧ 2 * (sb : ℤ) < |h - f| ∧ (sb : ℤ) < h ∧ |(i : ℤ) - h| ≤ sb := by
  unfold harmonicCase
  constructor
  · rintro ⟨lo, hi, hc, h1, h2⟩
    split_ifs at hc with ha hb
    injection hc with hlo hhi
    rw [abs_le]
    omega
  · rintro ⟨h1, h2, h3, h4⟩
    rw [abs_le] at h4
    rw [if_neg (by omega), if_neg (by omega)]
    exact ⟨_, _, rfl, by omega, by omega⟩

/-- **C29 (which bins THD sums).** THD sums each bin of the following set exactly once: bins of the spectrum within
`side_bin` of a harmonic that collides neither with the fundamental (`2·side_bin`) nor with DC. -/
theorem C29_thd_bins_spec (len f sb : ℕ) (hs : List ℤ) (i : ℕ) :
    i ∈ thdBins len f sb hs ↔
      i < len ∧ ∃ h ∈ hs, 2 * (sb : ℤ) < |h - f| ∧ (sb : ℤ) < h ∧ |(i : ℤ) - h| ≤ sb := by
  unfold thdBins
  rw [thd_foldl]
  simp only [notMem_empty, false_or]
  constructor
  · rintro ⟨h, hm, hc⟩
    obtain ⟨h1, h2⟩ := (case_range len f sb h i).mp hc
    exact ⟨h1, h, hm, h2⟩
  · rintro ⟨h1, h, hm, h2⟩
    exact ⟨h, hm, (case_range len f sb h i).mpr ⟨h1, h2⟩⟩

/-- **C29 (collided harmonics).** The reported list names, by order (second harmonic = 2), exactly the harmonics within twice the side-bin width of the
fundamental. -/
theorem C29_collided_spec (p : List K) (f sb : ℕ) (hs : List ℤ) (k : ℕ) :
    k ∈ (calculateHarmonicPower p f hs sb).2.2 ↔ ∃ i < hs.length, k = i + 2 ∧ |hs.getD i 0 - f| ≤ 2 * sb := by
  unfold calculateHarmonicPower
  simp only [List.mem_map, List.mem_filter, decide_eq_true_eq]
  have hcase : ∀ h : ℤ, harmonicCase p.length f sb h = .fundamentalCollision ↔ |h - f| ≤ 2 * sb := by
    intro h
    unfold harmonicCase
    constructor
    · intro hc
      split_ifs at hc with ha
      exact ha
    · intro ha
      rw [if_pos ha]
  constructor
  · rintro ⟨⟨h, i⟩, ⟨hm, hc⟩, rfl⟩
    rw [List.mem_zipIdx_iff_getElem?] at hm
    simp only at hm hc
    have hi : i < hs.length := (List.getElem?_eq_some_iff.mp hm).1
    refine ⟨i, hi, rfl, ?_⟩
    rw [List.getD_eq_getElem?_getD, hm]
    exact (hcase h).mp hc
  · rintro ⟨i, hi, rfl, hc⟩
    refine ⟨(hs.getD i 0, i), ⟨?_, (hcase _).mpr hc⟩, rfl⟩
    rw [List.mem_zipIdx_iff_getElem?, List.getD_eq_getElem?_getD, List.getElem?_eq_getElem hi]
    rfl

/-- **C29 (power of one harmonic).** A harmonic clear of the fundamental and of DC is reported with the power of its lobe inside the spectrum, any other one
with the floor `1e-15`. -/
theorem C29_harmonic_power_spec (p : List K) (f sb : ℕ) (hs : List ℤ) (i : ℕ) (hi : i < hs.length) :
    (calculateHarmonicPower p f hs sb).2.1.length = hs.length ∧
    (calculateHarmonicPower p f hs sb).2.1.getD i 0 =
      if 2 * (sb : ℤ) < |hs.getD i 0 - f| ∧ (sb : ℤ) < hs.getD i 0 then
        max (power (fun j => p.getD j 0) ((range p.length).filter fun j => |(j : ℤ) - hs.getD i 0| ≤ sb)) (1 / 10 ^ 15)
      else 1 / 10 ^ 15 := by
  unfold calculateHarmonicPower
  simp only
  refine ⟨by simp, ?_⟩
  rw [List.getD_eq_getElem?_getD, List.getElem?_map, List.getElem?_eq_getElem hi, Option.map_some, Option.getD_some]
  have e : hs.getD i 0 = hs[i] := by rw [List.getD_eq_getElem?_getD, List.getElem?_eq_getElem hi]; rfl
  rw [e]
  generalize hs[i] = h
  unfold harmonicCase
  by_cases h1 : |h - f| ≤ 2 * sb
  · rw [if_pos h1, if_neg (by omega)]
    rfl
  · rw [if_neg h1]
    by_cases h2 : h ≤ sb
    · rw [if_pos h2, if_neg (by omega)]
      rfl
    · rw [if_neg h2, if_pos (by omega)]
      simp only
      rw [slice_sum]
      unfold power pFloor
      congr 2
      ext j
      simp only [mem_filter, mem_range, mem_Ico, abs_le]
      omega

/-- **C29 (signal excluded).** No bin of the fundamental's own window is ever counted as distortion. -/
theorem C29_thd_excludes_signal (len f sb : ℕ) (hs : List ℤ) : Disjoint (thdBins len f sb hs) (lobe f sb) := by
  rw [disjoint_left]
  intro i hi hl
  rw [C29_thd_bins_spec] at hi
  obtain ⟨_, h, _, h2, _, h4⟩ := hi
  unfold lobe at hl
  rw [mem_Icc] at hl
  rw [abs_le] at h4
  rw [lt_abs] at h2
  omega

/-- **C29 (power).** The THD power is the power of those bins, floored at `1e-15`. -/
theorem C29_thd_power (p : List K) (f sb : ℕ) (hs : List ℤ) :
    (calculateHarmonicPower p f hs sb).1 =
      max (power (fun i => p.getD i 0) (thdBins p.length f sb hs)) (1 / 10 ^ 15) := by
  unfold calculateHarmonicPower
  simp only
  split_ifs with h
  · rfl
  · rw [not_nonempty_iff_eq_empty] at h
    rw [h]
    unfold power pFloor
    rw [sum_empty, max_self, max_eq_right]
    positivity

private theorem case_lt (len f sb : ℕ) (h : ℤ) (lo hi : ℕ) (hc : harmonicCase len f sb h = .range lo hi) : hi ≤ len := by
  unfold harmonicCase at hc
  split_ifs at hc
  injection hc with h1 h2
  omega

/-- **C29 (no double counting).** For a non-negative spectrum each non-colliding harmonic's power is at most the THD
power, and the THD power is at most the sum of the individual harmonic powers. -/
theorem C29_thd_bounds (p : List K) (hp : NonnegSpec p) (f sb : ℕ) (hs : List ℤ) (hne : hs ≠ []) :
    (∀ v ∈ (calculateHarmonicPower p f hs sb).2.1, v ≤ (calculateHarmonicPower p f hs sb).1) ∧
    (calculateHarmonicPower p f hs sb).1 ≤ (calculateHarmonicPower p f hs sb).2.1.sum := by
  rw [C29_thd_power]
  have hnn := getD_nonneg p hp
  have hfl : (0 : K) < pFloor := by unfold pFloor; positivity
  -- power of one harmonic
  let hpw : ℤ → K := fun h => match harmonicCase p.length f sb h with
    | .range lo hi => max (slice p lo hi).sum pFloor
    | _ => pFloor
  have hlist : (calculateHarmonicPower p f hs sb).2.1 = hs.map hpw := rfl
  rw [hlist]
  have hge : ∀ h, pFloor ≤ hpw h := by
    intro h
    simp only [hpw]
    split
    · exact le_max_right _ _
    · exact le_refl _
  constructor
  · intro v hv
    rw [List.mem_map] at hv
    obtain ⟨h, hm, rfl⟩ := hv
    simp only [hpw]
    split
    · rename_i lo hi hc
      apply max_le_max _ (le_refl _)
      rw [slice_sum]
      unfold power
      apply sum_le_sum_of_subset_of_nonneg
      · intro i hi'
        rw [mem_Ico] at hi'
        have hx := (case_range p.length f sb h i).mp ⟨lo, hi, hc, by omega, by omega⟩
        rw [C29_thd_bins_spec]
        exact ⟨hx.1, h, hm, hx.2⟩
      · intro i _ _; exact hnn i
    · exact le_max_right _ _
  · apply max_le
    · -- union bound by induction
      have hkey : ∀ (l : List ℤ) (acc : Finset ℕ),
          power (fun i => p.getD i 0) (l.foldl (thdStep p.length f sb) acc) ≤ power (fun i => p.getD i 0) acc + (l.map hpw).sum := by
        intro l
        induction l with
        | nil => intro acc; simp
        | cons h l ih =>
          intro acc
          rw [List.foldl_cons, List.map_cons, List.sum_cons]
          refine le_trans (ih _) ?_
          have hpos := hge h
          unfold thdStep
          cases hc : harmonicCase p.length f sb h with
          | fundamentalCollision => simp only; linarith
          | dcCollision => simp only; linarith
          | range lo hi =>
            simp only
            have h1 : power (fun i => p.getD i 0) (acc ∪ Ico lo hi)
                ≤ power (fun i => p.getD i 0) acc + power (fun i => p.getD i 0) (Ico lo hi) := by
              unfold power
              rw [← sum_union_inter]
              have : 0 ≤ ∑ i ∈ acc ∩ Ico lo hi, p.getD i 0 := sum_nonneg fun i _ => hnn i
              linarith
            have h2 : power (fun i => p.getD i 0) (Ico lo hi) ≤ hpw h := by
              simp only [hpw, hc]
              refine le_trans ?_ (le_max_left _ _)
              rw [slice_sum, min_eq_left (case_lt _ _ _ _ _ _ hc)]
              exact le_refl _
            linarith
      have := hkey hs ∅
      unfold thdBins
      unfold power at this ⊢
      rw [sum_empty, zero_add] at this
      exact this
    · obtain ⟨h, l, rfl⟩ := List.exists_cons_of_ne_nil hne
      rw [List.map_cons, List.sum_cons]
      have h1 := hge h
      have h2 : 0 ≤ (l.map hpw).sum := List.sum_nonneg fun v hv => by
        rw [List.mem_map] at hv
        obtain ⟨h', _, rfl⟩ := hv
        exact le_trans hfl.le (hge h')
      have h3 : (1 : K) / 10 ^ 15 = pFloor := rfl
      rw [h3]
      linarith

private theorem mapM_ok {α β : Type} (f : α → Py β) (g : α → β) (l : List α) (h : ∀ a ∈ l, f a = .ok (g a)) :
    l.mapM f = .ok (l.map g) := by
  induction l with
  | nil => rfl
  | cons a l ih =>
    rw [List.mapM_cons, h a (by simp), ih (fun b hb => h b (by simp [hb]))]
    rfl

/-- **C29 (alias bins).** For an integer fundamental bin the `h`-th harmonic is looked up at exactly its first-zone alias;
for even `n_fft` and a fractional (interpolated) fundamental, within half a bin of it. The lookup covers `H2..Hmax`. -/
theorem C29_harmonic_bin_is_alias (fund : K) (H N : ℕ) (hH : 1 ≤ H) (hN : 0 < N)
    (hf : (∃ z : ℤ, fund = z) ∨ Even N) :
    ∃ hs, locateHarmonicBins fund H N = .ok hs ∧ hs.length = H - 1 ∧
      ∀ i (hi : i < hs.length), 0 ≤ hs[i] ∧ ∃ r : K, FirstZoneAlias (fund * ((i + 2 : ℕ) : K)) (N : K) r ∧
        |(hs[i] : K) - r| ≤ 1 / 2 ∧ ((∃ z : ℤ, fund = z) → (hs[i] : K) = r) := by
  have hal : ∀ i : ℕ, ∃ r, foldBin (fund * ((i + 2 : ℕ) : K)) N = .ok r ∧ FirstZoneAlias (fund * ((i + 2 : ℕ) : K)) (N : K) r := by
    intro i
    rcases hf with ⟨z, rfl⟩ | he
    · have := C05_fold_bin_integer_partial (K := K) (z * ((i + 2 : ℕ) : ℤ)) N hN
      push_cast at this ⊢
      exact this
    · exact C05_fold_bin_even_partial _ N hN he
  choose r hr hra using hal
  refine ⟨(List.range (H - 1)).map fun i => rint (r i), ?_, by simp, ?_⟩
  · unfold locateHarmonicBins
    rw [if_neg (by omega)]
    apply mapM_ok
    intro i _
    rw [hr i]
    rfl
  · intro i hi
    simp only [List.getElem_map, List.getElem_range]
    refine ⟨?_, r i, hra i, ?_, ?_⟩
    · have := rint_mono (hra i).1
      have h0 : rint (0 : K) = 0 := by simpa using rint_intCast (K := K) 0
      rwa [h0] at this
    · rw [abs_sub_comm]; exact abs_sub_rint_le _
    · rintro ⟨z, rfl⟩
      -- the alias of an integer is an integer
      obtain ⟨_, _, m, hm⟩ := hra i
      have hz : ∃ w : ℤ, r i = w := by
        rcases hm with hm | hm
        · refine ⟨z * (i + 2) - m * N, ?_⟩
          push_cast at hm ⊢
          linarith
        · refine ⟨m * N - z * (i + 2), ?_⟩
          push_cast at hm ⊢
          linarith
      obtain ⟨w, hw⟩ := hz
      rw [hw, rint_intCast]

/-- **C29 (limit of the claim).** THD is not bounded by the noise-and-distortion power used for SNDR: a harmonic whose window
touches the DC lobe (`side_bin < h ≤ 2·side_bin`) still contributes DC-lobe bins that SNDR ignores. Here `H2` of bin 8 in
an 18-point record aliases to bin 2; with `side_bin = 1` THD counts bin 1, SNDR does not. -/
theorem C29_thd_can_exceed_noise_and_distortion :
    ∃ p : List ℚ, NonnegSpec p ∧ p.length = 10 ∧ locateHarmonicBins (8 : ℚ) 2 18 = .ok [2] ∧
      noiseAndDistortion p 10 1 8 = 0 ∧ (calculateHarmonicPower p 8 [2] 1).1 = 1 := by
  refine ⟨[0, 1, 0, 0, 0, 0, 0, 0, 5, 0], ?_, rfl, by decide +kernel, by decide +kernel, by decide +kernel⟩
  intro v hv
  simp at hv
  rcases hv with rfl | rfl | rfl | rfl | rfl <;> norm_num

/-! ### Concrete cases -/

/-- Fundamental in bin 4 of a 16-sample record: the harmonics 2 to 5 fall on bins 8, 4, 0 and 4; the third and fifth collide. -/
example : locateHarmonicBins (4 : ℚ) 5 16 = .ok [8, 4, 0, 4] ∧ (calculateHarmonicPower ([0, 0, 0, 0, 9, 0, 0, 0, 2] : List ℚ) 4 [8, 4, 0, 4] 0).2.2 = [3, 5] ∧
    (calculateHarmonicPower ([0, 0, 0, 0, 9, 0, 0, 0, 2] : List ℚ) 4 [8, 4, 0, 4] 0).2.1.getD 0 0 = 2 := by decide +kernel

example : extractHighestSpur ([9, 1, 1, 50, 1, 4, 1, 1, 1] : List ℚ) 1 9 2 5 = .ok (5, 5) := by decide +kernel
example : noiseAndDistortion ([9, 1, 1, 50, 1, 4, 1, 1, 1] : List ℚ) 9 1 3 = 7 := by decide +kernel
example : NonnegSpec ([9, 1, 1, 50, 1, 4, 1, 1, 1] : List ℚ) := by
  intro v hv; simp at hv; rcases hv with rfl | rfl | rfl | rfl | rfl | rfl <;> norm_num
example : calculateHarmonicPower ([9, 1, 1, 50, 1, 4, 1, 1, 1] : List ℚ) 3 [6, 7] 0 = (2, [1, 1], []) := by decide +kernel

end Verif
