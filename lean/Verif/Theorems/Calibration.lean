import Verif.Proofs.Calibration
import Verif.Theorems.RankPatch

/-!
# C39 – C41: sine-wave weight calibration
-/

namespace Verif

open Model Finset

/-! ## C39: column scaling -/

theorem getD_map_cols {β : Type} (l : List (ℕ → ℝ)) (g : (ℕ → ℝ) → β) (j : ℕ) (d : β) (hj : j < l.length) :
    (l.map g).getD j d = g (l.getD j 0) := by
  rw [List.getD_eq_getElem?_getD, List.getD_eq_getElem?_getD, List.getElem?_map, List.getElem?_eq_getElem hj]
  rfl

theorem getD_range_map {β : Type} (m : ℕ) (g : ℕ → β) (j : ℕ) (d : β) (hj : j < m) : ((List.range m).map g).getD j d = g j := by
  rw [List.getD_eq_getElem?_getD]
  simp [hj]

/-- **C39.** For every matrix, solution vector and normalisation: the original columns times the un-scaled weights equal the
scaled columns times the solved weights divided by the normalisation. Scaling is undone exactly. -/
theorem C39_scaling_undone (N : ℕ) (cols : List (ℕ → ℝ)) (x : List ℝ) (norm : ℝ) (n : ℕ) :
    matVec cols (recoverScale x cols.length norm (cols.map (colScale N))) n = matVec (scaleCols N cols) x n / norm := by
  unfold matVec scaleCols recoverScale
  rw [List.length_map, sum_div]
  apply sum_congr rfl
  intro j hj
  rw [mem_range] at hj
  rw [getD_range_map _ _ _ _ hj, getD_map_cols _ _ _ _ hj, getD_map_cols _ _ _ _ hj]
  ring

theorem colPeak_spec (N : ℕ) (c : ℕ → ℝ) : (∀ n < N, |c n| ≤ colPeak N c) ∧ 0 ≤ colPeak N c ∧
    (colPeak N c = 0 ∨ ∃ n < N, |c n| = colPeak N c) := by
  unfold colPeak
  refine ⟨?_, ?_, ?_⟩
  · intro n hn
    exact le_maxOf _ _ _ (List.mem_cons_of_mem _ (List.mem_map.mpr ⟨n, List.mem_range.mpr hn, rfl⟩))
  · exact le_maxOf _ _ _ List.mem_cons_self
  · have := maxOf_mem (0 : ℝ) ((List.range N).map fun (n : ℕ) => |c n|)
    rcases List.mem_cons.mp this with h | h
    · exact Or.inl h
    · obtain ⟨n, hn, h⟩ := List.mem_map.mp h
      exact Or.inr ⟨n, List.mem_range.mp hn, h⟩

/-- **C39 (conditioning).** Every column that is not numerically zero is scaled so that its largest magnitude lies in
`(1/2, 10)`; numerically zero columns are left alone. -/
theorem C39_conditioned (N : ℕ) (c : ℕ → ℝ) :
    (1 / 10 ^ 15 < colPeak N c → (∀ n < N, |c n * (10 : ℝ) ^ (-colScale N c)| < 10) ∧
      ∃ n < N, 1 / 2 < |c n * (10 : ℝ) ^ (-colScale N c)|) ∧
    (colPeak N c ≤ 1 / 10 ^ 15 → ∀ n, c n * (10 : ℝ) ^ (-colScale N c) = c n) := by
  obtain ⟨h1, h2, h3⟩ := colPeak_spec N c
  constructor
  · intro hp
    set p := colPeak N c with hpd
    have hp0 : (0 : ℝ) < p := lt_trans (by positivity) hp
    have hs : colScale N c = ⌊Real.logb 10 (p + 1 / 10 ^ 15)⌋ := by
      unfold colScale
      rw [← hpd, if_neg (not_le.mpr hp)]
    rw [hs]
    set s := ⌊Real.logb 10 (p + 1 / 10 ^ 15)⌋ with hsd
    have hq0 : (0 : ℝ) < p + 1 / 10 ^ 15 := by positivity
    have hlo : (10 : ℝ) ^ s ≤ p + 1 / 10 ^ 15 := by
      have := Int.floor_le (Real.logb 10 (p + 1 / 10 ^ 15))
      rw [← hsd, Real.le_logb_iff_rpow_le (by norm_num) hq0, Real.rpow_intCast] at this
      exact this
    have hhi : p + 1 / 10 ^ 15 < (10 : ℝ) ^ (s + 1) := by
      have := Int.lt_floor_add_one (Real.logb 10 (p + 1 / 10 ^ 15))
      rw [← hsd, Real.logb_lt_iff_lt_rpow (by norm_num) hq0] at this
      have e : ((s : ℝ) + 1) = ((s + 1 : ℤ) : ℝ) := by push_cast; ring
      rw [e, Real.rpow_intCast] at this
      exact this
    have hpow : (0 : ℝ) < (10 : ℝ) ^ s := by positivity
    rw [zpow_add₀ (by norm_num), zpow_one] at hhi
    have hinv : (10 : ℝ) ^ (-s) = ((10 : ℝ) ^ s)⁻¹ := zpow_neg _ _
    rw [hinv]
    constructor
    · intro n hn
      rw [abs_mul, abs_of_pos (inv_pos.mpr hpow), ← div_eq_mul_inv, div_lt_iff₀ hpow]
      have h4 := h1 n hn
      have : (0 : ℝ) < 1 / 10 ^ 15 := by positivity
      linarith
    · rcases h3 with h3 | ⟨n, hn, h3⟩
      · exact absurd h3 hp0.ne'
      · refine ⟨n, hn, ?_⟩
        rw [abs_mul, abs_of_pos (inv_pos.mpr hpow), ← div_eq_mul_inv, lt_div_iff₀ hpow, h3]
        linarith
  · intro hp n
    unfold colScale
    rw [if_pos hp]
    simp

/-- A two-row column `0, 20` has scale 1: it becomes `0, 2`. -/
example : colScale 2 (fun n => 20 * (n : ℝ)) = 1 := by
  have hp : colPeak 2 (fun n => 20 * (n : ℝ)) = 20 := by
    unfold colPeak
    norm_num [List.range_succ, maxOf]
  unfold colScale
  rw [hp, if_neg (by norm_num), Int.floor_eq_iff]
  constructor
  · rw [Real.le_logb_iff_rpow_le (by norm_num) (by norm_num)]; norm_num
  · rw [Real.logb_lt_iff_lt_rpow (by norm_num) (by norm_num)]; norm_num

/-! ## C41: decomposition identity and polarity -/

/-- `calibrate` returns what `_post_process` assembled. -/
theorem calibrate_ok (solve : Lstsq) (est : List ℝ) (segs : List (List (List ℝ))) (freq : FreqArg) (force : Option Bool)
    (given : Option (List ℝ)) (H : ℕ) (lr reltol : ℝ) (maxIter : ℕ) (r : CalResult)
    (h : calibrate solve est segs freq force given H lr reltol maxIter = .ok r) :
    ∃ segs' width nominal fa w W c b norm, prepareInput segs given = .ok (segs', width, nominal) ∧
      r = postProcess (segs'.map List.length) fa
        ((List.range width).map fun (j : ℕ) => fun (n : ℕ) => (segs'.flatten.getD n []).getD j 0) w W H c b norm := by
  unfold calibrate at h
  by_cases h1 : ∃ f ∈ freq.values, 1 / 2 < f
  · rw [if_pos h1] at h; cases h
  rw [if_neg h1] at h
  cases hp : prepareInput segs given with
  | error e => rw [hp] at h; cases h
  | ok p =>
    obtain ⟨segs', width, nominal⟩ := p
    rw [hp] at h
    simp only at h
    split at h
    · cases h
    · split at h
      · cases h
      · split at h
        · cases h
        · injection h with h
          exact ⟨segs', width, nominal, _, _, _, _, _, _, rfl, h.symm⟩

theorem sum_map_mul (l : List ℝ) (t : ℝ) : (l.map fun v => v * t).sum = l.sum * t := by
  induction l with
  | nil => simp
  | cons a l ih => simp only [List.map_cons, List.sum_cons, ih]; ring

theorem getD_map_mul (l : List ℝ) (t : ℝ) (j : ℕ) : (l.map fun v => v * t).getD j 0 = l.getD j 0 * t := by
  rw [List.getD_eq_getElem?_getD, List.getD_eq_getElem?_getD, List.getElem?_map]
  cases l[j]? <;> simp

theorem meanSq_mul (l : List ℝ) (t : ℝ) (ht : t ^ 2 = 1) : meanSq (l.map fun v => v * t) = meanSq l := by
  unfold meanSq
  rw [List.map_map, List.length_map]
  congr 2
  apply List.map_congr_left
  intro v _
  simp only [Function.comp]
  rw [mul_pow, ht, mul_one]

/-- **C41.** For every call that returns: per dataset and sample `signal - offset - ideal = error`; the signal is the bit row times
the returned weights; the weights sum to a non-negative number; and the reported SNDR/ENOB are those of the returned ideal and
error waveforms. -/
theorem C41_decomposition (solve : Lstsq) (est : List ℝ) (segs : List (List (List ℝ))) (freq : FreqArg) (force : Option Bool)
    (given : Option (List ℝ)) (H : ℕ) (lr reltol : ℝ) (maxIter : ℕ) (r : CalResult)
    (h : calibrate solve est segs freq force given H lr reltol maxIter = .ok r) :
    ∃ segs' width nominal, prepareInput segs given = .ok (segs', width, nominal) ∧
      r.signal.length = segs'.length ∧ r.ideal.length = segs'.length ∧ r.resid.length = segs'.length ∧ r.snr.length = segs'.length ∧
      (∀ k < segs'.length,
        (r.signal.getD k []).length = (segs'.getD k []).length ∧ (r.ideal.getD k []).length = (segs'.getD k []).length ∧
        (r.resid.getD k []).length = (segs'.getD k []).length ∧
        (∀ t < (segs'.getD k []).length,
          (r.signal.getD k []).getD t 0 - r.offset - (r.ideal.getD k []).getD t 0 = (r.resid.getD k []).getD t 0 ∧
          (r.signal.getD k []).getD t 0
            = ∑ j ∈ range width, r.weight.getD j 0 * (segs'.flatten.getD (segStart (segs'.map List.length) k + t) []).getD j 0) ∧
        r.snr.getD k 0 = (if 0 < meanSq (r.resid.getD k []) then
          10 * Real.logb 10 (meanSq (r.ideal.getD k []) / meanSq (r.resid.getD k [])) else 200) ∧
        r.enob.getD k 0 = (r.snr.getD k 0 - 1.76) / 6.02) ∧
      0 ≤ r.weight.sum := by
  obtain ⟨segs', width, nominal, fa, w, W, c, b, norm, hp, hr⟩ := calibrate_ok solve est segs freq force given H lr reltol maxIter r h
  refine ⟨segs', width, nominal, hp, ?_⟩
  generalize hpol : (if w.sum < 0 then (-1 : ℝ) else 1) = pol
  have hpol2 : pol ^ 2 = 1 := by rw [← hpol]; split_ifs <;> norm_num
  have hsgn : 0 ≤ w.sum * pol := by
    rw [← hpol]; split_ifs with hlt
    · linarith
    · linarith [not_lt.mp hlt]
  unfold postProcess at hr
  simp only [hpol] at hr
  have hlen : ∀ k < segs'.length, (segs'.map List.length).getD k 0 = (segs'.getD k []).length := by
    intro k hk
    rw [List.getD_eq_getElem?_getD, List.getD_eq_getElem?_getD, List.getElem?_map, List.getElem?_eq_getElem hk]
    rfl
  subst hr
  refine ⟨by simp, by simp, by simp, by simp, ?_, ?_⟩
  · intro k hk
    have hk' : k < (segs'.map List.length).length := by simpa using hk
    simp only
    rw [getD_range_map _ _ _ _ hk', getD_range_map _ _ _ _ hk', getD_range_map _ _ _ _ hk', getD_range_map _ _ _ _ hk']
    refine ⟨by simp only [List.length_map, List.length_range]; exact hlen k hk, by simp only [List.length_map, List.length_range]; exact hlen k hk, by simp only [List.length_map, List.length_range]; exact hlen k hk, ?_, ?_, ?_⟩
    · intro t ht
      rw [← hlen k hk] at ht
      rw [getD_map_mul, getD_map_mul, getD_map_mul]
      simp only [List.map_map]
      rw [getD_range_map _ _ _ _ ht, getD_range_map _ _ _ _ ht, getD_range_map _ _ _ _ ht]
      simp only [Function.comp]
      refine ⟨by ring, ?_⟩
      rw [matVec_range, sum_mul]
      apply sum_congr rfl
      intro j _
      rw [getD_map_mul]
      ring
    · rw [meanSq_mul _ _ hpol2, meanSq_mul _ _ hpol2]
      rfl
    · rw [List.map_map, getD_range_map _ _ _ _ hk']
      simp only [Function.comp]
      norm_num
  · simp only
    rw [sum_map_mul]
    exact hsgn

/-! ## C40: noise-free recovery -/

/-- Offset plus `H` harmonics of the normalised frequency `f`. -/
noncomputable def harmonicSeries (f : ℝ) (H : ℕ) (c : ℝ) (a b : ℕ → ℝ) (n : ℕ) : ℝ :=
  c + ∑ h ∈ range H, (a h * Real.cos (2 * Real.pi * f * ((n : ℝ) * ((h : ℝ) + 1))) + b h * Real.sin (2 * Real.pi * f * ((n : ℝ) * ((h : ℝ) + 1))))

/-- `u` is the only way (up to a common factor) to combine the columns into an offset plus `H` harmonics. -/
def OnlyFit (N : ℕ) (cols : List (ℕ → ℝ)) (f : ℝ) (H : ℕ) (u : List ℝ) (c : ℝ) (a b : ℕ → ℝ) : Prop :=
  ∀ (u' : List ℝ) (d : ℝ) (p q : ℕ → ℝ), u'.length = cols.length → (∀ n < N, matVec cols u' n = harmonicSeries f H d p q n) →
    ∃ t : ℝ, u' = u.map (fun v => t * v) ∧ d = t * c ∧ ∀ h < H, p h = t * a h ∧ q h = t * b h

theorem seg_one (N : ℕ) (g : ℕ → ℝ) (n : ℕ) (hn : n < N) : segCol [N] 0 g n = g n := by
  unfold segCol segStart
  simp [hn]

theorem cosCols_one (N : ℕ) (f : ℝ) (H : ℕ) :
    cosCols [N] [f] H = (List.range H).map fun (h : ℕ) => segCol [N] 0 fun t => Real.cos (harmPhase f h t) := by
  unfold cosCols
  simp [List.range_succ]

theorem sinCols_one (N : ℕ) (f : ℝ) (H : ℕ) :
    sinCols [N] [f] H = (List.range H).map fun (h : ℕ) => segCol [N] 0 fun t => Real.sin (harmPhase f h t) := by
  unfold sinCols
  simp [List.range_succ]

theorem series_eq (N : ℕ) (f : ℝ) (H : ℕ) (p q : List ℝ) (n : ℕ) (hn : n < N) (d : ℝ) :
    d + matVec (cosCols [N] [f] H) p n + matVec (sinCols [N] [f] H) q n = harmonicSeries f H d (fun h => p.getD h 0) (fun h => q.getD h 0) n := by
  rw [cosCols_one, sinCols_one, matVec_range, matVec_range, add_assoc, ← sum_add_distrib]
  unfold harmonicSeries
  congr 1
  apply sum_congr rfl
  intro h _
  rw [seg_one N _ n hn, seg_one N _ n hn]
  rfl

theorem offset_one (N : ℕ) (v : ℝ) (n : ℕ) (hn : n < N) : matVec (offsetCols [N]) [v] n = v := by
  unfold offsetCols matVec
  simp [List.range_succ, seg_one N _ n hn]

theorem list_ext_getD (x y : List ℝ) (hl : x.length = y.length) (h : ∀ j < x.length, x.getD j 0 = y.getD j 0) : x = y := by
  apply List.ext_getElem hl
  intro j h1 h2
  have := h j h1
  rw [List.getD_eq_getElem?_getD, List.getD_eq_getElem?_getD, List.getElem?_eq_getElem h1, List.getElem?_eq_getElem h2] at this
  exact this

/-- Weights in the scaled space. -/
noncomputable def up (N : ℕ) (cols : List (ℕ → ℝ)) (u : List ℝ) : List ℝ :=
  (List.range cols.length).map fun (j : ℕ) => u.getD j 0 * (10 : ℝ) ^ (colScale N (cols.getD j 0))

theorem down_up (N : ℕ) (cols : List (ℕ → ℝ)) (u rest : List ℝ) (hu : u.length = cols.length) (t norm : ℝ) :
    recoverScale ((up N cols u ++ rest).map fun v => t * v) cols.length norm (cols.map (colScale N)) = u.map fun v => t / norm * v := by
  have hl : (up N cols u).length = cols.length := by simp [up]
  apply list_ext_getD
  · simp [recoverScale, hu]
  · intro j hj
    have hj' : j < cols.length := by simpa [recoverScale] using hj
    unfold recoverScale
    rw [getD_range_map _ _ _ _ hj', getD_map_list, getD_map_list, getD_append_left_list _ _ _ _ (by omega)]
    unfold up
    rw [getD_range_map _ _ _ _ hj', getD_map_cols _ _ _ _ hj', zpow_neg]
    have : (10 : ℝ) ^ colScale N (cols.getD j 0) ≠ 0 := by positivity
    field_simp

theorem scaled_up (N : ℕ) (cols : List (ℕ → ℝ)) (u : List ℝ) (hu : u.length = cols.length) (n : ℕ) :
    matVec (scaleCols N cols) (up N cols u) n = matVec cols u n := by
  have := C39_scaling_undone N cols (up N cols u) 1 n
  rw [div_one] at this
  rw [← this]
  have h2 := down_up N cols u [] hu 1 1
  simp only [List.append_nil, one_mul, div_one, List.map_id'] at h2
  rw [h2]

theorem recover_smul (weff w : List ℝ) (links : List (ℤ × ℝ)) (t : ℝ) (h : recoverRank weff links = .ok w) :
    recoverRank (weff.map fun v => t * v) links = .ok (w.map fun v => t * v) := by
  unfold recoverRank at h ⊢
  rw [List.length_map]
  split_ifs at h ⊢ with hc
  injection h with h
  rw [← h, List.map_map]
  congr 1
  apply List.map_congr_left
  intro l _
  simp only [Function.comp]
  by_cases hl : l.1 < 0
  · rw [if_pos hl, if_pos hl, mul_zero]
  · rw [if_neg hl, if_neg hl, getD_map_list, mul_assoc]

theorem slice_mid (z u o : List ℝ) (t : ℝ) (lo hi : ℕ) (h1 : lo = z.length) (h2 : hi = z.length + u.length) :
    slice ((z ++ u ++ o).map fun v => t * v) lo hi = u.map fun v => t * v := by
  subst h1 h2
  unfold slice
  rw [List.map_append, List.map_append]
  rw [List.take_left' (by simp), List.drop_left' (by simp)]

theorem slice_end (z u o : List ℝ) (t : ℝ) (lo hi : ℕ) (h1 : lo = z.length + u.length) (h2 : hi = z.length + u.length + o.length) :
    slice ((z ++ u ++ o).map fun v => t * v) lo hi = o.map fun v => t * v := by
  subst h1 h2
  unfold slice
  rw [List.take_of_length_le (by simp only [List.length_map, List.length_append]; omega), List.map_append, List.drop_left' (by simp)]

/-- The reconstructed sine for a single dataset, when the fitted vector is `t * (z ++ tail of one side ++ other side)`. -/
theorem reconstruct_one (N : ℕ) (f : ℝ) (W H : ℕ) (hH : 0 < H) (z ut o : List ℝ) (u0 t norm : ℝ) (choice n : ℕ)
    (hz : z.length = W + 1) (hu : ut.length + 1 = H) (ho : o.length = H) (ht : t * u0 = 1) :
    reconstructSine [N] [f] W H ((z ++ ut ++ o).map fun v => t * v) choice norm 0 n
      = -(t * (if choice = 0 then matVec (cosCols [N] [f] H) (u0 :: ut) n + matVec (sinCols [N] [f] H) o n
          else matVec (cosCols [N] [f] H) o n + matVec (sinCols [N] [f] H) (u0 :: ut) n)) / norm := by
  have hcl : (cosCols [N] [f] H).length = H := by rw [cosCols_one]; simp
  have hsl : (sinCols [N] [f] H).length = H := by rw [sinCols_one]; simp
  unfold reconstructSine
  simp only [List.length_singleton, zero_mul, add_zero, one_mul, zero_add]
  rw [slice_mid z ut o t _ _ (by omega) (by omega), slice_end z ut o t _ _ (by omega) (by omega)]
  have e1 : slice (cosCols [N] [f] H) 0 H = cosCols [N] [f] H := by
    unfold slice; rw [List.drop_zero, List.take_of_length_le (by omega)]
  have e2 : slice (sinCols [N] [f] H) 0 H = sinCols [N] [f] H := by
    unfold slice; rw [List.drop_zero, List.take_of_length_le (by omega)]
  have e3 : (1 : ℝ) :: ut.map (fun v => t * v) = (u0 :: ut).map fun v => t * v := by rw [List.map_cons, ht]
  rw [e1, e2, e3]
  split_ifs
  · simp only [matVec_smul]; ring
  · simp only [matVec_smul]; ring

/-- The vector that describes the true converter in the scaled problem. -/
theorem truth_relation (N : ℕ) (cols : List (ℕ → ℝ)) (f : ℝ) (H : ℕ) (u : List ℝ) (hu : u.length = cols.length) (c : ℝ) (a b : ℕ → ℝ)
    (hclean : ∀ n < N, matVec cols u n = harmonicSeries f H c a b n) (honly : OnlyFit N cols f H u c a b) :
    Relation N (scaleCols N cols ++ offsetCols [N] ++ []) (cosCols [N] [f] H) (sinCols [N] [f] H)
      (up N cols u ++ [-c]) ((List.range H).map fun h => -a h) ((List.range H).map fun h => -b h) ∧
    OnlyRelation N (scaleCols N cols ++ offsetCols [N] ++ []) (cosCols [N] [f] H) (sinCols [N] [f] H)
      (up N cols u ++ [-c]) ((List.range H).map fun h => -a h) ((List.range H).map fun h => -b h) := by
  have hul : (up N cols u).length = cols.length := by simp [up]
  have hsl : (scaleCols N cols).length = cols.length := by simp [scaleCols]
  have hol : (offsetCols [N]).length = 1 := by simp [offsetCols]
  have hcl : (cosCols [N] [f] H).length = H := by rw [cosCols_one]; simp
  have hnl : (sinCols [N] [f] H).length = H := by rw [sinCols_one]; simp
  constructor
  · intro n hn
    rw [List.append_nil, matVec_append' _ _ _ _ _ (by rw [hul, hsl]), scaled_up N cols u hu, offset_one N _ n hn, hclean n hn, add_assoc, add_assoc,
      ← add_assoc (-c), series_eq N f H _ _ n hn]
    unfold harmonicSeries
    have : ∀ h ∈ range H, (((List.range H).map fun h => -a h).getD h 0 * Real.cos (2 * Real.pi * f * ((n : ℝ) * ((h : ℝ) + 1)))
        + ((List.range H).map fun h => -b h).getD h 0 * Real.sin (2 * Real.pi * f * ((n : ℝ) * ((h : ℝ) + 1))))
        = -(a h * Real.cos (2 * Real.pi * f * ((n : ℝ) * ((h : ℝ) + 1))) + b h * Real.sin (2 * Real.pi * f * ((n : ℝ) * ((h : ℝ) + 1)))) := by
      intro h hh
      rw [mem_range] at hh
      rw [getD_range_map _ _ _ _ hh, getD_range_map _ _ _ _ hh]
      ring
    rw [sum_congr rfl this, sum_neg_distrib]
    ring
  · intro z' a' b' l1 l2 l3 hrel
    rw [List.append_nil, List.length_append, hsl, hol] at l1
    rw [hcl] at l2
    rw [hnl] at l3
    obtain ⟨t, h1, h2, h3⟩ := honly (recoverScale z' cols.length 1 (cols.map (colScale N))) (-(z'.getD cols.length 0))
      (fun h => -(a'.getD h 0)) (fun h => -(b'.getD h 0)) (by simp [recoverScale]) (by
        intro n hn
        have := hrel n hn
        have hsplit : z' = z'.take cols.length ++ [z'.getD cols.length 0] := by
          apply list_ext_getD
          · rw [List.length_append, List.length_take, List.length_singleton]; omega
          · intro j hj
            by_cases hj' : j < cols.length
            · rw [getD_append_left_list _ _ _ _ (by rw [List.length_take]; omega), getD_take_list _ _ _ _ hj']
            · have : j = (z'.take cols.length).length + 0 := by rw [List.length_take]; omega
              conv_rhs => rw [this, getD_append_right_list]
              have : j = cols.length := by omega
              rw [this]
              rfl
        rw [List.append_nil, hsplit, matVec_append' _ _ _ _ _ (by rw [List.length_take]; omega), offset_one N _ n hn, add_assoc, add_assoc,
          ← add_assoc (z'.getD cols.length 0), series_eq N f H _ _ n hn] at this
        rw [C39_scaling_undone, div_one, matVec_congr _ z' (z'.take cols.length) n
          (fun j hj => (getD_take_list _ _ _ _ (by rw [hsl] at hj; exact hj)).symm)]
        have e : harmonicSeries f H (-(z'.getD cols.length 0)) (fun h => -(a'.getD h 0)) (fun h => -(b'.getD h 0)) n
            = -harmonicSeries f H (z'.getD cols.length 0) (fun h => a'.getD h 0) (fun h => b'.getD h 0) n := by
          unfold harmonicSeries
          rw [neg_add, ← sum_neg_distrib]
          congr 1
          apply sum_congr rfl
          intro h _
          ring
        rw [e]
        linarith)
    refine ⟨t, ?_, ?_, ?_⟩
    · apply list_ext_getD
      · rw [l1]; simp [up]
      · intro j hj
        rw [l1] at hj
        rw [getD_map_list]
        by_cases hj' : j < cols.length
        · rw [getD_append_left_list _ _ _ _ (by omega)]
          have := congrArg (fun l => l.getD j 0) h1
          unfold recoverScale at this
          rw [getD_range_map _ _ _ _ hj', getD_map_cols _ _ _ _ hj', getD_map_list, div_one, zpow_neg] at this
          unfold up
          rw [getD_range_map _ _ _ _ hj']
          have hp : (10 : ℝ) ^ colScale N (cols.getD j 0) ≠ 0 := by positivity
          field_simp at this
          rw [this]
          ring
        · have hjc : j = cols.length := by omega
          subst hjc
          have : cols.length = (up N cols u).length + 0 := by omega
          conv_rhs => rw [this, getD_append_right_list]
          change z'.getD cols.length 0 = t * -c
          linarith
    · apply list_ext_getD
      · rw [l2]; simp
      · intro j hj
        rw [l2] at hj
        rw [getD_map_list, getD_range_map _ _ _ _ hj]
        linarith [(h3 j hj).1]
    · apply list_ext_getD
      · rw [l3]; simp
      · intro j hj
        rw [l3] at hj
        rw [getD_map_list, getD_range_map _ _ _ _ hj]
        linarith [(h3 j hj).2]

/-- Solution of the known-frequency problem on noise-free data. -/
theorem known_solution (solve : Lstsq) (hs : IsLstsq solve) (N : ℕ) (cols : List (ℕ → ℝ)) (f : ℝ) (H : ℕ) (hH : 0 < H)
    (u : List ℝ) (hu : u.length = cols.length) (c : ℝ) (a b : ℕ → ℝ) (hne : a 0 ≠ 0 ∨ b 0 ≠ 0)
    (hclean : ∀ n < N, matVec cols u n = harmonicSeries f H c a b n) (honly : OnlyFit N cols f H u c a b) :
    solveKnown solve [N] (scaleCols N cols) [f] H = .ok (if -b 0 ≠ 0 then
      (((up N cols u ++ [-c]) ++ ((List.range (H - 1)).map fun h => -b (h + 1)) ++ (List.range H).map fun h => -a h).map (fun v => (-b 0)⁻¹ * v), 1)
      else (((up N cols u ++ [-c]) ++ ((List.range (H - 1)).map fun h => -a (h + 1)) ++ (List.range H).map fun h => -b h).map (fun v => (-a 0)⁻¹ * v), 0)) := by
  obtain ⟨H', rfl⟩ : ∃ H', H = H' + 1 := ⟨H - 1, by omega⟩
  obtain ⟨hrel, honly'⟩ := truth_relation N cols f (H' + 1) u hu c a b hclean honly
  have cons : ∀ {α : Type} (g : ℕ → α), (List.range (H' + 1)).map g = g 0 :: (List.range H').map fun h => g (h + 1) := by
    intro α g
    rw [List.range_succ_eq_map, List.map_cons, List.map_map]
    rfl
  rw [cosCols_one, sinCols_one, cons, cons, cons, cons] at hrel honly'
  unfold solveKnown
  rw [cosCols_one, sinCols_one, cons, cons]
  have hsum : [N].sum = N := by simp
  rw [hsum, dual_unique solve hs N _ _ _ _ _ _ _ _ _ _ _ _ (by simp [up, scaleCols, offsetCols]) (by simp) (by simp)
    (by rcases hne with h | h
        · exact Or.inl (neg_ne_zero.mpr h)
        · exact Or.inr (neg_ne_zero.mpr h)) hrel honly']
  rw [cons, cons]
  rfl

/-- The normalisation makes the weights absolute: `|t| / sqrt(1 + (t * other)^2) = 1 / amplitude` when `t * u0 = 1`. -/
theorem norm_scale (u0 o t : ℝ) (ht : t * u0 = 1) :
    (t / Real.sqrt (1 + (t * o) ^ 2)) ^ 2 * (u0 ^ 2 + o ^ 2) = 1 := by
  have h1 : (0 : ℝ) < 1 + (t * o) ^ 2 := by positivity
  rw [div_pow, Real.sq_sqrt h1.le]
  have : 1 + (t * o) ^ 2 = t ^ 2 * (u0 ^ 2 + o ^ 2) := by
    have : t ^ 2 * (u0 ^ 2 + o ^ 2) = (t * u0) ^ 2 + (t * o) ^ 2 := by ring
    rw [this, ht]; ring
  rw [this]
  have ht0 : t ≠ 0 := by intro h; rw [h, zero_mul] at ht; exact zero_ne_one ht
  have hu : u0 ^ 2 + o ^ 2 ≠ 0 := by
    intro h
    have : u0 = 0 := by nlinarith [sq_nonneg u0, sq_nonneg o]
    rw [this, mul_zero] at ht
    exact zero_ne_one ht
  field_simp

/-- **C40.** Noise-free recovery by `calibrate_weight_sine` at a known frequency with one dataset. Let `w` be the true bit weights,
following the nominal ratios where bits are inseparable (`recoverRank weff links = ok w`; automatic at full rank, see
`C40_full_rank`). If the weighted output is exactly an offset plus `H` harmonics with a fundamental of amplitude `A`, and no other
combination of the effective columns is such a series, then the call returns `± w / A` with non-negative sum, the offset on the same
scale, zero error, and the given frequency. -/
theorem C40_noise_free (solve : Lstsq) (hs : IsLstsq solve) (est : List ℝ) (segs : List (List (List ℝ))) (f : ℝ) (hf0 : f ≠ 0)
    (hf : f ≤ 1 / 2) (force : Option Bool) (hforce : force ≠ some true) (given : Option (List ℝ)) (H : ℕ) (hH : 0 < H) (lr reltol : ℝ) (maxIter : ℕ)
    (rows : List (List ℝ)) (width : ℕ) (nominal : List ℝ) (hprep : prepareInput segs given = .ok ([rows], width, nominal))
    (bits : List (ℕ → ℝ)) (hbits : bits = (List.range width).map fun (j : ℕ) => fun (n : ℕ) => (rows.getD n []).getD j 0)
    (P : Patched) (hP : P = patchRank rows.length bits nominal)
    (weff w : List ℝ) (hlen : weff.length = P.eff.length) (hw : recoverRank weff P.links = .ok w)
    (c : ℝ) (a b : ℕ → ℝ) (hclean : ∀ n < rows.length, matVec bits w n = harmonicSeries f H c a b n) (hne : a 0 ≠ 0 ∨ b 0 ≠ 0)
    (honly : OnlyFit rows.length P.eff f H weff c a b) :
    ∃ r s, calibrate solve est segs (.scalar f) force given H lr reltol maxIter = .ok r ∧ s ^ 2 * (a 0 ^ 2 + b 0 ^ 2) = 1 ∧
      r.weight = w.map (fun v => s * v) ∧ r.offset = s * c ∧ 0 ≤ r.weight.sum ∧ r.resid = [List.replicate rows.length 0] ∧ r.freq = [f] ∧
      r.snr = [200] := by
  set N := rows.length with hN
  have hrk := (C38_patch_recover_exact N bits nominal weff w (by rw [← hP]; exact hw)).2
  rw [← hP] at hrk
  have hclean' : ∀ n < N, matVec P.eff weff n = harmonicSeries f H c a b n := fun n hn => by rw [hrk n, hclean n hn]
  have hsol := known_solution solve hs N P.eff f H hH weff hlen c a b hne hclean' honly
  have hul : (up N P.eff weff).length = P.eff.length := by simp [up]
  obtain ⟨hrel, _⟩ := truth_relation N P.eff f H weff hlen c a b hclean' honly
  have cons : ∀ g : ℕ → ℝ, (List.range H).map g = g 0 :: (List.range (H - 1)).map fun h => g (h + 1) := by
    intro g
    conv_lhs => rw [show H = H - 1 + 1 by omega]
    rw [List.range_succ_eq_map, List.map_cons, List.map_map]
    rfl
  -- the finishing step, common to both basis choices
  have fin : ∀ (t u0 o0 : ℝ) (ut o : List ℝ) (choice : ℕ), t * u0 = 1 → u0 ^ 2 + o0 ^ 2 = a 0 ^ 2 + b 0 ^ 2 → o.getD 0 0 = o0 →
      ut.length + 1 = H → o.length = H →
      (∀ n < N, (if choice = 0 then matVec (cosCols [N] [f] H) (u0 :: ut) n + matVec (sinCols [N] [f] H) o n
          else matVec (cosCols [N] [f] H) o n + matVec (sinCols [N] [f] H) (u0 :: ut) n) = c - matVec P.eff weff n) →
      solveKnown solve [N] (scaleCols N P.eff) [f] H = .ok (((up N P.eff weff ++ [-c]) ++ ut ++ o).map (fun v => t * v), choice) →
      ∃ r s, calibrate solve est segs (.scalar f) force given H lr reltol maxIter = .ok r ∧ s ^ 2 * (a 0 ^ 2 + b 0 ^ 2) = 1 ∧
        r.weight = w.map (fun v => s * v) ∧ r.offset = s * c ∧ 0 ≤ r.weight.sum ∧ r.resid = [List.replicate N 0] ∧ r.freq = [f] ∧
        r.snr = [200] := by
    intro t u0 o0 ut o choice ht hamp ho0 hul' hol hser hsk
    have hz : (up N P.eff weff ++ [-c]).length = P.eff.length + 1 := by simp [hul]
    set x := ((up N P.eff weff ++ [-c]) ++ ut ++ o).map (fun v => t * v) with hx
    have hxq : x.getD (P.eff.length + 1 * H) 0 = t * o0 := by
      rw [hx, getD_map_list]
      congr 1
      have : P.eff.length + 1 * H = ((up N P.eff weff ++ [-c]) ++ ut).length + 0 := by
        rw [List.length_append, hz]; omega
      rw [this, getD_append_right_list, ho0]
    have hxW : x.getD P.eff.length 0 = t * -c := by
      rw [hx, getD_map_list]
      congr 1
      rw [List.append_assoc, getD_append_left_list _ _ _ _ (by omega)]
      have : P.eff.length = (up N P.eff weff).length + 0 := by omega
      rw [this, getD_append_right_list]
      rfl
    set norm := Real.sqrt (1 + (t * o0) ^ 2) with hnorm
    set κ := t / norm with hκ
    have hwp : recoverScale x P.eff.length norm (P.eff.map (colScale N)) = weff.map fun v => κ * v := by
      rw [hx, List.append_assoc, List.append_assoc]
      exact down_up N P.eff weff _ hlen t norm
    have hres : calibrate solve est segs (.scalar f) force given H lr reltol maxIter
        = .ok (postProcess [N] [f] bits (w.map fun v => κ * v) P.eff.length H x choice norm) := by
      unfold calibrate
      rw [if_neg (by
        rintro ⟨f', hf', h⟩
        simp only [FreqArg.values, List.mem_singleton] at hf'
        rw [hf'] at h
        exact absurd h (not_lt.mpr hf)), hprep]
      simp only [List.map_cons, List.map_nil, List.flatten_cons, List.flatten_nil, List.append_nil, List.sum_cons, List.sum_nil, add_zero,
        List.length_singleton]
      rw [← hbits, ← hN, ← hP]
      simp only [estimateFrequencies, if_neg hf0, FreqArg.values, List.replicate_one]
      have hsearch : searchWanted force [f] [f] = false := by
        unfold searchWanted
        rw [Bool.or_eq_false_iff]
        refine ⟨?_, decide_eq_false (by
          rintro ⟨y, hy, h0⟩
          rw [List.mem_singleton] at hy
          exact hf0 (hy ▸ h0))⟩
        cases force with
        | none => exact decide_eq_false (by simp [hf0])
        | some v => cases v with
          | false => rfl
          | true => exact absurd rfl hforce
      simp only [hsearch, Bool.false_eq_true, if_false, hsk]
      rw [hxq, ← hnorm, hwp, recover_smul weff w P.links κ hw]
    refine ⟨_, κ * (if (w.map fun v => κ * v).sum < 0 then -1 else 1), hres, ?_, ?_, ?_, ?_, ?_, ?_, ?_⟩
    · have := norm_scale u0 o0 t ht
      rw [← hnorm, ← hκ, hamp] at this
      split_ifs
      · linear_combination this
      · linear_combination this
    · unfold postProcess
      simp only
      rw [List.map_map]
      apply List.map_congr_left
      intro v _
      simp only [Function.comp]
      ring
    · unfold postProcess
      simp only
      rw [hxW, hκ]
      ring
    · unfold postProcess
      simp only
      rw [sum_map_mul]
      split_ifs with hlt
      · linarith
      · linarith [not_lt.mp hlt]
    · have herr : ∀ n < N, matVec bits (w.map fun v => κ * v) n - -(x.getD P.eff.length 0) / norm
          - reconstructSine [N] [f] P.eff.length H x choice norm 0 n = 0 := by
        intro n hn
        rw [hx, reconstruct_one N f P.eff.length H hH _ ut o u0 t norm choice n hz hul' hol ht, ← hx, hxW, hser n hn, matVec_smul, ← hrk n, hκ]
        ring
      unfold postProcess
      simp only [List.length_singleton, List.range_one, List.map_cons, List.map_nil, segStart, List.take_zero, List.sum_nil, zero_add,
        List.getD_cons_zero, List.map_map]
      congr 1
      rw [List.eq_replicate_iff]
      refine ⟨by simp, ?_⟩
      intro v hv
      obtain ⟨n, hn, rfl⟩ := List.mem_map.mp hv
      simp only [Function.comp]
      rw [herr n (List.mem_range.mp hn), zero_mul]
    · rfl
    · have herr : ∀ n < N, matVec bits (w.map fun v => κ * v) n - -(x.getD P.eff.length 0) / norm
          - reconstructSine [N] [f] P.eff.length H x choice norm 0 n = 0 := by
        intro n hn
        rw [hx, reconstruct_one N f P.eff.length H hH _ ut o u0 t norm choice n hz hul' hol ht, ← hx, hxW, hser n hn, matVec_smul, ← hrk n, hκ]
        ring
      unfold postProcess
      simp only [List.length_singleton, List.range_one, List.map_cons, List.map_nil, segStart, List.take_zero, List.sum_nil, zero_add,
        List.getD_cons_zero, List.map_map]
      congr 1
      unfold sndrOf
      rw [if_neg]
      have : meanSq ((List.range N).map ((fun n => matVec bits (w.map fun v => κ * v) n - -(x.getD P.eff.length 0) / norm
          - reconstructSine [N] [f] P.eff.length H x choice norm 0 n) ∘ fun t => t)) = 0 := by
        unfold meanSq
        rw [List.map_map, List.sum_eq_zero, zero_div]
        intro v hv
        obtain ⟨n, hn, rfl⟩ := List.mem_map.mp hv
        simp only [Function.comp]
        rw [herr n (List.mem_range.mp hn)]
        norm_num
      exact not_lt.mpr this.le
  have hX : ∀ n < N, matVec (scaleCols N P.eff ++ offsetCols [N] ++ []) (up N P.eff weff ++ [-c]) n = matVec P.eff weff n - c := by
    intro n hn
    rw [List.append_nil, matVec_append' _ _ _ _ _ (by rw [hul]; simp [scaleCols]), scaled_up N P.eff weff hlen, offset_one N _ n hn]
    ring
  by_cases hb0 : -b 0 ≠ 0
  · rw [if_pos hb0] at hsol
    refine fin (-b 0)⁻¹ (-b 0) (-a 0) _ _ 1 (inv_mul_cancel₀ hb0) (by ring) (by rw [getD_range_map _ _ _ _ hH]) (by simp; omega) (by simp) ?_ hsol
    intro n hn
    rw [if_neg (by norm_num)]
    have := hrel n hn
    rw [hX n hn] at this
    rw [cons (fun h => -b h)] at this
    linarith
  · rw [if_neg hb0] at hsol
    have ha0 : -a 0 ≠ 0 := neg_ne_zero.mpr (hne.resolve_right (fun h => hb0 (neg_ne_zero.mpr h)))
    refine fin (-a 0)⁻¹ (-a 0) (-b 0) _ _ 0 (inv_mul_cancel₀ ha0) (by ring) (by rw [getD_range_map _ _ _ _ hH]) (by simp; omega) (by simp) ?_ hsol
    intro n hn
    rw [if_pos rfl]
    have := hrel n hn
    rw [hX n hn] at this
    rw [cons (fun h => -a h)] at this
    linarith

end Verif
