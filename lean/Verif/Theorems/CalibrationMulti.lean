import Verif.Theorems.CalibrationLayout

/-!
# C42: several datasets
-/

namespace Verif

open Model Finset

theorem segStart_succ (lens : List ℕ) (k : ℕ) : segStart lens (k + 1) = segStart lens k + lens.getD k 0 := by
  unfold segStart
  rw [List.take_add_one, List.sum_append, List.getD_eq_getElem?_getD]
  cases lens[k]? <;> simp

theorem segStart_mono (lens : List ℕ) {j k : ℕ} (h : j ≤ k) : segStart lens j ≤ segStart lens k := by
  induction k, h using Nat.le_induction with
  | base => exact le_rfl
  | succ k _ ih => rw [segStart_succ]; omega

theorem segStart_end (lens : List ℕ) : segStart lens lens.length = lens.sum := by
  unfold segStart
  rw [List.take_length]

/-- Every row of the stacked matrix belongs to a dataset. -/
theorem row_exists (lens : List ℕ) (n : ℕ) (hn : n < lens.sum) : ∃ k < lens.length, ∃ t < lens.getD k 0, n = segStart lens k + t := by
  rw [← segStart_end] at hn
  have key : ∀ m, n < segStart lens m → ∃ k < m, ∃ t < lens.getD k 0, n = segStart lens k + t := by
    intro m
    induction m with
    | zero => intro h; simp [segStart] at h
    | succ m ih =>
      intro h
      by_cases h' : n < segStart lens m
      · obtain ⟨k, hk, r⟩ := ih h'
        exact ⟨k, by omega, r⟩
      · rw [segStart_succ] at h
        exact ⟨m, by omega, n - segStart lens m, by omega, by omega⟩
  exact key _ hn

theorem row_lt (lens : List ℕ) (k t : ℕ) (hk : k < lens.length) (ht : t < lens.getD k 0) : segStart lens k + t < lens.sum := by
  rw [← segStart_end]
  have := segStart_mono lens (show k + 1 ≤ lens.length by omega)
  rw [segStart_succ] at this
  omega

theorem seg_row (lens : List ℕ) (j k t : ℕ) (ht : t < lens.getD k 0) (g : ℕ → ℝ) :
    segCol lens j g (segStart lens k + t) = if j = k then g t else 0 := by
  unfold segCol
  by_cases h : j = k
  · subst h
    rw [if_pos rfl, if_pos ⟨by omega, by omega⟩]
    congr 1
    omega
  · rw [if_neg h, if_neg]
    rintro ⟨h1, h2⟩
    rcases Nat.lt_or_gt_of_ne h with hlt | hlt
    · have := segStart_mono lens (show j + 1 ≤ k by omega)
      rw [segStart_succ] at this
      omega
    · have := segStart_mono lens (show k + 1 ≤ j by omega)
      rw [segStart_succ] at this
      omega

/-- The list of values `g k h`, dataset by dataset. -/
def flat (K H : ℕ) (g : ℕ → ℕ → ℝ) : List ℝ := (List.range K).flatMap fun (k : ℕ) => (List.range H).map (g k)

theorem flat_length (K H : ℕ) (g : ℕ → ℕ → ℝ) : (flat K H g).length = K * H := by
  unfold flat
  induction K with
  | zero => simp
  | succ K ih => rw [List.range_succ, List.flatMap_append, List.length_append, ih]; simp; ring

theorem flat_getD (K H : ℕ) (g : ℕ → ℕ → ℝ) (k h : ℕ) (hk : k < K) (hh : h < H) : (flat K H g).getD (k * H + h) 0 = g k h := by
  induction K with
  | zero => omega
  | succ K ih =>
    have hsplit : flat (K + 1) H g = flat K H g ++ (List.range H).map (g K) := by
      unfold flat
      rw [List.range_succ, List.flatMap_append]
      simp
    rw [hsplit]
    by_cases hk' : k < K
    · rw [getD_append_left_list _ _ _ _ (by rw [flat_length]; nlinarith), ih hk']
    · have : k = K := by omega
      subst this
      have e : k * H + h = (flat k H g).length + h := by rw [flat_length]
      rw [e, getD_append_right_list, getD_range_map _ _ _ _ hh]

theorem flat_of_list (K H : ℕ) (x : List ℝ) (hx : x.length = K * H) : x = flat K H fun k h => x.getD (k * H + h) 0 := by
  apply list_ext_getD
  · rw [hx, flat_length]
  · intro j hj
    rw [hx] at hj
    have hH : 0 < H := by
      rcases Nat.eq_zero_or_pos H with h | h
      · subst h; simp at hj
      · exact h
    have e : j = j / H * H + j % H := by rw [mul_comm]; exact (Nat.div_add_mod j H).symm
    conv_rhs => rw [e]
    rw [flat_getD _ _ _ _ _ ((Nat.div_lt_iff_lt_mul hH).mpr hj) (Nat.mod_lt _ hH)]
    rw [← e]

theorem matVec_flat (K H : ℕ) (C : ℕ → ℕ → ℕ → ℝ) (g : ℕ → ℕ → ℝ) (n : ℕ) :
    matVec ((List.range K).flatMap fun (k : ℕ) => (List.range H).map (C k)) (flat K H g) n
      = ∑ k ∈ range K, ∑ h ∈ range H, g k h * C k h n := by
  induction K with
  | zero => simp [matVec]
  | succ K ih =>
    have hsplit : flat (K + 1) H g = flat K H g ++ (List.range H).map (g K) := by
      unfold flat
      rw [List.range_succ, List.flatMap_append]
      simp
    have hl : ((List.range K).flatMap fun (k : ℕ) => (List.range H).map (C k)).length = K * H := by
      clear hsplit ih
      induction K with
      | zero => simp
      | succ K ih => rw [List.range_succ, List.flatMap_append, List.length_append, ih]; simp; ring
    rw [hsplit, List.range_succ, List.flatMap_append, matVec_append' _ _ _ _ _ (by rw [flat_length, hl]), ih, sum_range_succ]
    congr 1
    simp only [List.flatMap_cons, List.flatMap_nil, List.append_nil]
    rw [matVec_range]
    apply sum_congr rfl
    intro h hh
    rw [getD_range_map _ _ _ _ (mem_range.mp hh)]

/-- Harmonic columns at a row of dataset `k`. -/
theorem multi_series (lens : List ℕ) (fs : List ℝ) (H : ℕ) (p q : ℕ → ℕ → ℝ) (d : ℝ) (k t : ℕ) (hk : k < lens.length) (ht : t < lens.getD k 0) :
    d + matVec (cosCols lens fs H) (flat lens.length H p) (segStart lens k + t)
      + matVec (sinCols lens fs H) (flat lens.length H q) (segStart lens k + t)
      = harmonicSeries (fs.getD k 0) H d (p k) (q k) t := by
  unfold cosCols sinCols
  rw [matVec_flat, matVec_flat]
  have key : ∀ (r : ℕ → ℕ → ℝ) (G : ℕ → ℕ → ℕ → ℝ), ∑ j ∈ range lens.length, ∑ h ∈ range H, r j h * segCol lens j (G j h) (segStart lens k + t)
      = ∑ h ∈ range H, r k h * G k h t := by
    intro r G
    rw [sum_eq_single k]
    · apply sum_congr rfl
      intro h _
      rw [seg_row lens k k t ht, if_pos rfl]
    · intro j _ hjk
      apply sum_eq_zero
      intro h _
      rw [seg_row lens j k t ht, if_neg hjk, mul_zero]
    · intro hk'; exact absurd (mem_range.mpr hk) hk'
  rw [key p (fun j h t => Real.cos (harmPhase (fs.getD j 0) h t)), key q (fun j h t => Real.sin (harmPhase (fs.getD j 0) h t)), add_assoc,
    ← sum_add_distrib]
  rfl

theorem multi_offset (lens : List ℕ) (c : ℕ → ℝ) (k t : ℕ) (hk : k < lens.length) (ht : t < lens.getD k 0) :
    matVec (offsetCols lens) ((List.range lens.length).map c) (segStart lens k + t) = c k := by
  unfold offsetCols
  rw [matVec_range, sum_eq_single k]
  · rw [getD_range_map _ _ _ _ hk, seg_row lens k k t ht, if_pos rfl, mul_one]
  · intro j _ hjk
    rw [seg_row lens j k t ht, if_neg hjk, mul_zero]
  · intro hk'; exact absurd (mem_range.mpr hk) hk'

/-- On dataset `k` the combination `u` of the columns is the offset `c k` plus `H` harmonics of `fs k`. -/
def MultiClean (lens : List ℕ) (cols : List (ℕ → ℝ)) (fs : List ℝ) (H : ℕ) (u : List ℝ) (c : ℕ → ℝ) (a b : ℕ → ℕ → ℝ) : Prop :=
  ∀ k < lens.length, ∀ t < lens.getD k 0, matVec cols u (segStart lens k + t) = harmonicSeries (fs.getD k 0) H (c k) (a k) (b k) t

/-- `u` is the only such combination up to a common factor. -/
def MultiOnly (lens : List ℕ) (cols : List (ℕ → ℝ)) (fs : List ℝ) (H : ℕ) (u : List ℝ) (c : ℕ → ℝ) (a b : ℕ → ℕ → ℝ) : Prop :=
  ∀ (u' : List ℝ) (d : ℕ → ℝ) (p q : ℕ → ℕ → ℝ), u'.length = cols.length → MultiClean lens cols fs H u' d p q →
    ∃ s : ℝ, u' = u.map (fun v => s * v) ∧ ∀ k < lens.length, d k = s * c k ∧ ∀ h < H, p k h = s * a k h ∧ q k h = s * b k h

theorem multi_relation (lens : List ℕ) (cols : List (ℕ → ℝ)) (fs : List ℝ) (H : ℕ) (u : List ℝ) (hu : u.length = cols.length) (c : ℕ → ℝ)
    (a b : ℕ → ℕ → ℝ) (hclean : MultiClean lens cols fs H u c a b) (honly : MultiOnly lens cols fs H u c a b) :
    Relation lens.sum (scaleCols lens.sum cols ++ offsetCols lens ++ []) (cosCols lens fs H) (sinCols lens fs H)
      (up lens.sum cols u ++ (List.range lens.length).map fun k => -c k) (flat lens.length H fun k h => -a k h) (flat lens.length H fun k h => -b k h) ∧
    OnlyRelation lens.sum (scaleCols lens.sum cols ++ offsetCols lens ++ []) (cosCols lens fs H) (sinCols lens fs H)
      (up lens.sum cols u ++ (List.range lens.length).map fun k => -c k) (flat lens.length H fun k h => -a k h) (flat lens.length H fun k h => -b k h) := by
  set N := lens.sum with hN
  set K := lens.length with hK
  have hul : (up N cols u).length = cols.length := by simp [up]
  have hsl : (scaleCols N cols).length = cols.length := by simp [scaleCols]
  have hol : (offsetCols lens).length = K := by simp [offsetCols, hK]
  have hneg : ∀ (f : ℝ) (d : ℝ) (p q : ℕ → ℝ) (t : ℕ), harmonicSeries f H (-d) (fun h => -p h) (fun h => -q h) t = -harmonicSeries f H d p q t := by
    intro f d p q t
    unfold harmonicSeries
    rw [neg_add, ← sum_neg_distrib]
    congr 1
    apply sum_congr rfl
    intro h _
    ring
  constructor
  · intro n hn
    obtain ⟨k, hk, t, ht, rfl⟩ := row_exists lens n hn
    rw [List.append_nil, matVec_append' _ _ _ _ _ (by rw [hul, hsl]), scaled_up N cols u hu, multi_offset lens _ k t hk ht, hclean k hk t ht, add_assoc,
      add_assoc, ← add_assoc (-c k), multi_series lens fs H _ _ _ k t hk ht, hneg]
    ring
  · intro z' a' b' l1 l2 l3 hrel
    have hcl : (cosCols lens fs H).length = K * H := by
      rw [← flat_length K H (fun _ _ => 0)]
      unfold cosCols flat
      simp [List.length_flatMap, hK]
    have hnl : (sinCols lens fs H).length = K * H := by
      rw [← flat_length K H (fun _ _ => 0)]
      unfold sinCols flat
      simp [List.length_flatMap, hK]
    rw [List.append_nil, List.length_append, hsl, hol] at l1
    rw [hcl] at l2
    rw [hnl] at l3
    have hz : z' = z'.take cols.length ++ (List.range K).map fun k => z'.getD (cols.length + k) 0 := by
      apply list_ext_getD
      · rw [List.length_append, List.length_take, List.length_map, List.length_range]; omega
      · intro j hj
        by_cases hj' : j < cols.length
        · rw [getD_append_left_list _ _ _ _ (by rw [List.length_take]; omega), getD_take_list _ _ _ _ hj']
        · have e : j = (z'.take cols.length).length + (j - cols.length) := by rw [List.length_take]; omega
          conv_rhs => rw [e, getD_append_right_list, getD_range_map _ _ _ _ (by omega)]
          congr 1
          omega
    have ha := flat_of_list K H a' l2
    have hb := flat_of_list K H b' l3
    obtain ⟨s, h1, h2⟩ := honly (recoverScale z' cols.length 1 (cols.map (colScale N))) (fun k => -(z'.getD (cols.length + k) 0))
      (fun k h => -(a'.getD (k * H + h) 0)) (fun k h => -(b'.getD (k * H + h) 0)) (by simp [recoverScale]) (by
        intro k hk t ht
        have hn := row_lt lens k t hk ht
        have := hrel _ hn
        rw [List.append_nil, hz, ha, hb, matVec_append' _ _ _ _ _ (by rw [List.length_take]; omega), multi_offset lens _ k t hk ht, add_assoc, add_assoc,
          ← add_assoc (z'.getD (cols.length + k) 0), multi_series lens fs H _ _ _ k t hk ht] at this
        rw [C39_scaling_undone, div_one, matVec_congr _ z' (z'.take cols.length) _
          (fun j hj => (getD_take_list _ _ _ _ (by rw [hsl] at hj; exact hj)).symm), hneg]
        linarith)
    refine ⟨s, ?_, ?_, ?_⟩
    · apply list_ext_getD
      · rw [l1]; simp [hul]
      · intro j hj
        rw [l1] at hj
        rw [getD_map_list]
        by_cases hj' : j < cols.length
        · rw [getD_append_left_list _ _ _ _ (by omega)]
          have := congrArg (fun l => l.getD j 0) h1
          unfold recoverScale at this
          rw [getD_range_map _ _ _ _ hj', getD_map_cols _ _ _ _ hj', getD_map_list, div_one, zpow_neg] at this
          unfold up
          rw [getD_range_map _ _ _ _ hj']
          have hp : (10 : ℝ) ^ colScale N (cols.getD j 0) ≠ 0 := by positivity
          field_simp at this
          rw [this]
          ring
        · have e : j = (up N cols u).length + (j - cols.length) := by omega
          conv_rhs => rw [e, getD_append_right_list, getD_range_map _ _ _ _ (show j - cols.length < K by omega)]
          have := (h2 (j - cols.length) (by omega)).1
          rw [show cols.length + (j - cols.length) = j by omega] at this
          linarith
    · apply list_ext_getD
      · rw [l2, List.length_map, flat_length]
      · intro j hj
        rw [l2] at hj
        rw [getD_map_list]
        have hH : 0 < H := by
          rcases Nat.eq_zero_or_pos H with h | h
          · subst h; simp at hj
          · exact h
        have e : j = j / H * H + j % H := by rw [mul_comm]; exact (Nat.div_add_mod j H).symm
        have hk := (Nat.div_lt_iff_lt_mul hH).mpr hj
        have hm := Nat.mod_lt j hH
        rw [e, flat_getD _ _ _ _ _ hk hm]
        linarith [((h2 _ hk).2 _ hm).1]
    · apply list_ext_getD
      · rw [l3, List.length_map, flat_length]
      · intro j hj
        rw [l3] at hj
        rw [getD_map_list]
        have hH : 0 < H := by
          rcases Nat.eq_zero_or_pos H with h | h
          · subst h; simp at hj
          · exact h
        have e : j = j / H * H + j % H := by rw [mul_comm]; exact (Nat.div_add_mod j H).symm
        have hk := (Nat.div_lt_iff_lt_mul hH).mpr hj
        have hm := Nat.mod_lt j hH
        rw [e, flat_getD _ _ _ _ _ hk hm]
        linarith [((h2 _ hk).2 _ hm).2]

/-- The coefficient the normalisation actually picks up, besides the reference amplitude: the other fundamental of the first dataset
when there is one dataset, else entry `K (H - 1) + 1` of the reference side. -/
noncomputable def pickedUp (K H : ℕ) (ref other : ℕ → ℕ → ℝ) : ℝ :=
  if K = 1 then other 0 0 else ref ((K * (H - 1) + 1) / H) ((K * (H - 1) + 1) % H)

/-- **C42 (several datasets).** Noise-free datasets at known frequencies: the weights come back as `s * w`, but the scale `s` is not
set by the amplitude `a00^2 + b00^2` of the first dataset's fundamental. With `K ≥ 2` datasets the normalisation reads a coefficient
of a different column (`pickedUp`): another harmonic of the same side. -/
theorem C42_multi_scale (solve : Lstsq) (hs : IsLstsq solve) (est : List ℝ) (segs : List (List (List ℝ))) (fs : List ℝ)
    (hf0 : ∀ f ∈ fs, f ≠ 0) (hf : ∀ f ∈ fs, f ≤ 1 / 2) (force : Option Bool) (hforce : force ≠ some true) (given : Option (List ℝ)) (H : ℕ) (hH : 0 < H)
    (lr reltol : ℝ) (maxIter : ℕ) (segs' : List (List (List ℝ))) (width : ℕ) (nominal : List ℝ)
    (hprep : prepareInput segs given = .ok (segs', width, nominal)) (hK : 0 < segs'.length) (hfl : fs.length = segs'.length)
    (lens : List ℕ) (hlens : lens = segs'.map List.length) (bits : List (ℕ → ℝ))
    (hbits : bits = (List.range width).map fun (j : ℕ) => fun (n : ℕ) => (segs'.flatten.getD n []).getD j 0)
    (w : List ℝ) (hw : w.length = width) (c : ℕ → ℝ) (a b : ℕ → ℕ → ℝ) (hne : a 0 0 ≠ 0 ∨ b 0 0 ≠ 0)
    (hclean : MultiClean lens bits fs H w c a b) (honly : MultiOnly lens bits fs H w c a b) :
    ∃ r s, calibrate solve est segs (.list fs) force given H lr reltol maxIter = .ok r ∧ r.weight = w.map (fun v => s * v) ∧ 0 ≤ r.weight.sum ∧
      (b 0 0 ≠ 0 → s ^ 2 * (b 0 0 ^ 2 + pickedUp segs'.length H b a ^ 2) = 1) ∧
      (b 0 0 = 0 → s ^ 2 * (a 0 0 ^ 2 + pickedUp segs'.length H a b ^ 2) = 1) := by
  set K := segs'.length with hKd
  have hKl : lens.length = K := by rw [hlens, List.length_map]
  set N := lens.sum with hN
  have hbl : w.length = bits.length := by rw [hbits]; simp [hw]
  -- full rank
  have hrank : bits.length + 1 ≤ rankOf N (bits ++ [fun _ => 1]) := by
    apply rank_full
    intro u d hu hd
    obtain ⟨s, h1, h2⟩ := honly u (fun _ => d) (fun _ _ => 0) (fun _ _ => 0) hu (by
      intro k hk t ht
      rw [hd _ (row_lt lens k t hk ht)]
      unfold harmonicSeries
      simp)
    obtain ⟨h3, h4⟩ := h2 0 (by omega)
    obtain ⟨h5, h6⟩ := h4 0 hH
    have hs0 : s = 0 := by
      rcases hne with h | h
      · exact (mul_eq_zero.mp h5.symm).resolve_right h
      · exact (mul_eq_zero.mp h6.symm).resolve_right h
    constructor
    · intro j _
      rw [h1, getD_map_list, hs0, zero_mul]
    · rw [h3, hs0, zero_mul]
  set P := patchRank N bits nominal with hP
  have hpf : ∀ w : List ℝ, w.length = bits.length → P.eff = bits ∧ recoverRank w P.links = .ok w := fun w hw => patch_full N bits nominal hrank w hw
  have hPe : P.eff = bits := (hpf w hbl).1
  -- the fitted vector
  obtain ⟨hrel, hon⟩ := multi_relation lens bits fs H w hbl c a b hclean honly
  rw [hKl] at hrel hon
  have hflat : ∀ g : ℕ → ℕ → ℝ, ∃ tl, flat K H g = g 0 0 :: tl ∧ tl.length + 1 = K * H := by
    intro g
    have hpos : 0 < K * H := Nat.mul_pos hK hH
    cases hfl' : flat K H g with
    | nil => have := flat_length K H g; rw [hfl'] at this; simp at this; omega
    | cons v tl =>
      have h0 := flat_getD K H g 0 0 hK hH
      rw [hfl'] at h0
      simp only [zero_mul, add_zero, List.getD_cons_zero] at h0
      refine ⟨tl, by rw [h0], ?_⟩
      have := flat_length K H g
      rw [hfl'] at this
      simpa using this
  obtain ⟨at', hat, hatl⟩ := hflat fun k h => -a k h
  obtain ⟨bt, hbt, hbtl⟩ := hflat fun k h => -b k h
  have hcl : (cosCols lens fs H).length = K * H := by
    rw [← flat_length K H (fun _ _ => 0)]
    unfold cosCols flat
    simp [List.length_flatMap, hKl]
  have hnl : (sinCols lens fs H).length = K * H := by
    rw [← flat_length K H (fun _ _ => 0)]
    unfold sinCols flat
    simp [List.length_flatMap, hKl]
  obtain ⟨c0, ct, hcc⟩ : ∃ c0 ct, cosCols lens fs H = c0 :: ct := List.exists_cons_of_length_pos (by rw [hcl]; exact Nat.mul_pos hK hH)
  obtain ⟨s0, st, hss⟩ : ∃ s0 st, sinCols lens fs H = s0 :: st := List.exists_cons_of_length_pos (by rw [hnl]; exact Nat.mul_pos hK hH)
  rw [hat, hbt, hcc, hss] at hrel hon
  have hctl : ct.length + 1 = K * H := by rw [← hcl, hcc]; simp
  have hstl : st.length + 1 = K * H := by rw [← hnl, hss]; simp
  set z := up N bits w ++ (List.range K).map fun k => -c k with hz
  have hzl : z.length = bits.length + K := by rw [hz]; simp [up]
  have hsol := dual_unique solve hs N (scaleCols N bits) (offsetCols lens) [] ct st c0 s0 z at' bt (-a 0 0) (-b 0 0)
    (by rw [hzl]; simp [scaleCols, offsetCols, hKl]) (by omega) (by omega)
    (by rcases hne with h | h
        · exact Or.inl (neg_ne_zero.mpr h)
        · exact Or.inr (neg_ne_zero.mpr h)) hrel hon
  -- calibrate, given the fitted vector
  have fin : ∀ (t u0 o0 v : ℝ) (ut ot : List ℝ) (choice : ℕ), t * u0 = 1 → ut.length + 1 = K * H →
      ((z ++ ut ++ (o0 :: ot)).getD (bits.length + K * H) 0) = v →
      solveKnown solve lens (scaleCols N bits) fs H = .ok ((z ++ ut ++ (o0 :: ot)).map (fun v => t * v), choice) →
      ∃ r s, calibrate solve est segs (.list fs) force given H lr reltol maxIter = .ok r ∧ r.weight = w.map (fun v => s * v) ∧ 0 ≤ r.weight.sum ∧
        s ^ 2 * (u0 ^ 2 + v ^ 2) = 1 := by
    intro t u0 o0 v ut ot choice ht hutl hv hsk
    set x := (z ++ ut ++ (o0 :: ot)).map (fun v => t * v) with hx
    have hxq : x.getD (bits.length + K * H) 0 = t * v := by rw [hx, getD_map_list, hv]
    set norm := Real.sqrt (1 + (t * v) ^ 2) with hnorm
    set κ := t / norm with hκ
    have hwp : recoverScale x bits.length norm (bits.map (colScale N)) = w.map fun v => κ * v := by
      rw [hx, hz, List.append_assoc, List.append_assoc]
      exact down_up N bits w _ hbl t norm
    have hres : calibrate solve est segs (.list fs) force given H lr reltol maxIter
        = .ok (postProcess lens fs bits (w.map fun v => κ * v) bits.length H x choice norm) := by
      unfold calibrate
      rw [if_neg (by
        rintro ⟨f', hf', h⟩
        exact absurd h (not_lt.mpr (hf f' hf'))), hprep]
      simp only
      rw [← hlens, ← hbits, ← hN, ← hP, hPe, hKl]
      have hz' : ¬ ∀ f ∈ fs, f = 0 := by
        intro h
        obtain ⟨f, hf'⟩ := List.exists_mem_of_length_pos (show 0 < fs.length by omega)
        exact hf0 f hf' (h f hf')
      simp only [estimateFrequencies, if_neg hz', if_neg (not_not.mpr hfl), FreqArg.values]
      have hsearch : searchWanted force fs fs = false := by
        unfold searchWanted
        rw [Bool.or_eq_false_iff]
        refine ⟨?_, decide_eq_false (by
          rintro ⟨y, hy, h0⟩
          exact hf0 y hy h0)⟩
        cases force with
        | none => exact decide_eq_false hz'
        | some v => cases v with
          | false => rfl
          | true => exact absurd rfl hforce
      simp only [hsearch, Bool.false_eq_true, if_false, hsk]
      rw [hxq, ← hnorm, hwp, (hpf _ (by simp [hbl])).2]
    refine ⟨_, κ * (if (w.map fun v => κ * v).sum < 0 then -1 else 1), hres, ?_, ?_, ?_⟩
    · unfold postProcess
      simp only
      rw [List.map_map]
      apply List.map_congr_left
      intro v _
      simp only [Function.comp]
      ring
    · unfold postProcess
      simp only
      rw [sum_map_mul]
      split_ifs with hlt
      · linarith
      · linarith [not_lt.mp hlt]
    · have := norm_scale u0 v t ht
      rw [← hnorm, ← hκ] at this
      split_ifs
      · linear_combination this
      · linear_combination this
  -- which entry is read
  have hread : ∀ (ref other : ℕ → ℕ → ℝ) (rt ot : List ℝ), flat K H (fun k h => -ref k h) = -ref 0 0 :: rt → rt.length + 1 = K * H →
      (z ++ rt ++ (-other 0 0 :: ot)).getD (bits.length + K * H) 0 = -pickedUp K H ref other := by
    intro ref other rt ot hrt hrl
    unfold pickedUp
    by_cases hK1 : K = 1
    · rw [if_pos hK1]
      have e : bits.length + K * H = (z ++ rt).length + 0 := by
        rw [List.length_append, hzl]
        rw [hK1] at hrl ⊢
        omega
      rw [e, getD_append_right_list]
      rfl
    · rw [if_neg hK1]
      have h2 : K * H = K + K * (H - 1) := by
        obtain ⟨H', rfl⟩ : ∃ H', H = H' + 1 := ⟨H - 1, by omega⟩
        simp only [Nat.add_sub_cancel]
        ring
      have e : bits.length + K * H = z.length + K * (H - 1) := by rw [hzl]; omega
      have hlt : K * (H - 1) < rt.length := by omega
      rw [e, List.append_assoc, getD_append_right_list, getD_append_left_list _ _ _ _ hlt]
      have h3 : rt.getD (K * (H - 1)) 0 = (flat K H (fun k h => -ref k h)).getD (K * (H - 1) + 1) 0 := by
        rw [hrt, List.getD_cons_succ]
      have h4 : K * (H - 1) + 1 < K * H := by omega
      have e2 : K * (H - 1) + 1 = (K * (H - 1) + 1) / H * H + (K * (H - 1) + 1) % H := by
        rw [mul_comm _ H]; exact (Nat.div_add_mod _ H).symm
      rw [h3]
      conv_lhs => rw [e2]
      rw [flat_getD _ _ _ _ _ ((Nat.div_lt_iff_lt_mul hH).mpr h4) (Nat.mod_lt _ hH)]
  have hunf : solveKnown solve lens (scaleCols N bits) fs H
      = dualBasis solve N (scaleCols N bits) (offsetCols lens) [] (c0 :: ct) (s0 :: st) := by
    unfold solveKnown
    rw [hcc, hss]
  have hsk := hunf.trans hsol
  by_cases hb0 : b 0 0 = 0
  · have ha0 : a 0 0 ≠ 0 := hne.resolve_right (not_not.mpr hb0)
    rw [if_neg (by rw [hb0]; simp)] at hsk
    obtain ⟨r, s, h1, h2, h3, h4⟩ := fin (-a 0 0)⁻¹ (-a 0 0) (-b 0 0) _ at' bt 0 (inv_mul_cancel₀ (neg_ne_zero.mpr ha0)) hatl
      (hread a b at' bt hat hatl) hsk
    refine ⟨r, s, h1, h2, h3, fun h => absurd hb0 h, fun _ => ?_⟩
    rw [← h4]; ring
  · rw [if_pos (neg_ne_zero.mpr hb0)] at hsk
    obtain ⟨r, s, h1, h2, h3, h4⟩ := fin (-b 0 0)⁻¹ (-b 0 0) (-a 0 0) _ bt at' 1 (inv_mul_cancel₀ (neg_ne_zero.mpr hb0)) hbtl
      (hread b a bt at' hbt hbtl) hsk
    refine ⟨r, s, h1, h2, h3, fun _ => ?_, fun h => absurd h hb0⟩
    rw [← h4]; ring

/-! ### Witness: two one-bit records at a quarter of the sampling rate -/

/-- `1, 1, 0` is `1/2 + cos/2 + sin/2`; `0, 1, 0` is a pure sine of amplitude 1. -/
def twoRecords : List (List (List ℝ)) := [[[1], [1], [0]], [[0], [1], [0]]]

theorem two_prep : prepareInput twoRecords none = .ok (twoRecords, 1, [1]) := by
  have h1 : orientSegment [[1], [1], [(0 : ℝ)]] = [[1], [1], [0]] := by unfold orientSegment; simp
  have h2 : orientSegment [[0], [1], [(0 : ℝ)]] = [[0], [1], [0]] := by unfold orientSegment; simp
  unfold twoRecords prepareInput
  simp [stackSegments, h1, h2, nominalWeights]

def twoBits : List (ℕ → ℝ) := (List.range 1).map fun (j : ℕ) => fun (n : ℕ) => (twoRecords.flatten.getD n []).getD j 0

private theorem two_value (u : List ℝ) (k t : ℕ) (hk : k < 2) (ht : t < 3) :
    matVec twoBits u (segStart [3, 3] k + t) = u.getD 0 0 * (if k = 0 then (if t < 2 then 1 else 0) else if t = 1 then 1 else 0) := by
  unfold twoBits
  rw [matVec_range, sum_range_one]
  congr 1
  interval_cases k <;> interval_cases t <;> simp [twoRecords, segStart]

noncomputable def twoA (k h : ℕ) : ℝ := if k = 0 then 1 / 2 else 0
noncomputable def twoB (k h : ℕ) : ℝ := if k = 0 then 1 / 2 else 1

theorem two_clean : MultiClean [3, 3] twoBits [1 / 4, 1 / 4] 1 [1] (fun k => if k = 0 then 1 / 2 else 0) twoA twoB := by
  intro k hk t ht
  have hk' : k < 2 := by simpa using hk
  have hf : [(1 / 4 : ℝ), 1 / 4].getD k 0 = 1 / 4 := by interval_cases k <;> rfl
  have ht' : t < 3 := by interval_cases k <;> simpa using ht
  rw [two_value _ k t hk' ht', hf]
  obtain ⟨h0, h1, h2, _⟩ := quarter_series (if k = 0 then 1 / 2 else 0) (twoA k) (twoB k)
  interval_cases t
  · rw [h0]; interval_cases k <;> norm_num [twoA]
  · rw [h1]; interval_cases k <;> norm_num [twoB]
  · rw [h2]; interval_cases k <;> norm_num [twoA]

theorem two_only : MultiOnly [3, 3] twoBits [1 / 4, 1 / 4] 1 [1] (fun k => if k = 0 then 1 / 2 else 0) twoA twoB := by
  intro u d p q hu h
  obtain ⟨x, rfl⟩ := List.length_eq_one_iff.mp (show u.length = 1 by simpa [twoBits] using hu)
  have e : ∀ k < 2, x * (if k = 0 then 1 else 0) = d k + p k 0 ∧ x = d k + q k 0 ∧ 0 = d k - p k 0 := by
    intro k hk
    have hf : [(1 / 4 : ℝ), 1 / 4].getD k 0 = 1 / 4 := by interval_cases k <;> rfl
    have hl : ∀ t < 3, t < [3, 3].getD k 0 := by intro t ht; interval_cases k <;> simpa using ht
    obtain ⟨h0, h1, h2, _⟩ := quarter_series (d k) (p k) (q k)
    have e0 := h k hk 0 (hl 0 (by norm_num))
    have e1 := h k hk 1 (hl 1 (by norm_num))
    have e2 := h k hk 2 (hl 2 (by norm_num))
    rw [two_value _ k _ hk (by norm_num), hf] at e0 e1 e2
    rw [h0] at e0
    rw [h1] at e1
    rw [h2] at e2
    interval_cases k <;> norm_num at e0 e1 e2 ⊢ <;> exact ⟨e0, e1, e2⟩
  obtain ⟨a1, a2, a3⟩ := e 0 (by norm_num)
  obtain ⟨b1, b2, b3⟩ := e 1 (by norm_num)
  norm_num at a1 b1
  refine ⟨x, by simp, ?_⟩
  intro k hk
  have hk' : k < 2 := by simpa using hk
  interval_cases k
  · refine ⟨by norm_num; linarith, ?_⟩
    intro h hh
    have : h = 0 := by omega
    subst this
    constructor
    · norm_num [twoA]; linarith
    · norm_num [twoB]; linarith
  · refine ⟨by norm_num; linarith, ?_⟩
    intro h hh
    have : h = 0 := by omega
    subst this
    constructor
    · norm_num [twoA]; linarith
    · norm_num [twoB]; linarith

/-- **C42 is false for two datasets.** The records `1, 1, 0` and `0, 1, 0` (weight 1, amplitude `1/sqrt 2` in the first and 1 in the
second) come back with weight `2/sqrt 5`: neither dataset's sine is normalised to amplitude 1 (that would be `sqrt 2` or `1`). -/
theorem C42_multi_false (solve : Lstsq) (hs : IsLstsq solve) :
    ∃ r, calibrate solve [] twoRecords (.list [1 / 4, 1 / 4]) none none 1 (1 / 2) 0 100 = .ok r ∧ ∃ s, r.weight = [s] ∧ 0 ≤ s ∧ s ^ 2 = 4 / 5 ∧
      s ^ 2 ≠ 2 ∧ s ^ 2 ≠ 1 := by
  obtain ⟨r, s, h1, h2, h3, h4, _⟩ := C42_multi_scale solve hs [] twoRecords [1 / 4, 1 / 4] (by simp) (by intro f hf; simp at hf; subst hf; norm_num)
    none (by simp) none 1 one_pos (1 / 2) 0 100 twoRecords 1 [1] two_prep (by simp [twoRecords]) (by simp [twoRecords]) [3, 3] (by simp [twoRecords])
    twoBits rfl [1] rfl _ twoA twoB (Or.inl (by norm_num [twoA])) two_clean two_only
  have h5 := h4 (by norm_num [twoB])
  have hp : pickedUp twoRecords.length 1 twoB twoA = 1 := by simp [pickedUp, twoRecords, twoB]
  rw [hp] at h5
  have hb : twoB 0 0 = 1 / 2 := by simp [twoB]
  rw [hb] at h5
  have h6 : s ^ 2 = 4 / 5 := by linarith
  refine ⟨r, h1, s, by rw [h2]; simp, by rw [h2] at h3; simpa using h3, h6, by rw [h6]; norm_num, by rw [h6]; norm_num⟩

end Verif
