import Verif.Model.MatlabMulti
import Verif.Theorems.MatlabCal
import Verif.Theorems.CalibrationMulti

/-!
# C138: several datasets, `calibrate_weight_sine` against MATLAB's `wcalsin` with a cell array
-/

namespace Verif

open Model Finset

/-- `u` is, up to a factor, the only combination of the columns that is one common offset plus `H` harmonics on each dataset. -/
def OneOffsetOnly (lens : List ℕ) (cols : List (ℕ → ℝ)) (fs : List ℝ) (H : ℕ) (u : List ℝ) (c : ℝ) (a b : ℕ → ℕ → ℝ) : Prop :=
  ∀ (u' : List ℝ) (d : ℝ) (p q : ℕ → ℕ → ℝ), u'.length = cols.length → MultiClean lens cols fs H u' (fun _ => d) p q →
    ∃ s : ℝ, u' = u.map (fun v => s * v) ∧ d = s * c ∧ ∀ k < lens.length, ∀ h < H, p k h = s * a k h ∧ q k h = s * b k h

theorem one_of_multi (lens : List ℕ) (hK : 0 < lens.length) (cols : List (ℕ → ℝ)) (fs : List ℝ) (H : ℕ) (u : List ℝ) (c : ℝ) (a b : ℕ → ℕ → ℝ)
    (h : MultiOnly lens cols fs H u (fun _ => c) a b) : OneOffsetOnly lens cols fs H u c a b := by
  intro u' d p q hu hc
  obtain ⟨s, h1, h2⟩ := h u' (fun _ => d) p q hu hc
  exact ⟨s, h1, (h2 0 hK).1, fun k hk => (h2 k hk).2⟩

/-! ## The block columns -/

theorem grid_length {α : Type} (K H : ℕ) (F : ℕ → ℕ → α) : ((List.range K).flatMap fun (k : ℕ) => (List.range H).map (F k)).length = K * H := by
  induction K with
  | zero => simp
  | succ K ih => rw [List.range_succ, List.flatMap_append, List.length_append, ih]; simp; ring

theorem grid_getD (K H : ℕ) (F : ℕ → ℕ → ℕ → ℝ) (k h : ℕ) (hk : k < K) (hh : h < H) :
    ((List.range K).flatMap fun (k : ℕ) => (List.range H).map (F k)).getD (k * H + h) 0 = F k h := by
  induction K with
  | zero => omega
  | succ K ih =>
    rw [List.range_succ, List.flatMap_append]
    by_cases hk' : k < K
    · rw [getD_append_left_list _ _ _ _ (by rw [grid_length]; nlinarith), ih hk']
    · have : k = K := by omega
      subst this
      have e : k * H + h = ((List.range k).flatMap fun (k : ℕ) => (List.range H).map (F k)).length + h := by rw [grid_length]
      rw [e, getD_append_right_list]
      simp only [List.flatMap_cons, List.flatMap_nil, List.append_nil]
      rw [getD_range_map _ _ _ _ hh]

theorem blocks_cos (lens : List ℕ) (fs : List ℝ) (H : ℕ) : mlBlocks lens fs H mlXc = cosCols lens fs H := by
  unfold mlBlocks cosCols
  congr 1
  funext k
  congr 1
  funext h
  congr 1
  funext t
  rw [xc_eq]
  rfl

theorem blocks_sin (lens : List ℕ) (fs : List ℝ) (H : ℕ) : mlBlocks lens fs H mlXs = sinCols lens fs H := by
  unfold mlBlocks sinCols
  congr 1
  funext k
  congr 1
  funext h
  congr 1
  funext t
  rw [xs_eq]
  rfl

theorem blocks_row (lens : List ℕ) (fs : List ℝ) (H : ℕ) (g : ℝ → ℕ → ℕ → ℝ) (k h t : ℕ) (hk : k < lens.length) (hh : h < H) (ht : t < lens.getD k 0) :
    ((mlBlocks lens fs H g).getD (k * H + h) 0) (segStart lens k + t) = g (fs.getD k 0) h t := by
  unfold mlBlocks
  rw [grid_getD lens.length H (fun k h => segCol lens k (g (fs.getD k 0) h)) k h hk hh, seg_row lens k k t ht, if_pos rfl]

/-- Coefficient of the unity basis, dataset `k`, harmonic `h`. -/
noncomputable def unityCoef (M H : ℕ) (x : List ℝ) (k h : ℕ) : ℝ := if k = 0 ∧ h = 0 then 1 else x.getD (M + k * H + h) 0

/-- Coefficient of the other basis. -/
noncomputable def otherCoef (M L H : ℕ) (x : List ℝ) (k h : ℕ) : ℝ := x.getD (M + L + k * H + h) 0

theorem ideal_sum (M L H : ℕ) (hH : 0 < H) (u o : List (ℕ → ℝ)) (x : List ℝ) (w0 : ℝ) (k n : ℕ) :
    (if k = 0 then mlIdealFirst M L H u o x w0 n else mlIdealNext M L H k u o x w0 n)
      = -(∑ h ∈ range H, (u.getD (k * H + h) 0) n * unityCoef M H x k h + ∑ h ∈ range H, (o.getD (k * H + h) 0) n * otherCoef M L H x k h) / w0 := by
  by_cases hk : k = 0
  · rw [if_pos hk]
    subst hk
    unfold mlIdealFirst
    simp only [zero_mul, zero_add, otherCoef, add_zero]
    congr 2
    congr 1
    obtain ⟨m, rfl⟩ : ∃ m, H = m + 1 := ⟨H - 1, by omega⟩
    rw [sum_range_succ', Nat.add_sub_cancel, add_comm]
    congr 1
    · apply sum_congr rfl
      intro h _
      unfold unityCoef
      rw [if_neg (by omega), show M + 0 * (m + 1) + (h + 1) = M + 1 + h by omega]
    · unfold unityCoef
      rw [if_pos ⟨rfl, rfl⟩, mul_one]
  · rw [if_neg hk]
    unfold mlIdealNext
    congr 2
    congr 1
    apply sum_congr rfl
    intro h _
    unfold unityCoef
    rw [if_neg (by tauto)]

theorem ideal_series (lens : List ℕ) (fs : List ℝ) (M L H : ℕ) (hH : 0 < H) (x : List ℝ) (w0 : ℝ) (sel : Bool) (k t : ℕ) (hk : k < lens.length)
    (ht : t < lens.getD k 0) :
    (if k = 0 then mlIdealFirst M L H (if sel then mlBlocks lens fs H mlXs else mlBlocks lens fs H mlXc) (if sel then mlBlocks lens fs H mlXc else mlBlocks lens fs H mlXs) x w0 (segStart lens k + t)
      else mlIdealNext M L H k (if sel then mlBlocks lens fs H mlXs else mlBlocks lens fs H mlXc) (if sel then mlBlocks lens fs H mlXc else mlBlocks lens fs H mlXs) x w0 (segStart lens k + t))
      = harmonicSeries (fs.getD k 0) H 0 (fun h => -(if sel then otherCoef M L H x k h else unityCoef M H x k h) / w0)
          (fun h => -(if sel then unityCoef M H x k h else otherCoef M L H x k h) / w0) t := by
  rw [ideal_sum M L H hH]
  unfold harmonicSeries
  rw [zero_add, ← sum_add_distrib, neg_div, sum_div, ← sum_neg_distrib]
  apply sum_congr rfl
  intro h hh
  have hh' := mem_range.mp hh
  cases sel
  · simp only [Bool.false_eq_true, if_false]
    rw [blocks_row lens fs H mlXc k h t hk hh' ht, blocks_row lens fs H mlXs k h t hk hh' ht, xc_eq, xs_eq]
    ring
  · simp only [if_true]
    rw [blocks_row lens fs H mlXc k h t hk hh' ht, blocks_row lens fs H mlXs k h t hk hh' ht, xc_eq, xs_eq]
    ring

/-! ## The input checks -/

theorem stack_ok (segs : List (List (List ℝ))) (o : Option ℕ) (l : List (List (List ℝ))) (w : Option ℕ) (h : stackSegments o segs = .ok (l, w)) :
    l = segs.map orientSegment ∧ (∀ s ∈ segs, s ≠ [] ∧ s.headD [] ≠ []) ∧ (∀ r ∈ l, some (r.headD []).length = w) ∧ (∀ m, o = some m → w = some m) := by
  induction segs generalizing o l w with
  | nil =>
    unfold stackSegments at h
    injection h with h
    injection h with h1 h2
    subst h1 h2
    simp
  | cons s rest ih =>
    unfold stackSegments at h
    split_ifs at h with h0
    push Not at h0
    cases o with
    | none =>
      simp only at h
      cases hr : stackSegments (some ((orientSegment s).headD []).length) rest with
      | error e => rw [hr] at h; cases h
      | ok p =>
        obtain ⟨l', w'⟩ := p
        rw [hr] at h
        injection h with h
        injection h with h1 h2
        subst h1 h2
        obtain ⟨i1, i2, i3, i4⟩ := ih _ _ _ hr
        refine ⟨by rw [i1]; rfl, ?_, ?_, by simp⟩
        · intro s' hs'
          rcases List.mem_cons.mp hs' with e | e
          · rw [e]; exact h0
          · exact i2 s' e
        · intro r hr'
          rcases List.mem_cons.mp hr' with e | e
          · rw [e, i4 _ rfl]
          · exact i3 r e
    | some m =>
      simp only at h
      split_ifs at h with hm
      rw [not_not] at hm
      cases hr : stackSegments (some m) rest with
      | error e => rw [hr] at h; cases h
      | ok p =>
        obtain ⟨l', w'⟩ := p
        rw [hr] at h
        injection h with h
        injection h with h1 h2
        subst h1 h2
        obtain ⟨i1, i2, i3, i4⟩ := ih _ _ _ hr
        refine ⟨by rw [i1]; rfl, ?_, ?_, i4⟩
        · intro s' hs'
          rcases List.mem_cons.mp hs' with e | e
          · rw [e]; exact h0
          · exact i2 s' e
        · intro r hr'
          rcases List.mem_cons.mp hr' with e | e
          · rw [e, i4 _ rfl, hm]
          · exact i3 r e

theorem stack_pass (segs : List (List (List ℝ))) (m : ℕ) (o : Option ℕ) (ho : o = none ∨ o = some m) (h1 : ∀ s ∈ segs, s ≠ [] ∧ s.headD [] ≠ [])
    (h2 : ∀ r ∈ segs.map orientSegment, (r.headD []).length = m) : ∃ w, stackSegments o segs = .ok (segs.map orientSegment, w) := by
  induction segs generalizing o with
  | nil => exact ⟨o, rfl⟩
  | cons s rest ih =>
    have hs := h1 s List.mem_cons_self
    have hm := h2 (orientSegment s) (by simp)
    have hrec := ih (some m) (Or.inr rfl) (fun s' hs' => h1 s' (List.mem_cons_of_mem _ hs')) (fun r hr => h2 r (by simp at hr ⊢; tauto))
    obtain ⟨w, hw⟩ := hrec
    unfold stackSegments
    rw [if_neg (by tauto)]
    rcases ho with rfl | rfl
    · simp only [hm, hw]
      exact ⟨w, rfl⟩
    · simp only [hm, ne_eq, not_true_eq_false, if_false, hw]
      exact ⟨w, rfl⟩

/-- Given frequencies without search are used as they are. -/
theorem each_known (solve : Lstsq) (rows : List (List (List ℝ))) (fs : List ℝ) (hfl : fs.length = rows.length) (hf0 : ∀ f ∈ fs, f ≠ 0) (rate reltol : ℝ)
    (niter H : ℕ) (nominal : List ℝ) : mlEachFreq solve rows fs rate reltol niter H false nominal = some fs := by
  have e : (List.range rows.length).map (fun (k : ℕ) => if fs.getD k 0 = 0 ∨ false = true then
      (mlWcalsin solve (rows.getD k []) (fs.getD k 0) rate reltol niter H true (some nominal)).map (·.freqcal) else some (fs.getD k 0)) = fs.map some := by
    apply List.ext_getElem
    · simp [hfl]
    · intro k h1 h2
      have hk : k < fs.length := by simpa using h2
      rw [List.getElem_map, List.getElem_map, List.getElem_range, List.getD_eq_getElem _ _ hk, if_neg]
      rintro (h | h)
      · exact hf0 _ (List.getElem_mem hk) h
      · exact absurd h (by simp)
  unfold mlEachFreq
  simp only [e]
  rw [if_neg (by simp)]
  simp

/-- What MATLAB computes once the checks are passed and the bit matrix has full rank. -/
theorem cell_known (solve : Lstsq) (segs : List (List (List ℝ))) (fs : List ℝ) (hf0 : ∀ f ∈ fs, 0 < f) (rate reltol : ℝ) (hr0 : 0 < rate) (hr1 : rate < 1)
    (ht : 0 < reltol) (niter H : ℕ) (hn : 0 < niter) (hH : 0 < H) (given : Option (List ℝ)) (segs' : List (List (List ℝ))) (width : ℕ) (nominal : List ℝ)
    (hprep : prepareInput segs given = .ok (segs', width, nominal)) (hfl : fs.length = segs'.length) (lens : List ℕ) (hlens : lens = segs'.map List.length)
    (bits : List (ℕ → ℝ)) (hbits : bits = (List.range width).map fun (j : ℕ) => fun (n : ℕ) => (segs'.flatten.getD n []).getD j 0)
    (hrank : bits.length + 1 ≤ rankOf lens.sum (bits ++ [fun _ => 1])) :
    0 < segs'.length ∧ 0 < bits.length ∧ ∃ P : Patched, P.eff = bits ∧ P.links = (List.range bits.length).map (fun (i : ℕ) => ((i : ℤ), (1 : ℝ))) ∧
      mlWcalsinCell solve segs fs rate reltol niter H false given
        = some (mlMultiResult lens bits P fs H (mlBlocks lens fs H mlXc) (mlBlocks lens fs H mlXs)
            (mlMultiFit solve lens.sum (mlScaled lens.sum bits) (mlBlocks lens fs H mlXc) (mlBlocks lens fs H mlXs)).1
            (mlMultiFit solve lens.sum (mlScaled lens.sum bits) (mlBlocks lens fs H mlXc) (mlBlocks lens fs H mlXs)).2) := by
  unfold prepareInput at hprep
  split_ifs at hprep with h0
  cases hst : stackSegments none segs with
  | error e => rw [hst] at hprep; cases hprep
  | ok p =>
    obtain ⟨l, w⟩ := p
    rw [hst] at hprep
    simp only at hprep
    cases hnom : nominalWeights (w.getD 0) given with
    | error e => rw [hnom] at hprep; cases hprep
    | ok nom =>
      rw [hnom] at hprep
      injection hprep with hprep
      injection hprep with e1 e2
      injection e2 with e2 e3
      subst e1 e2 e3
      obtain ⟨i1, i2, i3, _⟩ := stack_ok segs none l w hst
      have hpos : 0 < segs.length := List.length_pos_iff.mpr h0
      have hlpos : 0 < l.length := by rw [i1, List.length_map]; exact hpos
      have hwid : ((l.headD []).headD []).length = w.getD 0 := by
        obtain ⟨r, l', hl'⟩ := List.exists_cons_of_length_pos hlpos
        have := i3 r (by rw [hl']; simp)
        rw [hl', List.headD_cons, ← this]
        rfl
      have hbl : bits.length = w.getD 0 := by rw [hbits]; simp
      have hw0 : 0 < w.getD 0 := by
        obtain ⟨s, rest, hs⟩ := List.exists_cons_of_length_pos hpos
        obtain ⟨n1, n2⟩ := i2 s (by rw [hs]; simp)
        have hpos2 : 0 < (s.headD []).length := List.length_pos_iff.mpr n2
        have := i3 (orientSegment s) (by rw [i1, hs]; simp)
        rw [← this]
        simp only [Option.getD_some]
        unfold orientSegment
        split_ifs with hlt
        · obtain ⟨m, hm⟩ : ∃ m, (s.headD []).length = m + 1 := ⟨_, (Nat.succ_pred_eq_of_pos hpos2).symm⟩
          rw [hm, List.range_succ_eq_map]
          simpa using List.length_pos_iff.mpr n1
        · exact hpos2
      have hfs : (if fs.length = 1 then List.replicate l.length (fs.headD 0) else fs) = fs := by
        split_ifs with h1
        · obtain ⟨f, rfl⟩ := List.length_eq_one_iff.mp h1
          rw [← hfl]
          rfl
        · rfl
      refine ⟨hlpos, by omega, { eff := bits, founders := List.range bits.length, links := (List.range bits.length).map fun (i : ℕ) => ((i : ℤ), (1 : ℝ)) },
        rfl, rfl, ?_⟩
      unfold mlWcalsinCell
      rw [if_neg h0, if_neg, if_neg]
      · simp only [← i1]
        rw [if_neg, hfs, if_neg (not_not.mpr hfl), each_known solve l fs hfl (fun f hf => (hf0 f hf).ne')]
        · simp only [hwid, ← hlens, ← hbits]
          have hp : mlPatch lens.sum bits (mlNominal (w.getD 0) given)
              = some { eff := bits, founders := List.range bits.length, links := (List.range bits.length).map fun (i : ℕ) => ((i : ℤ), (1 : ℝ)) } := by
            unfold mlPatch
            rw [if_neg (by omega), if_neg (by omega)]
          rw [hp]
        · rintro ⟨r, hr, hne⟩
          apply hne
          rw [hwid, ← i3 r hr]
          rfl
      · rintro ⟨s, hs, h⟩
        have := i2 s hs
        tauto
      · rintro (⟨f, hf, h⟩ | h | h | h | h | h)
        · exact absurd h (not_lt.mpr (hf0 f hf).le)
        · linarith
        · linarith
        · linarith
        · omega
        · omega

/-! ## The fit on noise-free data -/

/-- Weights in MATLAB's column scaling. -/
noncomputable def mlUp (N : ℕ) (cols : List (ℕ → ℝ)) (u : List ℝ) : List ℝ :=
  (List.range cols.length).map fun (j : ℕ) => u.getD j 0 * (10 : ℝ) ^ (mlMag N (cols.getD j 0))

theorem mlUp_vec (N : ℕ) (cols : List (ℕ → ℝ)) (u : List ℝ) (n : ℕ) : matVec (mlScaled N cols) (mlUp N cols u) n = matVec cols u n := by
  rw [mlScaled_vec]
  apply matVec_congr
  intro j hj
  rw [getD_range_map _ _ _ _ hj]
  unfold mlUp
  rw [getD_range_map _ _ _ _ hj, zpow_neg]
  have : (10 : ℝ) ^ mlMag N (cols.getD j 0) ≠ 0 := by positivity
  field_simp

theorem series_neg (f : ℝ) (H : ℕ) (d : ℝ) (p q : ℕ → ℝ) (t : ℕ) :
    harmonicSeries f H (-d) (fun h => -p h) (fun h => -q h) t = -harmonicSeries f H d p q t := by
  unfold harmonicSeries
  rw [neg_add, ← sum_neg_distrib]
  congr 1
  apply sum_congr rfl
  intro h _
  ring

theorem one_rank (lens : List ℕ) (hK : 0 < lens.length) (cols : List (ℕ → ℝ)) (fs : List ℝ) (H : ℕ) (hH : 0 < H) (u : List ℝ) (c : ℝ) (a b : ℕ → ℕ → ℝ)
    (hne : a 0 0 ≠ 0 ∨ b 0 0 ≠ 0) (honly : OneOffsetOnly lens cols fs H u c a b) : cols.length + 1 ≤ rankOf lens.sum (cols ++ [fun _ => 1]) := by
  apply rank_full
  intro v d hv hd
  obtain ⟨s, h1, h2, h3⟩ := honly v d (fun _ _ => 0) (fun _ _ => 0) hv (by
    intro k hk t ht
    rw [hd _ (row_lt lens k t hk ht)]
    unfold harmonicSeries
    simp)
  obtain ⟨h5, h6⟩ := h3 0 hK 0 hH
  have hs0 : s = 0 := by
    rcases hne with h | h
    · exact (mul_eq_zero.mp h5.symm).resolve_right h
    · exact (mul_eq_zero.mp h6.symm).resolve_right h
  constructor
  · intro j _
    rw [h1, getD_map_list, hs0, zero_mul]
  · rw [h2, hs0, zero_mul]

/-- The fit MATLAB returns on noise-free data with one common offset and a sine part in the first dataset. -/
theorem multi_fit (solve : Lstsq) (hs : IsLstsq solve) (lens : List ℕ) (hK : 0 < lens.length) (hN : 0 < lens.sum) (cols : List (ℕ → ℝ)) (fs : List ℝ) (H : ℕ)
    (hH : 0 < H) (u : List ℝ) (hu : u.length = cols.length) (c : ℝ) (a b : ℕ → ℕ → ℝ) (hb0 : b 0 0 ≠ 0)
    (hclean : MultiClean lens cols fs H u (fun _ => c) a b) (honly : OneOffsetOnly lens cols fs H u c a b) :
    ∃ x : List ℝ, mlMultiFit solve lens.sum (mlScaled lens.sum cols) (mlBlocks lens fs H mlXc) (mlBlocks lens fs H mlXs) = (x, true) ∧
      (∀ j < cols.length, x.getD j 0 = -(b 0 0)⁻¹ * (u.getD j 0 * (10 : ℝ) ^ (mlMag lens.sum (cols.getD j 0)))) ∧
      x.getD cols.length 0 = (b 0 0)⁻¹ * c ∧
      (∀ k < lens.length, ∀ h < H, unityCoef cols.length H x k h = (b 0 0)⁻¹ * b k h) ∧
      ∀ k < lens.length, ∀ h < H, otherCoef cols.length (lens.length * H) H x k h = (b 0 0)⁻¹ * a k h := by
  set N := lens.sum with hNd
  set K := lens.length with hKd
  set M := cols.length with hM
  have hpos : 0 < K * H := Nat.mul_pos hK hH
  rw [blocks_cos, blocks_sin]
  have hcl : (cosCols lens fs H).length = K * H := by unfold cosCols; rw [grid_length]
  have hnl : (sinCols lens fs H).length = K * H := by unfold sinCols; rw [grid_length]
  obtain ⟨s0, st, hss⟩ : ∃ s0 st, sinCols lens fs H = s0 :: st := List.exists_cons_of_length_pos (by omega)
  have hstl : st.length + 1 = K * H := by rw [← hnl, hss]; simp
  have hbcons : flat K H (fun k h => -b k h) = -b 0 0 :: (flat K H (fun k h => -b k h)).tail := by
    have h0 := flat_getD K H (fun k h => -b k h) 0 0 hK hH
    have hl := flat_length K H (fun k h => -b k h)
    cases hf : flat K H (fun k h => -b k h) with
    | nil => rw [hf] at hl; simp at hl; omega
    | cons v tl =>
      rw [hf] at h0
      simp only [zero_mul, add_zero, List.getD_cons_zero] at h0
      rw [h0, List.tail_cons]
  set bt := (flat K H (fun k h => -b k h)).tail with hbt
  have hbtl : bt.length + 1 = K * H := by
    have := flat_length K H (fun k h => -b k h)
    rw [hbcons] at this
    simpa using this
  have hupl : (mlUp N cols u).length = M := by simp [mlUp, hM]
  set X : List (ℕ → ℝ) := mlScaled N cols ++ [fun _ => 1] with hX
  have hXl : X.length = M + 1 := by rw [hX, List.length_append, mlScaled_length]; rfl
  set z : List ℝ := mlUp N cols u ++ [-c] with hz
  have hzl : z.length = M + 1 := by rw [hz, List.length_append, hupl]; rfl
  have hXv : ∀ (y : List ℝ) (d : ℝ) (n : ℕ), y.length = M → matVec X (y ++ [d]) n = matVec (mlScaled N cols) y n + d := by
    intro y d n hy
    rw [hX, matVec_append' _ _ _ _ _ (by rw [hy, mlScaled_length]), matVec_cons]
    have : matVec [] [] n = 0 := by unfold matVec; simp
    rw [this]
    ring
  have hr : ∀ n < N, matVec X z n + matVec (cosCols lens fs H) (flat K H fun k h => -a k h) n + matVec (s0 :: st) (-b 0 0 :: bt) n = 0 := by
    intro n hn
    obtain ⟨k, hk, t, ht, rfl⟩ := row_exists lens n hn
    rw [hz, hXv _ _ _ hupl, mlUp_vec, hclean k hk t ht, ← hss, ← hbcons, add_assoc, add_assoc, ← add_assoc (-c), hKd, multi_series lens fs H _ _ _ k t hk ht,
      series_neg]
    ring
  have hu' : ∀ z' a' bt' : List ℝ, z'.length = X.length → a'.length = (cosCols lens fs H).length → bt'.length = st.length →
      (∀ n < N, matVec X z' n + matVec (cosCols lens fs H) a' n + matVec (s0 :: st) (1 :: bt') n = 0) →
      ∃ t : ℝ, z' = z.map (fun v => t * v) ∧ a' = (flat K H fun k h => -a k h).map (fun v => t * v) ∧ 1 = t * (-b 0 0) ∧ bt' = bt.map (fun v => t * v) := by
    intro z' a' bt' l1 l2 l3 hrel
    rw [hXl] at l1
    rw [hcl] at l2
    have l3' : (1 :: bt').length = K * H := by rw [List.length_cons, l3, hstl]
    have hzs : z' = z'.take M ++ [z'.getD M 0] := by
      apply list_ext_getD
      · rw [List.length_append, List.length_take]
        simp
        omega
      · intro j hj
        by_cases hj' : j < M
        · rw [getD_append_left_list _ _ _ _ (by rw [List.length_take]; omega), getD_take_list _ _ _ _ hj']
        · have e : j = (z'.take M).length + 0 := by rw [List.length_take]; omega
          conv_rhs => rw [e, getD_append_right_list]
          rw [show j = M by omega]
          rfl
    have ha := flat_of_list K H a' l2
    have hb := flat_of_list K H (1 :: bt') l3'
    obtain ⟨s, h1, h2, h3⟩ := honly ((List.range M).map fun (j : ℕ) => (z'.take M).getD j 0 * (10 : ℝ) ^ (-mlMag N (cols.getD j 0))) (-(z'.getD M 0))
      (fun k h => -(a'.getD (k * H + h) 0)) (fun k h => -((1 :: bt').getD (k * H + h) 0)) (by simp [hM]) (by
        intro k hk t ht
        have := hrel _ (row_lt lens k t hk ht)
        rw [hzs, hXv _ _ _ (by rw [List.length_take]; omega), ← hss, ha, hb, add_assoc, add_assoc, ← add_assoc (z'.getD M 0), hKd,
          multi_series lens fs H _ _ _ k t hk ht, mlScaled_vec] at this
        rw [series_neg]
        linarith)
    refine ⟨s, ?_, ?_, ?_, ?_⟩
    · apply list_ext_getD
      · rw [l1, List.length_map, hzl]
      · intro j hj
        rw [l1] at hj
        rw [getD_map_list, hz]
        by_cases hj' : j < M
        · rw [getD_append_left_list _ _ _ _ (by omega)]
          have := congrArg (fun l => l.getD j 0) h1
          rw [getD_range_map _ _ _ _ hj', getD_map_list, getD_take_list _ _ _ _ hj', zpow_neg] at this
          unfold mlUp
          rw [getD_range_map _ _ _ _ hj', ← mul_assoc, ← this]
          have hp : (10 : ℝ) ^ mlMag N (cols.getD j 0) ≠ 0 := by positivity
          field_simp
        · have e : j = (mlUp N cols u).length + 0 := by omega
          conv_rhs => rw [e, getD_append_right_list]
          rw [show j = M by omega, List.getD_cons_zero]
          linarith
    · apply list_ext_getD
      · rw [l2, List.length_map, flat_length]
      · intro j hj
        rw [l2] at hj
        have e : j = j / H * H + j % H := by rw [mul_comm]; exact (Nat.div_add_mod j H).symm
        have hk := (Nat.div_lt_iff_lt_mul hH).mpr hj
        have hm := Nat.mod_lt j hH
        rw [getD_map_list, e, flat_getD _ _ _ _ _ hk hm]
        linarith [(h3 _ hk _ hm).1]
    · have := (h3 0 hK 0 hH).2
      simp only [zero_mul, add_zero, List.getD_cons_zero] at this
      linarith
    · apply list_ext_getD
      · rw [List.length_map, l3]; omega
      · intro j hj
        have hj' : j + 1 < K * H := by omega
        have e : j + 1 = (j + 1) / H * H + (j + 1) % H := by rw [mul_comm]; exact (Nat.div_add_mod _ H).symm
        have hk := (Nat.div_lt_iff_lt_mul hH).mpr hj'
        have hm := Nat.mod_lt (j + 1) hH
        have h4 := (h3 _ hk _ hm).2
        rw [← e, List.getD_cons_succ] at h4
        have h5 : bt.getD j 0 = -b ((j + 1) / H) ((j + 1) % H) := by
          have h6 := flat_getD K H (fun k h => -b k h) _ _ hk hm
          rw [← e, hbcons, List.getD_cons_succ] at h6
          exact h6
        rw [getD_map_list, h5]
        linarith
  have hhalf := (half_unique solve hs N X (cosCols lens fs H) st s0 z (flat K H fun k h => -a k h) bt (-b 0 0) (by rw [hzl, hXl])
    (by rw [flat_length, hcl]) (by omega) hu' hr).1 (neg_ne_zero.mpr hb0)
  obtain ⟨h0, hx⟩ := hhalf
  set x := solve N (X ++ st ++ cosCols lens fs H) (fun n => -s0 n) with hxd
  have hA2 : mlMultiMatrix (mlScaled N cols) (cosCols lens fs H) (sinCols lens fs H) true = (X ++ st ++ cosCols lens fs H, fun n => -s0 n) := by
    unfold mlMultiMatrix
    rw [if_pos rfl, hss]
    rfl
  refine ⟨x, ?_, ?_, ?_, ?_, ?_⟩
  · unfold mlMultiFit
    simp only [hA2]
    rw [if_neg]
    rw [rms_lt_iff N hN]
    simp only
    rw [← hxd, h0]
    exact not_lt.mpr (residNorm_nonneg _ _ _ _)
  · intro j hj
    rw [hx, getD_map_list, List.append_assoc, getD_append_left_list _ _ _ _ (by omega), hz, getD_append_left_list _ _ _ _ (by omega)]
    unfold mlUp
    rw [getD_range_map _ _ _ _ hj, inv_neg]
  · rw [hx, getD_map_list, List.append_assoc, getD_append_left_list _ _ _ _ (by omega), hz]
    have e : M = (mlUp N cols u).length + 0 := by omega
    rw [e, getD_append_right_list, List.getD_cons_zero, inv_neg]
    ring
  · intro k hk h hh
    unfold unityCoef
    split_ifs with hkh
    · rw [hkh.1, hkh.2, inv_mul_cancel₀ hb0]
    · have hlt : k * H + h < K * H := by nlinarith
      have hp : 0 < k * H + h := by
        rcases Nat.eq_zero_or_pos h with h1 | h1
        · have : 0 < k := Nat.pos_of_ne_zero fun h2 => hkh ⟨h2, h1⟩
          have := Nat.mul_pos this hH
          omega
        · omega
      obtain ⟨m, hm⟩ : ∃ m, k * H + h = m + 1 := ⟨k * H + h - 1, by omega⟩
      have e : M + k * H + h = z.length + m := by omega
      rw [hx, getD_map_list, List.append_assoc, e, getD_append_right_list, getD_append_left_list _ _ _ _ (by omega)]
      have h6 := flat_getD K H (fun k h => -b k h) k h hk hh
      rw [hm, hbcons, List.getD_cons_succ] at h6
      rw [h6, inv_neg]
      ring
  · intro k hk h hh
    unfold otherCoef
    have e : M + K * H + k * H + h = (z ++ bt).length + (k * H + h) := by rw [List.length_append]; omega
    rw [hx, getD_map_list, e, getD_append_right_list, flat_getD K H _ k h hk hh, inv_neg]
    ring

/-! ## The property -/

theorem series_offset (f : ℝ) (H : ℕ) (d : ℝ) (p q : ℕ → ℝ) (t : ℕ) : harmonicSeries f H d p q t = d + harmonicSeries f H 0 p q t := by
  unfold harmonicSeries
  rw [zero_add]

theorem series_scale (f : ℝ) (H : ℕ) (s : ℝ) (p q : ℕ → ℝ) (t : ℕ) :
    harmonicSeries f H 0 (fun h => s * p h) (fun h => s * q h) t = s * harmonicSeries f H 0 p q t := by
  unfold harmonicSeries
  rw [zero_add, zero_add, mul_sum]
  apply sum_congr rfl
  intro h _
  ring

theorem series_congr (f : ℝ) (H : ℕ) (d : ℝ) (p p' q q' : ℕ → ℝ) (t : ℕ) (hp : ∀ h < H, p h = p' h) (hq : ∀ h < H, q h = q' h) :
    harmonicSeries f H d p q t = harmonicSeries f H d p' q' t := by
  unfold harmonicSeries
  congr 1
  apply sum_congr rfl
  intro h hh
  rw [hp h (mem_range.mp hh), hq h (mem_range.mp hh)]

/-- **C138 (noise-free data).** Several datasets that share one offset, each at its known frequency: when the weights `w` are determined up to a factor and the first
dataset's fundamental has a sine part, `wcalsin` returns `s * w` with `s` set by the amplitude of the first dataset's fundamental, the offset `s * c`, each dataset's
harmonics times `s`, and zero errors. -/
theorem C138_clean (solve : Lstsq) (hs : IsLstsq solve) (segs : List (List (List ℝ))) (fs : List ℝ) (hf0 : ∀ f ∈ fs, 0 < f) (rate reltol : ℝ) (hr0 : 0 < rate)
    (hr1 : rate < 1) (ht : 0 < reltol) (niter H : ℕ) (hn : 0 < niter) (hH : 0 < H) (given : Option (List ℝ)) (segs' : List (List (List ℝ))) (width : ℕ)
    (nominal : List ℝ) (hprep : prepareInput segs given = .ok (segs', width, nominal)) (hfl : fs.length = segs'.length) (lens : List ℕ)
    (hlens : lens = segs'.map List.length) (hpos : 0 < segs'.length)
    (bits : List (ℕ → ℝ)) (hbits : bits = (List.range width).map fun (j : ℕ) => fun (n : ℕ) => (segs'.flatten.getD n []).getD j 0)
    (w : List ℝ) (hw : w.length = width) (c : ℝ) (a b : ℕ → ℕ → ℝ) (hb0 : b 0 0 ≠ 0)
    (hclean : MultiClean lens bits fs H w (fun _ => c) a b) (honly : OneOffsetOnly lens bits fs H w c a b) :
    ∃ m s, mlWcalsinCell solve segs fs rate reltol niter H false given = some m ∧ m.weight = w.map (fun v => s * v) ∧ m.offset = s * c ∧ m.freqcal = fs ∧
      0 ≤ m.weight.sum ∧ s ^ 2 * (a 0 0 ^ 2 + b 0 0 ^ 2) = 1 ∧
      m.postcal = (List.range lens.length).map (fun (k : ℕ) => (List.range (lens.getD k 0)).map fun (t : ℕ) =>
        s * harmonicSeries (fs.getD k 0) H c (a k) (b k) t) ∧
      m.ideal = (List.range lens.length).map (fun (k : ℕ) => (List.range (lens.getD k 0)).map fun (t : ℕ) =>
        s * harmonicSeries (fs.getD k 0) H 0 (a k) (b k) t) ∧
      m.err = (List.range lens.length).map (fun (k : ℕ) => List.replicate (lens.getD k 0) 0) := by
  have hK : 0 < lens.length := by rw [hlens, List.length_map]; exact hpos
  have hbl : w.length = bits.length := by rw [hbits]; simp [hw]
  have hrank := one_rank lens hK bits fs H hH w c a b (Or.inr hb0) honly
  obtain ⟨_, hb1, P, hPe, hPl, hcell⟩ := cell_known solve segs fs hf0 rate reltol hr0 hr1 ht niter H hn hH given segs' width nominal hprep hfl lens hlens bits hbits hrank
  have hN : 0 < lens.sum := by
    by_contra h0
    obtain ⟨v, _, h1, h2⟩ := honly w (c + 1) a b hbl (by
      intro k hk t ht'
      have := row_lt lens k t hk ht'
      omega)
    have h3 := (h2 0 hK 0 hH).2
    have hv : v = 1 := mul_right_cancel₀ hb0 (by rw [one_mul]; exact h3.symm)
    rw [hv] at h1
    linarith
  obtain ⟨x, hfit, hx1, hx2, hx3, hx4⟩ := multi_fit solve hs lens hK hN bits fs H hH w hbl c a b hb0 hclean honly
  rw [hfit] at hcell
  simp only at hcell
  set β := (b 0 0)⁻¹ with hβ
  have ho0 : x.getD (bits.length + lens.length * H) 0 = β * a 0 0 := by
    have := hx4 0 hK 0 hH
    unfold otherCoef at this
    simpa using this
  set w0 := Real.sqrt (1 + (β * a 0 0) ^ 2) with hw0
  set κ := -(β / w0) with hκ
  have hwt : (P.links.map fun l => ((List.range P.eff.length).map fun (j : ℕ) => x.getD j 0 / Real.sqrt (1 + x.getD (P.eff.length + lens.length * H) 0 ^ 2)
      * (10 : ℝ) ^ (-mlMag lens.sum (P.eff.getD j 0))).getD (max l.1 0).toNat 0 * l.2) = w.map fun v => κ * v := by
    rw [hPe, ho0, ← hw0, hPl, List.map_map]
    apply list_ext_getD
    · simp [hbl]
    · intro j hj
      have hj' : j < bits.length := by simpa using hj
      rw [getD_range_map _ _ _ _ hj', getD_map_list]
      simp only [Function.comp]
      rw [max_eq_left (by omega), Int.toNat_natCast, getD_range_map _ _ _ _ hj', hx1 j hj', zpow_neg]
      have hp : (10 : ℝ) ^ mlMag lens.sum (bits.getD j 0) ≠ 0 := by positivity
      rw [hκ]
      field_simp
  have hide : ∀ k < lens.length, ∀ t < lens.getD k 0,
      (if k = 0 then mlIdealFirst P.eff.length (lens.length * H) H (mlBlocks lens fs H mlXs) (mlBlocks lens fs H mlXc) x
          (Real.sqrt (1 + x.getD (P.eff.length + lens.length * H) 0 ^ 2)) (segStart lens k + t)
        else mlIdealNext P.eff.length (lens.length * H) H k (mlBlocks lens fs H mlXs) (mlBlocks lens fs H mlXc) x
          (Real.sqrt (1 + x.getD (P.eff.length + lens.length * H) 0 ^ 2)) (segStart lens k + t))
        = κ * harmonicSeries (fs.getD k 0) H 0 (a k) (b k) t := by
    intro k hk t ht
    rw [hPe, ho0, ← hw0]
    have := ideal_series lens fs bits.length (lens.length * H) H hH x w0 true k t hk ht
    simp only [if_true] at this
    rw [this, ← series_scale]
    apply series_congr
    · intro h hh
      rw [hx4 k hk h hh, hκ]
      ring
    · intro h hh
      rw [hx3 k hk h hh, hκ]
      ring
  have hpost : ∀ k < lens.length, ∀ t < lens.getD k 0, matVec bits (w.map fun v => κ * v) (segStart lens k + t)
      = κ * harmonicSeries (fs.getD k 0) H c (a k) (b k) t := by
    intro k hk t ht
    rw [matVec_smul, hclean k hk t ht]
  have hoff : -x.getD P.eff.length 0 / Real.sqrt (1 + x.getD (P.eff.length + lens.length * H) 0 ^ 2) = κ * c := by
    rw [hPe, ho0, ← hw0, hx2, hκ]
    ring
  set pol : ℝ := if (w.map fun v => κ * v).sum < 0 then -1 else 1 with hpol
  refine ⟨_, κ * pol, hcell, ?_, ?_, rfl, ?_, ?_, ?_, ?_, ?_⟩
  · unfold mlMultiResult
    simp only
    rw [hwt, ← hpol, List.map_map]
    apply List.map_congr_left
    intro v _
    simp only [Function.comp]
    ring
  · unfold mlMultiResult
    simp only
    rw [hwt, ← hpol, hoff]
    ring
  · unfold mlMultiResult
    simp only
    rw [hwt, ← hpol, sum_map_mul, hpol]
    split_ifs with hlt
    · linarith
    · linarith [not_lt.mp hlt]
  · have := norm_scale (b 0 0) (a 0 0) β (inv_mul_cancel₀ hb0)
    rw [← hw0] at this
    have hp2 : pol ^ 2 = 1 := by
      rw [hpol]
      split_ifs <;> norm_num
    rw [mul_pow, hp2, hκ]
    linear_combination this
  · unfold mlMultiResult
    simp only
    rw [hwt, ← hpol]
    apply List.map_congr_left
    intro k hk
    apply List.map_congr_left
    intro t ht'
    rw [hpost k (List.mem_range.mp hk) t (List.mem_range.mp ht')]
    ring
  · unfold mlMultiResult
    simp only [if_true]
    rw [hwt, ← hpol]
    apply List.map_congr_left
    intro k hk
    apply List.map_congr_left
    intro t ht'
    rw [hide k (List.mem_range.mp hk) t (List.mem_range.mp ht')]
    ring
  · unfold mlMultiResult
    simp only [if_true]
    rw [hwt, ← hpol, hoff]
    apply List.map_congr_left
    intro k hk
    rw [List.eq_replicate_iff]
    refine ⟨by simp, ?_⟩
    intro v hv
    obtain ⟨t, ht', rfl⟩ := List.mem_map.mp hv
    rw [hide k (List.mem_range.mp hk) t (List.mem_range.mp ht'), hpost k (List.mem_range.mp hk) t (List.mem_range.mp ht'), series_offset _ _ c]
    ring

/-- **C138 (against Python).** Both programs recover the weights up to a factor, but not the same one: with `g` the ratio, `g^2 (a00^2 + b00^2) = b00^2 + r^2`, where `r`
is the coefficient Python's normalisation reads (`pickedUp`: for two or more datasets not `a00` but another harmonic of the sine side). The weights are equal up
to sign exactly when `r^2 = a00^2`. -/
theorem C138_python (solve : Lstsq) (hs : IsLstsq solve) (est : List ℝ) (segs : List (List (List ℝ))) (fs : List ℝ) (hf0 : ∀ f ∈ fs, 0 < f) (hf : ∀ f ∈ fs, f ≤ 1 / 2)
    (force : Option Bool) (hforce : force ≠ some true) (rate reltol : ℝ) (hr0 : 0 < rate)
    (hr1 : rate < 1) (ht : 0 < reltol) (niter H : ℕ) (hn : 0 < niter) (hH : 0 < H) (given : Option (List ℝ)) (segs' : List (List (List ℝ))) (width : ℕ)
    (nominal : List ℝ) (hprep : prepareInput segs given = .ok (segs', width, nominal)) (hfl : fs.length = segs'.length) (lens : List ℕ)
    (hlens : lens = segs'.map List.length) (hpos : 0 < segs'.length)
    (bits : List (ℕ → ℝ)) (hbits : bits = (List.range width).map fun (j : ℕ) => fun (n : ℕ) => (segs'.flatten.getD n []).getD j 0)
    (w : List ℝ) (hw : w.length = width) (c : ℝ) (a b : ℕ → ℕ → ℝ) (hb0 : b 0 0 ≠ 0)
    (hclean : MultiClean lens bits fs H w (fun _ => c) a b) (honly : MultiOnly lens bits fs H w (fun _ => c) a b) :
    ∃ m r g, mlWcalsinCell solve segs fs rate reltol niter H false given = some m ∧
      calibrate solve est segs (.list fs) force given H rate reltol niter = .ok r ∧
      m.weight = r.weight.map (fun v => g * v) ∧ g ^ 2 * (a 0 0 ^ 2 + b 0 0 ^ 2) = b 0 0 ^ 2 + pickedUp segs'.length H b a ^ 2 ∧
      (g ^ 2 = 1 ↔ pickedUp segs'.length H b a ^ 2 = a 0 0 ^ 2) ∧ (w.sum ≠ 0 → 0 < g) := by
  have hK : 0 < lens.length := by rw [hlens, List.length_map]; exact hpos
  obtain ⟨m, s, h1, h2, _, _, h3, h4, _⟩ := C138_clean solve hs segs fs hf0 rate reltol hr0 hr1 ht niter H hn hH given segs' width nominal hprep hfl lens hlens hpos
    bits hbits w hw c a b hb0 hclean (one_of_multi lens hK bits fs H w c a b honly)
  obtain ⟨r, s', k1, k2, k3, k4, _⟩ := C42_multi_scale solve hs est segs fs (fun f h => (hf0 f h).ne') hf force hforce given H hH rate reltol niter segs' width nominal
    hprep hpos hfl lens hlens bits hbits w hw (fun _ => c) a b (Or.inr hb0) hclean honly
  have k5 := k4 hb0
  have hs0 : s' ≠ 0 := by
    rintro rfl
    norm_num at k5
  have hs1 : s ≠ 0 := by
    rintro rfl
    norm_num at h4
  have hbp : 0 < b 0 0 ^ 2 := by positivity
  have hab : 0 < a 0 0 ^ 2 + b 0 0 ^ 2 := by positivity
  have hg : (s / s') ^ 2 * (a 0 0 ^ 2 + b 0 0 ^ 2) = b 0 0 ^ 2 + pickedUp segs'.length H b a ^ 2 := by
    have e : (s / s') ^ 2 * (a 0 0 ^ 2 + b 0 0 ^ 2) = (s ^ 2 * (a 0 0 ^ 2 + b 0 0 ^ 2)) / s' ^ 2 := by
      field_simp
    rw [e, h4, div_eq_iff (pow_ne_zero 2 hs0)]
    linarith
  refine ⟨m, r, s / s', h1, k1, ?_, hg, ?_, ?_⟩
  · rw [h2, k2, List.map_map]
    apply List.map_congr_left
    intro v _
    simp only [Function.comp]
    field_simp
  · constructor
    · intro h
      rw [h] at hg
      linarith
    · intro h
      rw [h] at hg
      have : ((s / s') ^ 2 - 1) * (a 0 0 ^ 2 + b 0 0 ^ 2) = 0 := by linarith
      have := (mul_eq_zero.mp this).resolve_right hab.ne'
      linarith
  · intro hsum
    have e1 : m.weight.sum = s * w.sum := by rw [h2]; simpa using List.sum_map_mul_left w (fun v => v) s
    have e2 : r.weight.sum = s' * w.sum := by rw [k2]; simpa using List.sum_map_mul_left w (fun v => v) s'
    rw [e1] at h3
    rw [e2] at k3
    have p1 : 0 < s * w.sum := lt_of_le_of_ne h3 (Ne.symm (mul_ne_zero hs1 hsum))
    have p2 : 0 < s' * w.sum := lt_of_le_of_ne k3 (Ne.symm (mul_ne_zero hs0 hsum))
    have : s / s' = (s * w.sum) / (s' * w.sum) := by field_simp
    rw [this]
    exact div_pos p1 p2

/-- **C138 (different offsets).** `wcalsin` has one offset for all datasets, Python one per dataset. When the weights are determined up to a factor and two datasets
have different offsets in units of the same weights, `wcalsin` never explains the data, with any solver: some error is not zero, although the data are noise-free. -/
theorem C138_offsets (solve : Lstsq) (segs : List (List (List ℝ))) (fs : List ℝ) (hf0 : ∀ f ∈ fs, 0 < f) (rate reltol : ℝ) (hr0 : 0 < rate)
    (hr1 : rate < 1) (ht : 0 < reltol) (niter H : ℕ) (hn : 0 < niter) (hH : 0 < H) (given : Option (List ℝ)) (segs' : List (List (List ℝ))) (width : ℕ)
    (nominal : List ℝ) (hprep : prepareInput segs given = .ok (segs', width, nominal)) (hfl : fs.length = segs'.length) (lens : List ℕ)
    (hlens : lens = segs'.map List.length) (hpos : 0 < segs'.length)
    (bits : List (ℕ → ℝ)) (hbits : bits = (List.range width).map fun (j : ℕ) => fun (n : ℕ) => (segs'.flatten.getD n []).getD j 0)
    (w : List ℝ) (c : ℕ → ℝ) (a b : ℕ → ℕ → ℝ) (hne : a 0 0 ≠ 0 ∨ b 0 0 ≠ 0) (honly : MultiOnly lens bits fs H w c a b)
    (i j : ℕ) (hi : i < lens.length) (hj : j < lens.length) (hc : c i ≠ c j) :
    ∃ m, mlWcalsinCell solve segs fs rate reltol niter H false given = some m ∧ ∃ k t, (m.err.getD k []).getD t 0 ≠ 0 := by
  have hK : 0 < lens.length := by rw [hlens, List.length_map]; exact hpos
  have hrank : bits.length + 1 ≤ rankOf lens.sum (bits ++ [fun _ => 1]) := by
    apply rank_full
    intro u d hu hd
    obtain ⟨s, h1, h2⟩ := honly u (fun _ => d) (fun _ _ => 0) (fun _ _ => 0) hu (by
      intro k hk t ht
      rw [hd _ (row_lt lens k t hk ht)]
      unfold harmonicSeries
      simp)
    obtain ⟨h3, h4⟩ := h2 0 hK
    obtain ⟨h5, h6⟩ := h4 0 hH
    have hs0 : s = 0 := by
      rcases hne with h | h
      · exact (mul_eq_zero.mp h5.symm).resolve_right h
      · exact (mul_eq_zero.mp h6.symm).resolve_right h
    constructor
    · intro j _
      rw [h1, getD_map_list, hs0, zero_mul]
    · rw [h3, hs0, zero_mul]
  obtain ⟨_, hb1, P, hPe, hPl, hcell⟩ := cell_known solve segs fs hf0 rate reltol hr0 hr1 ht niter H hn hH given segs' width nominal hprep hfl lens hlens bits hbits hrank
  refine ⟨_, hcell, ?_⟩
  by_contra hall
  push Not at hall
  generalize mlMultiFit solve lens.sum (mlScaled lens.sum bits) (mlBlocks lens fs H mlXc) (mlBlocks lens fs H mlXs) = r at hall
  obtain ⟨x, sel⟩ := r
  simp only at hall
  unfold mlMultiResult at hall
  simp only at hall
  set w0 := Real.sqrt (1 + x.getD (P.eff.length + lens.length * H) 0 ^ 2) with hw0
  have hw0p : w0 ≠ 0 := by
    rw [hw0]
    exact (Real.sqrt_pos.mpr (by positivity)).ne'
  set wt := P.links.map fun l => ((List.range P.eff.length).map fun (j : ℕ) => x.getD j 0 / w0
      * (10 : ℝ) ^ (-mlMag lens.sum (P.eff.getD j 0))).getD (max l.1 0).toNat 0 * l.2 with hwt
  set off := -x.getD P.eff.length 0 / w0 with hoff
  have hwl : wt.length = bits.length := by rw [hwt, List.length_map, hPl]; simp
  have hpol : (if wt.sum < 0 then (-1 : ℝ) else 1) ≠ 0 := by split_ifs <;> norm_num
  obtain ⟨s, _, h2⟩ := honly wt (fun _ => off)
    (fun k h => -(if sel then otherCoef P.eff.length (lens.length * H) H x k h else unityCoef P.eff.length H x k h) / w0)
    (fun k h => -(if sel then unityCoef P.eff.length H x k h else otherCoef P.eff.length (lens.length * H) H x k h) / w0) hwl (by
      intro k hk t ht'
      have := hall k t
      rw [getD_range_map _ _ _ _ hk, getD_range_map _ _ _ _ ht'] at this
      have := (mul_eq_zero.mp this).resolve_right hpol
      rw [ideal_series lens fs P.eff.length (lens.length * H) H hH x w0 sel k t hk ht'] at this
      rw [series_offset]
      linarith)
  have hs0 : s = 0 := by
    have e1 := (h2 i hi).1
    have e2 := (h2 j hj).1
    have : s * (c i - c j) = 0 := by linarith
    exact (mul_eq_zero.mp this).resolve_right (sub_ne_zero.mpr hc)
  obtain ⟨e1, e2⟩ := (h2 0 hK).2 0 hH
  rw [hs0, zero_mul] at e1 e2
  have hone : unityCoef P.eff.length H x 0 0 = 1 := by unfold unityCoef; rw [if_pos ⟨rfl, rfl⟩]
  cases sel
  · simp only [Bool.false_eq_true, if_false] at e1
    rw [hone] at e1
    rcases div_eq_zero_iff.mp e1 with h | h
    · norm_num at h
    · exact hw0p h
  · simp only [if_true] at e2
    rw [hone] at e2
    rcases div_eq_zero_iff.mp e2 with h | h
    · norm_num at h
    · exact hw0p h

/-- **C138 (rejected input).** What Python's checks of the datasets reject (no dataset, an empty one, different widths after orientation), `wcalsin` rejects too. -/
theorem C138_rejected (solve : Lstsq) (est : List ℝ) (segs : List (List (List ℝ))) (fs : List ℝ) (force : Option Bool) (rate reltol : ℝ) (niter H : ℕ) (fsearch : Bool)
    (e : PyErr) (h : prepareInput segs none = .error e) :
    mlWcalsinCell solve segs fs rate reltol niter H fsearch none = none ∧
      ∃ e', calibrate solve est segs (.list fs) force none H rate reltol niter = .error e' := by
  constructor
  · by_contra hne
    apply hne
    unfold mlWcalsinCell
    by_cases h0 : segs = []
    · rw [if_pos h0]
    rw [if_neg h0]
    by_cases h1 : (∃ f ∈ fs, f < 0) ∨ rate ≤ 0 ∨ 1 ≤ rate ∨ reltol ≤ 0 ∨ niter = 0 ∨ H = 0
    · rw [if_pos h1]
    rw [if_neg h1]
    by_cases h2 : ∃ s ∈ segs, s = [] ∨ s.headD [] = []
    · rw [if_pos h2]
    rw [if_neg h2]
    simp only
    by_cases h3 : ∃ r ∈ segs.map orientSegment, (r.headD []).length ≠ (((segs.map orientSegment).headD []).headD []).length
    · rw [if_pos h3]
    exfalso
    obtain ⟨w, hw⟩ := stack_pass segs _ none (Or.inl rfl) (by
      intro s hs
      by_contra h5
      exact h2 ⟨s, hs, by tauto⟩) (by
      intro r hr
      by_contra h5
      exact h3 ⟨r, hr, h5⟩)
    unfold prepareInput at h
    rw [if_neg h0, hw] at h
    simp [nominalWeights] at h
  · unfold calibrate
    split_ifs
    · exact ⟨_, rfl⟩
    · rw [h]
      exact ⟨_, rfl⟩

/-- **C138 (one frequency for several datasets).** A frequency list of length one: MATLAB takes it for every dataset, Python rejects it. -/
theorem C138_one_frequency (solve : Lstsq) (est : List ℝ) (segs : List (List (List ℝ))) (hl : 1 < segs.length) (f : ℝ) (hf : f ≠ 0) (force : Option Bool)
    (given : Option (List ℝ)) (rate reltol : ℝ) (niter H : ℕ) (fsearch : Bool) :
    mlWcalsinCell solve segs [f] rate reltol niter H fsearch given = mlWcalsinCell solve segs (List.replicate segs.length f) rate reltol niter H fsearch given ∧
      ∃ e, calibrate solve est segs (.list [f]) force given H rate reltol niter = .error e := by
  constructor
  · unfold mlWcalsinCell
    have e1 : (∃ f' ∈ [f], f' < 0) ↔ ∃ f' ∈ List.replicate segs.length f, f' < 0 := by
      simp only [List.mem_singleton, List.mem_replicate]
      constructor
      · rintro ⟨_, rfl, h⟩; exact ⟨_, ⟨by omega, rfl⟩, h⟩
      · rintro ⟨_, ⟨_, rfl⟩, h⟩; exact ⟨_, rfl, h⟩
    simp only [e1, List.length_singleton, if_true, List.length_replicate, List.length_map, List.headD_cons]
    rw [if_neg (show ¬ segs.length = 1 by omega)]
    simp only [List.length_replicate]
  · unfold calibrate
    split_ifs
    · exact ⟨_, rfl⟩
    · cases hp : prepareInput segs given with
      | error e => exact ⟨_, rfl⟩
      | ok p =>
        obtain ⟨l, w, nom⟩ := p
        simp only
        have hlen : l.length = segs.length := by
          unfold prepareInput at hp
          split_ifs at hp
          cases hst : stackSegments none segs with
          | error e => rw [hst] at hp; cases hp
          | ok q =>
            obtain ⟨l', w'⟩ := q
            rw [hst] at hp
            simp only at hp
            cases hn : nominalWeights (w'.getD 0) given with
            | error e => rw [hn] at hp; cases hp
            | ok nom' =>
              rw [hn] at hp
              injection hp with hp
              injection hp with e1 _
              rw [← e1, (stack_ok segs none l' w' hst).1, List.length_map]
        have : estimateFrequencies (l.map List.length).length est (.list [f]) = .error .valueError := by
          unfold estimateFrequencies
          simp only
          rw [if_neg (by simpa using hf), if_pos (by rw [List.length_map, hlen]; simp; omega)]
        rw [this]
        exact ⟨_, rfl⟩

/-! ## Witnesses -/

/-- Twice the record `0, 1, 0`: a sine of amplitude 1 at a quarter of the sampling rate. -/
def twiceRecord : List (List (List ℝ)) := [[[0], [1], [0]], [[0], [1], [0]]]

theorem twice_prep : prepareInput twiceRecord none = .ok (twiceRecord, 1, [1]) := by
  have h2 : orientSegment [[0], [1], [(0 : ℝ)]] = [[0], [1], [0]] := by unfold orientSegment; simp
  unfold twiceRecord prepareInput
  simp [stackSegments, h2, nominalWeights]

private def twiceBits : List (ℕ → ℝ) := (List.range 1).map fun (j : ℕ) => fun (n : ℕ) => (twiceRecord.flatten.getD n []).getD j 0

private theorem twice_value (u : List ℝ) (k t : ℕ) (hk : k < 2) (ht : t < 3) :
    matVec twiceBits u (segStart [3, 3] k + t) = u.getD 0 0 * (if t = 1 then 1 else 0) := by
  unfold twiceBits
  rw [matVec_range, sum_range_one]
  congr 1
  interval_cases k <;> interval_cases t <;> simp [twiceRecord, segStart]

private theorem twice_clean : MultiClean [3, 3] twiceBits [1 / 4, 1 / 4] 1 [1] (fun _ => 0) (fun _ _ => 0) (fun _ _ => 1) := by
  intro k hk t ht
  have hk' : k < 2 := by simpa using hk
  have hf : [(1 / 4 : ℝ), 1 / 4].getD k 0 = 1 / 4 := by interval_cases k <;> rfl
  have ht' : t < 3 := by interval_cases k <;> simpa using ht
  rw [twice_value _ k t hk' ht', hf]
  obtain ⟨h0, h1, h2, _⟩ := quarter_series 0 (fun _ => 0) (fun _ => 1)
  interval_cases t
  · rw [h0]; norm_num
  · rw [h1]; norm_num
  · rw [h2]; norm_num

private theorem twice_only : MultiOnly [3, 3] twiceBits [1 / 4, 1 / 4] 1 [1] (fun _ => 0) (fun _ _ => 0) (fun _ _ => 1) := by
  intro u d p q hu h
  obtain ⟨x, rfl⟩ := List.length_eq_one_iff.mp (show u.length = 1 by simpa [twiceBits] using hu)
  refine ⟨x, by simp, ?_⟩
  intro k hk
  have hk' : k < 2 := by simpa using hk
  have hf : [(1 / 4 : ℝ), 1 / 4].getD k 0 = 1 / 4 := by interval_cases k <;> rfl
  have hl : ∀ t < 3, t < [3, 3].getD k 0 := by intro t ht; interval_cases k <;> simpa using ht
  obtain ⟨h0, h1, h2, _⟩ := quarter_series (d k) (p k) (q k)
  have e0 := h k hk 0 (hl 0 (by norm_num))
  have e1 := h k hk 1 (hl 1 (by norm_num))
  have e2 := h k hk 2 (hl 2 (by norm_num))
  rw [twice_value _ k _ hk' (by norm_num), hf] at e0 e1 e2
  rw [h0] at e0
  rw [h1] at e1
  rw [h2] at e2
  norm_num at e0 e1 e2
  have hd : d k = 0 := by linarith
  refine ⟨by linarith, ?_⟩
  intro h' hh
  have : h' = 0 := by omega
  subst this
  constructor
  · linarith
  · linarith

/-- **C138 (the factors differ).** The same record twice, one bit, amplitude 1: MATLAB returns the weight 1, Python the weight `1/sqrt 2`. -/
theorem C138_scale_false (solve : Lstsq) (hs : IsLstsq solve) :
    ∃ m r v, mlWcalsinCell solve twiceRecord [1 / 4, 1 / 4] (1 / 2) 1 100 1 false none = some m ∧
      calibrate solve [] twiceRecord (.list [1 / 4, 1 / 4]) none none 1 (1 / 2) 1 100 = .ok r ∧
      m.weight = [1] ∧ r.weight = [v] ∧ 0 ≤ v ∧ v ^ 2 = 1 / 2 := by
  have hpos : ∀ f ∈ [(1 / 4 : ℝ), 1 / 4], 0 < f := by intro f hf; simp at hf; subst hf; norm_num
  have hle : ∀ f ∈ [(1 / 4 : ℝ), 1 / 4], f ≤ 1 / 2 := by intro f hf; simp at hf; subst hf; norm_num
  obtain ⟨m, s, h1, h2, _, _, h3, h4, _⟩ := C138_clean solve hs twiceRecord [1 / 4, 1 / 4] hpos (1 / 2) 1 (by norm_num) (by norm_num) one_pos 100 1 (by norm_num)
    one_pos none twiceRecord 1 [1] twice_prep (by simp [twiceRecord]) [3, 3] (by simp [twiceRecord]) (by simp [twiceRecord]) twiceBits rfl [1] rfl 0
    (fun _ _ => 0) (fun _ _ => 1) one_ne_zero twice_clean (one_of_multi _ (by simp) _ _ _ _ _ _ _ twice_only)
  obtain ⟨r, v, k1, k2, k3, k4, _⟩ := C42_multi_scale solve hs [] twiceRecord [1 / 4, 1 / 4] (fun f h => (hpos f h).ne') hle none (by simp) none 1 one_pos (1 / 2) 1 100
    twiceRecord 1 [1] twice_prep (by simp [twiceRecord]) (by simp [twiceRecord]) [3, 3] (by simp [twiceRecord]) twiceBits rfl [1] rfl (fun _ => 0) (fun _ _ => 0)
    (fun _ _ => 1) (Or.inr one_ne_zero) twice_clean twice_only
  have k5 := k4 one_ne_zero
  have hp : pickedUp twiceRecord.length 1 (fun _ _ => (1 : ℝ)) (fun _ _ => 0) = 1 := by simp [pickedUp, twiceRecord]
  rw [hp] at k5
  rw [h2] at h3
  rw [k2] at k3
  simp only [List.map_cons, List.map_nil, mul_one, List.sum_cons, List.sum_nil, add_zero] at h2 h3 k2 k3
  refine ⟨m, r, v, h1, k1, ?_, k2, k3, by linarith⟩
  have : s ^ 2 = 1 := by linarith
  have : s = 1 := by nlinarith
  rw [h2, this]

/-- The hypotheses of `C138_python` are met by the same record twice; there the ratio is `sqrt 2`. -/
example (solve : Lstsq) (hs : IsLstsq solve) :
    ∃ m r g, mlWcalsinCell solve twiceRecord [1 / 4, 1 / 4] (1 / 2) 1 100 1 false none = some m ∧
      calibrate solve [] twiceRecord (.list [1 / 4, 1 / 4]) none none 1 (1 / 2) 1 100 = .ok r ∧ m.weight = r.weight.map (fun v => g * v) ∧ g ^ 2 = 2 := by
  have hpos : ∀ f ∈ [(1 / 4 : ℝ), 1 / 4], 0 < f := by intro f hf; simp at hf; subst hf; norm_num
  have hle : ∀ f ∈ [(1 / 4 : ℝ), 1 / 4], f ≤ 1 / 2 := by intro f hf; simp at hf; subst hf; norm_num
  obtain ⟨m, r, g, h1, h2, h3, h4, _⟩ := C138_python solve hs [] twiceRecord [1 / 4, 1 / 4] hpos hle none (by simp) (1 / 2) 1 (by norm_num) (by norm_num) one_pos 100 1
    (by norm_num) one_pos none twiceRecord 1 [1] twice_prep (by simp [twiceRecord]) [3, 3] (by simp [twiceRecord]) (by simp [twiceRecord]) twiceBits rfl [1] rfl 0
    (fun _ _ => 0) (fun _ _ => 1) one_ne_zero twice_clean twice_only
  have hp : pickedUp twiceRecord.length 1 (fun _ _ => (1 : ℝ)) (fun _ _ => 0) = 1 := by simp [pickedUp, twiceRecord]
  rw [hp] at h4
  exact ⟨m, r, g, h1, h2, h3, by linarith⟩

/-- The hypotheses of `C138_offsets` are met by `twoRecords`, whose offsets are `1/2` and `0`. -/
example (solve : Lstsq) : ∃ m, mlWcalsinCell solve twoRecords [1 / 4, 1 / 4] (1 / 2) 1 100 1 false none = some m ∧ ∃ k t, (m.err.getD k []).getD t 0 ≠ 0 :=
  C138_offsets solve twoRecords [1 / 4, 1 / 4] (by intro f hf; simp at hf; subst hf; norm_num) (1 / 2) 1 (by norm_num) (by norm_num) one_pos 100 1 (by norm_num) one_pos
    none twoRecords 1 [1] two_prep (by simp [twoRecords]) [3, 3] (by simp [twoRecords]) (by simp [twoRecords]) twoBits rfl [1] _ twoA twoB
    (Or.inl (by norm_num [twoA])) two_only 0 1 (by simp) (by simp) (by norm_num)

/-- An input both programs reject: datasets of different widths. -/
example (solve : Lstsq) (fs : List ℝ) : mlWcalsinCell solve [[[0], [1]], [[0, 1], [1, 1]]] fs (1 / 2) 1 100 1 false none = none :=
  (C138_rejected solve [] _ fs none (1 / 2) 1 100 1 false .valueError (by
    simp [prepareInput, stackSegments, orientSegment])).1

end Verif
