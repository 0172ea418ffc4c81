import Verif.Theorems.CalibrationExact

/-!
# C42: where fitted coefficients are read from
-/

namespace Verif

open Model Finset

/-! ## One dataset at a known frequency: every coefficient is read from its own column -/

/-- Harmonic `h + 1` of one dataset with `N` rows. -/
noncomputable def cosOne (N : ℕ) (f : ℝ) (h n : ℕ) : ℝ := if n < N then Real.cos (2 * Real.pi * f * ((n : ℝ) * ((h : ℝ) + 1))) else 0

/-- Harmonic `h + 1` of one dataset with `N` rows. -/
noncomputable def sinOne (N : ℕ) (f : ℝ) (h n : ℕ) : ℝ := if n < N then Real.sin (2 * Real.pi * f * ((n : ℝ) * ((h : ℝ) + 1))) else 0

/-- The fit for one dataset: columns, constant, harmonics; the right-hand side is minus the reference fundamental
(cosine when `choice = 0`, else sine). -/
noncomputable def designOne (N : ℕ) (cols : List (ℕ → ℝ)) (f : ℝ) (H choice : ℕ) : List (ℕ → ℝ) × (ℕ → ℝ) :=
  if choice = 0 then
    (cols ++ [fun n => if n < N then 1 else 0] ++ (List.range (H - 1)).map (fun h => cosOne N f (h + 1)) ++ (List.range H).map (sinOne N f),
      fun n => -cosOne N f 0 n)
  else
    (cols ++ [fun n => if n < N then 1 else 0] ++ (List.range (H - 1)).map (fun h => sinOne N f (h + 1)) ++ (List.range H).map (cosOne N f),
      fun n => -sinOne N f 0 n)

theorem segCol_one (N : ℕ) (g : ℕ → ℝ) : segCol [N] 0 g = fun n => if n < N then g n else 0 := by
  funext n
  unfold segCol segStart
  simp

theorem cosCols_cons (N : ℕ) (f : ℝ) (H : ℕ) (hH : 0 < H) :
    cosCols [N] [f] H = cosOne N f 0 :: (List.range (H - 1)).map fun h => cosOne N f (h + 1) := by
  rw [cosCols_one]
  conv_lhs => rw [show H = H - 1 + 1 by omega]
  rw [List.range_succ_eq_map, List.map_cons, List.map_map]
  congr 1
  · rw [segCol_one]; rfl
  · apply List.map_congr_left
    intro h _
    simp only [Function.comp]
    rw [segCol_one]
    rfl

theorem sinCols_cons (N : ℕ) (f : ℝ) (H : ℕ) (hH : 0 < H) :
    sinCols [N] [f] H = sinOne N f 0 :: (List.range (H - 1)).map fun h => sinOne N f (h + 1) := by
  rw [sinCols_one]
  conv_lhs => rw [show H = H - 1 + 1 by omega]
  rw [List.range_succ_eq_map, List.map_cons, List.map_map]
  congr 1
  · rw [segCol_one]; rfl
  · apply List.map_congr_left
    intro h _
    simp only [Function.comp]
    rw [segCol_one]
    rfl

theorem cosCols_all (N : ℕ) (f : ℝ) (H : ℕ) : cosCols [N] [f] H = (List.range H).map (cosOne N f) := by
  rw [cosCols_one]
  apply List.map_congr_left
  intro h _
  rw [segCol_one]
  rfl

theorem sinCols_all (N : ℕ) (f : ℝ) (H : ℕ) : sinCols [N] [f] H = (List.range H).map (sinOne N f) := by
  rw [sinCols_one]
  apply List.map_congr_left
  intro h _
  rw [segCol_one]
  rfl

theorem offsetCols_one (N : ℕ) : offsetCols [N] = [fun n => if n < N then 1 else 0] := by
  unfold offsetCols
  simp [List.range_succ, segCol_one]

/-- The known-frequency solve for one dataset is the better of the two documented fits. -/
theorem solveKnown_one (solve : Lstsq) (N : ℕ) (cols : List (ℕ → ℝ)) (f : ℝ) (H : ℕ) (hH : 0 < H) :
    ∃ choice, (choice = 0 ∨ choice = 1) ∧
      solveKnown solve [N] cols [f] H = .ok (solve N (designOne N cols f H choice).1 (designOne N cols f H choice).2, choice) := by
  unfold solveKnown dualBasis
  have hsum : [N].sum = N := by simp
  rw [cosCols_cons N f H hH, sinCols_cons N f H hH, hsum, offsetCols_one]
  simp only [List.append_nil]
  rw [← cosCols_cons N f H hH, ← sinCols_cons N f H hH, cosCols_all, sinCols_all]
  split_ifs
  · exact ⟨0, Or.inl rfl, by unfold designOne; rw [if_pos rfl]⟩
  · exact ⟨1, Or.inr rfl, by unfold designOne; rw [if_neg one_ne_zero]⟩

theorem list_split (x : List ℝ) (A B C : ℕ) (hx : x.length = A + B + C) :
    x = x.take A ++ slice x A (A + B) ++ slice x (A + B) (A + B + C) := by
  unfold slice
  rw [List.take_of_length_le (by omega : x.length ≤ A + B + C)]
  have h1 : (x.take (A + B)).take A = x.take A := by rw [List.take_take, min_eq_left (by omega)]
  conv_rhs => rw [← h1, List.take_append_drop]
  rw [List.take_append_drop]

/-- **C42 (part that holds).** One dataset, known frequency: for any least-squares solver and any data, noisy or not, the returned
error waveform is the residual of the fit itself, up to the common normalisation. So the weights, offset and harmonics that make up
`signal`, `offset` and `ideal` are all read from the columns they were fitted for. What is missing: several datasets and the
frequency search, where this fails (below). -/
theorem C42_single_known_partial (solve : Lstsq) (hlen : ∀ N A b, (solve N A b).length = A.length) (est : List ℝ) (segs : List (List (List ℝ)))
    (f : ℝ) (hf0 : f ≠ 0) (force : Option Bool) (hforce : force ≠ some true) (given : Option (List ℝ)) (H : ℕ) (hH : 0 < H) (lr reltol : ℝ)
    (maxIter : ℕ) (rows : List (List ℝ)) (width : ℕ) (nominal : List ℝ) (hprep : prepareInput segs given = .ok ([rows], width, nominal))
    (r : CalResult) (h : calibrate solve est segs (.scalar f) force given H lr reltol maxIter = .ok r) (cols : List (ℕ → ℝ))
    (hcols : cols = scaleCols rows.length (patchRank rows.length
      ((List.range width).map fun (j : ℕ) => fun (n : ℕ) => (rows.getD n []).getD j 0) nominal).eff) :
    ∃ choice ν, ν ≠ 0 ∧ ∀ n < rows.length, (r.resid.getD 0 []).getD n 0 * ν
      = matVec (designOne rows.length cols f H choice).1
          (solve rows.length (designOne rows.length cols f H choice).1 (designOne rows.length cols f H choice).2) n
        - (designOne rows.length cols f H choice).2 n := by
  set N := rows.length with hN
  set bits := (List.range width).map fun (j : ℕ) => fun (n : ℕ) => (rows.getD n []).getD j 0 with hbits
  set P := patchRank N bits nominal with hP
  obtain ⟨choice, hch, hsol⟩ := solveKnown_one solve N cols f H hH
  set x := solve N (designOne N cols f H choice).1 (designOne N cols f H choice).2 with hx
  have hcl : cols.length = P.eff.length := by rw [hcols]; simp [scaleCols]
  have hxl : x.length = P.eff.length + 1 + (H - 1) + H := by
    rw [hx, hlen]
    unfold designOne
    split_ifs <;> simp only [List.length_append, List.length_singleton, List.length_map, List.length_range, hcl]
  unfold calibrate at h
  rw [if_neg (by
    intro hc
    rw [if_pos hc] at h
    cases h), hprep] at h
  simp only [List.map_cons, List.map_nil, List.flatten_cons, List.flatten_nil, List.append_nil, List.sum_cons, List.sum_nil, add_zero,
    List.length_singleton] at h
  rw [← hN, ← hbits, ← hP] at h
  simp only [estimateFrequencies, if_neg hf0, FreqArg.values, List.replicate_one] at h
  have hsearch : searchWanted force [f] [f] = false := by
    unfold searchWanted
    rw [Bool.or_eq_false_iff]
    refine ⟨?_, decide_eq_false (by
      rintro ⟨y, hy, h0⟩
      rw [List.mem_singleton] at hy
      exact hf0 (hy ▸ h0))⟩
    cases force with
    | none => exact decide_eq_false (by simp [hf0])
    | some v => cases v with
      | false => rfl
      | true => exact absurd rfl hforce
  rw [← hcols] at h
  simp only [hsearch, Bool.false_eq_true, if_false, hsol] at h
  set norm := Real.sqrt (1 + x.getD (P.eff.length + 1 * H) 0 ^ 2) with hnorm
  have hnpos : 0 < norm := Real.sqrt_pos.mpr (by positivity)
  cases hrec : recoverRank (recoverScale x P.eff.length norm (P.eff.map (colScale N))) P.links with
  | error e => rw [hrec] at h; cases h
  | ok w =>
    rw [hrec] at h
    injection h with h
    have hrk := (C38_patch_recover_exact N bits nominal _ w (by rw [← hP]; exact hrec)).2
    rw [← hP] at hrk
    generalize hpol : (if w.sum < 0 then (-1 : ℝ) else 1) = pol
    have hp2 : pol * pol = 1 := by rw [← hpol]; split_ifs <;> norm_num
    refine ⟨choice, pol * norm, mul_ne_zero (by intro h0; rw [h0] at hp2; norm_num at hp2) hnpos.ne', ?_⟩
    intro n hn
    have hres : (r.resid.getD 0 []).getD n 0
        = (matVec bits w n - -(x.getD P.eff.length 0) / norm - reconstructSine [N] [f] P.eff.length H x choice norm 0 n) * pol := by
      rw [← h]
      unfold postProcess
      simp only [List.length_singleton, List.range_one, List.map_cons, List.map_nil, segStart, List.take_zero, List.sum_nil, zero_add,
        List.getD_cons_zero, List.map_map, hpol]
      rw [getD_range_map _ _ _ _ hn]
      rfl
    rw [hres, ← hx]
    have hsplit := list_split x (P.eff.length + 1) (H - 1) H hxl
    set z := x.take (P.eff.length + 1) with hz
    set ut := slice x (P.eff.length + 1) (P.eff.length + 1 + (H - 1)) with hut
    set o := slice x (P.eff.length + 1 + (H - 1)) (P.eff.length + 1 + (H - 1) + H) with ho
    have hzl : z.length = P.eff.length + 1 := by rw [hz, List.length_take]; omega
    have hutl : ut.length = H - 1 := by rw [hut, slice_length]; omega
    have hol : o.length = H := by rw [ho, slice_length]; omega
    have hx1 : x = (z ++ ut ++ o).map (fun v => 1 * v) := by
      rw [← hsplit]; simp
    have hrecon : reconstructSine [N] [f] P.eff.length H x choice norm 0 n
        = -(1 * (if choice = 0 then matVec (cosCols [N] [f] H) (1 :: ut) n + matVec (sinCols [N] [f] H) o n
          else matVec (cosCols [N] [f] H) o n + matVec (sinCols [N] [f] H) (1 :: ut) n)) / norm := by
      conv_lhs => rw [hx1]
      exact reconstruct_one N f P.eff.length H hH z ut o 1 1 norm choice n hzl (by omega) hol (by norm_num)
    rw [hrecon]
    have hw : matVec bits w n = matVec cols x n / norm := by
      rw [← hrk n, C39_scaling_undone, ← hcols]
    have hz2 := split_last z P.eff.length hzl
    have hzW : z.getD P.eff.length 0 = x.getD P.eff.length 0 := by rw [hz, getD_take_list _ _ _ _ (by omega)]
    have hone : ∀ v : ℝ, matVec [fun n => if n < N then (1 : ℝ) else 0] [v] n = v := by
      intro v; unfold matVec; simp [hn]
    have hzc : matVec cols (z.take P.eff.length) n = matVec cols x n := by
      apply matVec_congr
      intro j hj
      rw [getD_take_list _ _ _ _ (by omega), hz, getD_take_list _ _ _ _ (by omega)]
    have hfirst : matVec (cols ++ [fun n => if n < N then (1 : ℝ) else 0]) z n = matVec cols x n + x.getD P.eff.length 0 := by
      rw [hz2, matVec_append' _ _ _ _ _ (by rw [List.length_take, hcl]; omega), hone, hzc, hzW]
    have hstep : ∀ (ct ot : List (ℕ → ℝ)), ct.length = H - 1 →
        matVec (cols ++ [fun n => if n < N then (1 : ℝ) else 0] ++ ct ++ ot) x n
          = matVec cols x n + x.getD P.eff.length 0 + matVec ct ut n + matVec ot o n := by
      intro ct ot hc
      conv_lhs => rw [hsplit]
      rw [matVec_append' _ _ _ _ _ (by simp only [List.length_append, List.length_singleton]; omega),
        matVec_append' _ _ _ _ _ (by simp only [List.length_append, List.length_singleton]; omega), hfirst]
    rw [hw]
    unfold designOne
    rcases hch with rfl | rfl
    · simp only [if_true]
      rw [hstep _ _ (by rw [List.length_map, List.length_range]), cosCols_cons N f H hH, sinCols_all, matVec_cons]
      field_simp
      linear_combination (matVec cols x n + x.getD P.eff.length 0 + (1 * cosOne N f 0 n
        + matVec ((List.range (H - 1)).map fun h => cosOne N f (h + 1)) ut n + matVec ((List.range H).map (sinOne N f)) o n)) * hp2
    · simp only [if_neg one_ne_zero]
      rw [hstep _ _ (by rw [List.length_map, List.length_range]), cosCols_all, sinCols_cons N f H hH, matVec_cons]
      field_simp
      linear_combination (matVec cols x n + x.getD P.eff.length 0 + (matVec ((List.range H).map (cosOne N f)) o n + (1 * sinOne N f 0 n
        + matVec ((List.range (H - 1)).map fun h => sinOne N f (h + 1)) ut n))) * hp2

end Verif
