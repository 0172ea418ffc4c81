import Verif.Model.MatlabCal
import Verif.Proofs.Lstsq
import Verif.Proofs.Sinad
import Verif.Theorems.CalibrationSearch
import Mathlib.Analysis.SpecialFunctions.Trigonometric.Deriv

/-!
# C133: `calibrate_weight_sine` against MATLAB's `wcalsin`
-/

namespace Verif

open Model Finset

/-! ## Two least-squares problems whose columns differ by factors -/

theorem resid_scaled (N : ℕ) (A A' : List (ℕ → ℝ)) (b b' : ℕ → ℝ) (s : ℕ → ℝ) (hlen : A'.length = A.length)
    (hcol : ∀ j < A.length, ∀ n < N, (A'.getD j 0) n = s j * (A.getD j 0) n) (hb : ∀ n < N, b' n = b n) (x : List ℝ) :
    residNorm N A' x b' = residNorm N A ((List.range A.length).map fun (j : ℕ) => s j * x.getD j 0) b := by
  unfold residNorm
  congr 1
  apply sum_congr rfl
  intro n hn
  have hn' := mem_range.mp hn
  have e : matVec A' x n = matVec A ((List.range A.length).map fun (j : ℕ) => s j * x.getD j 0) n := by
    unfold matVec
    rw [hlen]
    apply sum_congr rfl
    intro j hj
    have hj' := mem_range.mp hj
    rw [hcol j hj' n hn', getD_range_map _ _ _ _ hj']
    ring
  rw [e, hb n hn']

/-- The smallest residual depends only on what the columns span. -/
theorem resid_transfer (solve : Lstsq) (hs : IsLstsq solve) (N : ℕ) (A A' : List (ℕ → ℝ)) (b b' : ℕ → ℝ) (s : ℕ → ℝ) (hs0 : ∀ j, s j ≠ 0)
    (hlen : A'.length = A.length) (hcol : ∀ j < A.length, ∀ n < N, (A'.getD j 0) n = s j * (A.getD j 0) n) (hb : ∀ n < N, b' n = b n) :
    residNorm N A' (solve N A' b') b' = residNorm N A (solve N A b) b := by
  apply le_antisymm
  · refine le_trans (hs.opt N A' b' ((List.range A.length).map fun (j : ℕ) => (s j)⁻¹ * (solve N A b).getD j 0)) (le_of_eq ?_)
    rw [resid_scaled N A A' b b' s hlen hcol hb]
    congr 1
    apply list_ext_getD
    · rw [hs.len]; simp
    · intro j hj
      have hj' : j < A.length := by simpa using hj
      rw [getD_range_map _ _ _ _ hj', getD_range_map _ _ _ _ hj', mul_inv_cancel_left₀ (hs0 j)]
  · rw [resid_scaled N A A' b b' s hlen hcol hb]
    exact hs.opt N A b _

/-- When the first problem is determined, the solutions correspond. -/
theorem lstsq_transfer (solve : Lstsq) (hs : IsLstsq solve) (N : ℕ) (A A' : List (ℕ → ℝ)) (b b' : ℕ → ℝ) (s : ℕ → ℝ) (hs0 : ∀ j, s j ≠ 0)
    (hlen : A'.length = A.length) (hcol : ∀ j < A.length, ∀ n < N, (A'.getD j 0) n = s j * (A.getD j 0) n) (hb : ∀ n < N, b' n = b n)
    (hind : ∀ z : List ℝ, z.length = A.length → (∀ n < N, matVec A z n = 0) → ∀ j < A.length, z.getD j 0 = 0) :
    ∀ j < A.length, s j * (solve N A' b').getD j 0 = (solve N A b).getD j 0 := by
  have hr := resid_transfer solve hs N A A' b b' s hs0 hlen hcol hb
  rw [resid_scaled N A A' b b' s hlen hcol hb] at hr
  set x := solve N A b with hx
  set y := (List.range A.length).map fun (j : ℕ) => s j * (solve N A' b').getD j 0 with hy
  have hxl : x.length = A.length := hs.len N A b
  have hyl : y.length = A.length := by rw [hy]; simp
  set z := (List.range A.length).map fun (j : ℕ) => y.getD j 0 - x.getD j 0 with hz
  have hzl : z.length = A.length := by rw [hz]; simp
  have hmz : ∀ n, matVec A z n = matVec A y n - matVec A x n := by
    intro n
    unfold matVec
    rw [← sum_sub_distrib]
    apply sum_congr rfl
    intro j hj
    rw [hz, getD_range_map _ _ _ _ (mem_range.mp hj)]
    ring
  have horth := lstsq_orthogonal solve hs N A b z hzl
  rw [← hx] at horth
  unfold residNorm at hr
  rw [Real.sqrt_inj (sum_nonneg fun n _ => sq_nonneg _) (sum_nonneg fun n _ => sq_nonneg _)] at hr
  have hexp : ∑ n ∈ range N, (matVec A y n - b n) ^ 2
      = ∑ n ∈ range N, (matVec A x n - b n) ^ 2 - 2 * ∑ n ∈ range N, (b n - matVec A x n) * matVec A z n + ∑ n ∈ range N, matVec A z n ^ 2 := by
    rw [mul_sum, ← sum_sub_distrib, ← sum_add_distrib]
    apply sum_congr rfl
    intro n _
    rw [hmz]
    ring
  rw [hexp, horth] at hr
  have hzero : ∑ n ∈ range N, matVec A z n ^ 2 = 0 := by linarith
  rw [sum_eq_zero_iff_of_nonneg (fun n _ => sq_nonneg _)] at hzero
  have := hind z hzl (fun n hn => by
    have := hzero n (mem_range.mpr hn)
    exact pow_eq_zero_iff (two_ne_zero) |>.mp this)
  intro j hj
  have h := this j hj
  rw [hz, getD_range_map _ _ _ _ hj, hy, getD_range_map _ _ _ _ hj] at h
  linarith

/-! ## The two designs -/

/-- The fit with the given unity basis is determined: no combination of the columns, other than zero, is an offset plus harmonics without the
reference fundamental. -/
def FitDetermined (N : ℕ) (cols : List (ℕ → ℝ)) (f : ℝ) (H : ℕ) (sine : Bool) : Prop :=
  ∀ (u : List ℝ) (d : ℝ) (p q : ℕ → ℝ), u.length = cols.length → (if sine then q 0 = 0 else p 0 = 0) →
    (∀ n < N, matVec cols u n = harmonicSeries f H d p q n) → (∀ j < cols.length, u.getD j 0 = 0) ∧ d = 0 ∧ ∀ h < H, p h = 0 ∧ q h = 0

theorem xc_eq (f : ℝ) (h n : ℕ) : mlXc f h n = Real.cos (2 * Real.pi * f * ((n : ℝ) * ((h : ℝ) + 1))) := by
  unfold mlXc
  congr 1
  ring

theorem xs_eq (f : ℝ) (h n : ℕ) : mlXs f h n = Real.sin (2 * Real.pi * f * ((n : ℝ) * ((h : ℝ) + 1))) := by
  unfold mlXs
  congr 1
  ring

/-- The columns of MATLAB's fit after the bit columns. -/
noncomputable def mlTail (f : ℝ) (H : ℕ) (sine : Bool) : List (ℕ → ℝ) :=
  [fun _ => 1] ++ (List.range (H - 1)).map (fun h => if sine then mlXs f (h + 1) else mlXc f (h + 1))
    ++ (List.range H).map (fun h => if sine then mlXc f h else mlXs f h)

/-- Keep the first `N` samples. -/
def cutCol (N : ℕ) (c : ℕ → ℝ) (n : ℕ) : ℝ := if n < N then c n else 0

theorem mlFitMatrix_eq (cols : List (ℕ → ℝ)) (f : ℝ) (H : ℕ) (sine : Bool) :
    mlFitMatrix cols f H [] sine = (cols ++ mlTail f H sine, fun n => -(if sine then mlXs f 0 n else mlXc f 0 n)) := by
  unfold mlFitMatrix mlTail
  cases sine <;> simp

theorem designOne_eq (N : ℕ) (cols : List (ℕ → ℝ)) (f : ℝ) (H : ℕ) (sine : Bool) :
    designOne N cols f H (if sine then 1 else 0)
      = (cols ++ (mlTail f H sine).map (cutCol N), fun n => -cutCol N (if sine then mlXs f 0 else mlXc f 0) n) := by
  have hc : ∀ h, cosOne N f h = cutCol N (mlXc f h) := by
    intro h; funext n; unfold cosOne cutCol; rw [xc_eq]
  have hs : ∀ h, sinOne N f h = cutCol N (mlXs f h) := by
    intro h; funext n; unfold sinOne cutCol; rw [xs_eq]
  unfold designOne mlTail
  cases sine
  · simp only [Bool.false_eq_true, if_false, if_true]
    simp only [List.map_append, List.map_map, List.map_cons, List.map_nil, ← List.append_assoc, hc]
    congr 1
    congr 1
    exact List.map_congr_left fun h _ => hs h
  · simp only [if_true, one_ne_zero, if_false]
    simp only [List.map_append, List.map_map, List.map_cons, List.map_nil, ← List.append_assoc, hs]
    congr 1
    congr 1
    exact List.map_congr_left fun h _ => hc h

theorem mlTail_length (f : ℝ) (H : ℕ) (hH : 0 < H) (sine : Bool) : (mlTail f H sine).length = 2 * H := by
  unfold mlTail
  simp
  omega

/-- What the harmonic part of a fit stands for. -/
theorem tail_series (f : ℝ) (H : ℕ) (hH : 0 < H) (sine : Bool) (y : List ℝ) (n : ℕ) :
    matVec (mlTail f H sine) y n
      = if sine then harmonicSeries f H (y.getD 0 0) (fun h => y.getD (H + h) 0) (fun h => if h = 0 then 0 else y.getD h 0) n
        else harmonicSeries f H (y.getD 0 0) (fun h => if h = 0 then 0 else y.getD h 0) (fun h => y.getD (H + h) 0) n := by
  have hone : ∀ v : List ℝ, matVec [fun _ => (1 : ℝ)] v n = v.getD 0 0 := by
    intro v; unfold matVec; simp
  have hshift : ∀ g : ℕ → ℝ, ∑ h ∈ range H, (if h = 0 then 0 else y.getD h 0) * g h = ∑ h ∈ range (H - 1), y.getD (1 + h) 0 * g (h + 1) := by
    intro g
    conv_lhs => rw [show H = H - 1 + 1 by omega]
    rw [sum_range_succ']
    simp only [if_true, zero_mul, add_zero]
    apply sum_congr rfl
    intro h _
    rw [if_neg (by omega), add_comm h 1]
  unfold mlTail
  rw [matVec_append, matVec_append, hone, matVec_range, matVec_range]
  simp only [List.length_append, List.length_singleton, List.length_map, List.length_range, getD_drop_list]
  rw [show 1 + (H - 1) = H by omega]
  unfold harmonicSeries
  cases sine
  · simp only [Bool.false_eq_true, if_false]
    rw [sum_add_distrib, hshift]
    simp only [xc_eq, xs_eq]
    ring
  · simp only [if_true]
    rw [sum_add_distrib, hshift]
    simp only [xc_eq, xs_eq]
    ring

theorem mlScaled_length (N : ℕ) (cols : List (ℕ → ℝ)) : (mlScaled N cols).length = cols.length := by simp [mlScaled]

theorem mlScaled_vec (N : ℕ) (cols : List (ℕ → ℝ)) (x : List ℝ) (n : ℕ) :
    matVec (mlScaled N cols) x n = matVec cols ((List.range cols.length).map fun (j : ℕ) => x.getD j 0 * (10 : ℝ) ^ (-mlMag N (cols.getD j 0))) n := by
  unfold matVec
  rw [mlScaled_length]
  apply sum_congr rfl
  intro j hj
  have hj' := mem_range.mp hj
  rw [getD_range_map _ _ _ _ hj']
  unfold mlScaled
  rw [getD_map_cols _ _ _ _ hj']
  ring

/-- A determined fit in MATLAB's scaled columns. -/
theorem scaled_determined (N : ℕ) (cols : List (ℕ → ℝ)) (f : ℝ) (H : ℕ) (hH : 0 < H) (sine : Bool) (hd : FitDetermined N cols f H sine) :
    ∀ z : List ℝ, z.length = (mlScaled N cols ++ mlTail f H sine).length → (∀ n < N, matVec (mlScaled N cols ++ mlTail f H sine) z n = 0) →
      ∀ j < (mlScaled N cols ++ mlTail f H sine).length, z.getD j 0 = 0 := by
  intro z hz h0
  rw [List.length_append, mlScaled_length, mlTail_length f H hH] at hz ⊢
  set y := z.drop cols.length with hy
  have hyz : ∀ i, y.getD i 0 = z.getD (cols.length + i) 0 := fun i => getD_drop_list _ _ _ _
  have hsplit : ∀ n < N, matVec cols ((List.range cols.length).map fun (j : ℕ) => z.getD j 0 * (10 : ℝ) ^ (-mlMag N (cols.getD j 0))) n
      = -matVec (mlTail f H sine) y n := by
    intro n hn
    have := h0 n hn
    rw [matVec_append, mlScaled_vec, mlScaled_length] at this
    linarith
  have hneg : ∀ (d : ℝ) (p q : ℕ → ℝ) (n : ℕ), -harmonicSeries f H d p q n = harmonicSeries f H (-d) (fun h => -p h) (fun h => -q h) n := by
    intro d p q n
    unfold harmonicSeries
    rw [neg_add, ← sum_neg_distrib]
    congr 1
    apply sum_congr rfl
    intro h _
    ring
  have hpow : ∀ j, (10 : ℝ) ^ (-mlMag N (cols.getD j 0)) ≠ 0 := fun j => by positivity
  have key : (∀ j < cols.length, z.getD j 0 = 0) ∧ y.getD 0 0 = 0 ∧ ∀ h < H, (h ≠ 0 → y.getD h 0 = 0) ∧ y.getD (H + h) 0 = 0 := by
    cases sine
    · obtain ⟨h1, h2, h3⟩ := hd ((List.range cols.length).map fun (j : ℕ) => z.getD j 0 * (10 : ℝ) ^ (-mlMag N (cols.getD j 0))) (-(y.getD 0 0)) (fun h => -(if h = 0 then 0 else y.getD h 0)) (fun h => -y.getD (H + h) 0) (by simp)
        (by simp) (by
          intro n hn
          rw [hsplit n hn, tail_series f H hH]
          simp only [Bool.false_eq_true, if_false]
          rw [hneg])
      refine ⟨?_, by linarith, ?_⟩
      · intro j hj
        have := h1 j hj
        rw [getD_range_map _ _ _ _ hj] at this
        exact (mul_eq_zero.mp this).resolve_right (hpow j)
      · intro h hh
        obtain ⟨e1, e2⟩ := h3 h hh
        refine ⟨?_, by linarith⟩
        intro hne
        simp only [if_neg hne] at e1
        linarith
    · obtain ⟨h1, h2, h3⟩ := hd ((List.range cols.length).map fun (j : ℕ) => z.getD j 0 * (10 : ℝ) ^ (-mlMag N (cols.getD j 0))) (-(y.getD 0 0)) (fun h => -y.getD (H + h) 0) (fun h => -(if h = 0 then 0 else y.getD h 0)) (by simp)
        (by simp) (by
          intro n hn
          rw [hsplit n hn, tail_series f H hH]
          simp only [if_true]
          rw [hneg])
      refine ⟨?_, by linarith, ?_⟩
      · intro j hj
        have := h1 j hj
        rw [getD_range_map _ _ _ _ hj] at this
        exact (mul_eq_zero.mp this).resolve_right (hpow j)
      · intro h hh
        obtain ⟨e1, e2⟩ := h3 h hh
        refine ⟨?_, by linarith⟩
        intro hne
        simp only [if_neg hne] at e2
        linarith
  obtain ⟨k1, k2, k3⟩ := key
  intro j hj
  by_cases hjc : j < cols.length
  · exact k1 j hjc
  · obtain ⟨i, rfl⟩ : ∃ i, j = cols.length + i := ⟨j - cols.length, by omega⟩
    rw [← hyz]
    by_cases hi : i < H
    · by_cases hi0 : i = 0
      · rw [hi0]; exact k2
      · exact (k3 i hi).1 hi0
    · have := (k3 (i - H) (by omega)).2
      rw [show H + (i - H) = i by omega] at this
      exact this

theorem trunc_getD (l : List (ℕ → ℝ)) (N i n : ℕ) (hn : n < N) : ((l.map (cutCol N)).getD i 0) n = (l.getD i 0) n := by
  by_cases hi : i < l.length
  · rw [getD_map_cols _ _ _ _ hi]
    unfold cutCol
    rw [if_pos hn]
  · rw [List.getD_eq_getElem?_getD, List.getD_eq_getElem?_getD, List.getElem?_eq_none (by simpa using hi), List.getElem?_eq_none (by omega)]

/-- The factor between the two scaled columns. -/
noncomputable def colRatio (N : ℕ) (cols : List (ℕ → ℝ)) (j : ℕ) : ℝ :=
  if j < cols.length then (10 : ℝ) ^ (-colScale N (cols.getD j 0)) * (10 : ℝ) ^ (mlMag N (cols.getD j 0)) else 1

theorem colRatio_ne (N : ℕ) (cols : List (ℕ → ℝ)) (j : ℕ) : colRatio N cols j ≠ 0 := by
  unfold colRatio
  split_ifs
  · positivity
  · exact one_ne_zero

theorem design_cols (N : ℕ) (cols : List (ℕ → ℝ)) (f : ℝ) (H : ℕ) (sine : Bool) :
    ∀ j < (mlScaled N cols ++ mlTail f H sine).length, ∀ n < N, ((scaleCols N cols ++ (mlTail f H sine).map (cutCol N)).getD j 0) n
      = colRatio N cols j * ((mlScaled N cols ++ mlTail f H sine).getD j 0) n := by
  intro j _ n hn
  have hsl : (scaleCols N cols).length = cols.length := by simp [scaleCols]
  by_cases hj : j < cols.length
  · rw [getD_append_left_list _ _ _ _ (by omega), getD_append_left_list _ _ _ _ (by rw [mlScaled_length]; exact hj)]
    unfold scaleCols mlScaled colRatio
    rw [getD_map_cols _ _ _ _ hj, getD_map_cols _ _ _ _ hj, if_pos hj, zpow_neg _ (mlMag N (cols.getD j 0))]
    have : (10 : ℝ) ^ (mlMag N (cols.getD j 0)) ≠ 0 := by positivity
    field_simp
  · obtain ⟨i, rfl⟩ : ∃ i, j = cols.length + i := ⟨j - cols.length, by omega⟩
    have e1 := getD_append_right_list (scaleCols N cols) ((mlTail f H sine).map (cutCol N)) i 0
    have e2 := getD_append_right_list (mlScaled N cols) (mlTail f H sine) i 0
    rw [hsl] at e1
    rw [mlScaled_length] at e2
    rw [e1, e2, trunc_getD _ _ _ _ hn]
    unfold colRatio
    rw [if_neg (by omega), one_mul]

theorem rms_lt_iff (N : ℕ) (hN : 0 < N) (A B : List (ℕ → ℝ) × (ℕ → ℝ)) (x y : List ℝ) :
    mlFitRms N A x < mlFitRms N B y ↔ residNorm N A.1 x A.2 < residNorm N B.1 y B.2 := by
  have hN' : (0 : ℝ) < N := by exact_mod_cast hN
  unfold mlFitRms residNorm colMean
  rw [Real.sqrt_lt_sqrt_iff (div_nonneg (sum_nonneg fun n _ => sq_nonneg _) hN'.le), Real.sqrt_lt_sqrt_iff (sum_nonneg fun n _ => sq_nonneg _),
    div_lt_div_iff_of_pos_right hN']

theorem solveKnown_choice (solve : Lstsq) (N : ℕ) (cols : List (ℕ → ℝ)) (f : ℝ) (H : ℕ) (hH : 0 < H) :
    solveKnown solve [N] cols [f] H = .ok
      (if residNorm N (designOne N cols f H 0).1 (solve N (designOne N cols f H 0).1 (designOne N cols f H 0).2) (designOne N cols f H 0).2
          < residNorm N (designOne N cols f H 1).1 (solve N (designOne N cols f H 1).1 (designOne N cols f H 1).2) (designOne N cols f H 1).2
        then (solve N (designOne N cols f H 0).1 (designOne N cols f H 0).2, 0) else (solve N (designOne N cols f H 1).1 (designOne N cols f H 1).2, 1)) := by
  unfold solveKnown dualBasis
  have hsum : [N].sum = N := by simp
  rw [cosCols_cons N f H hH, sinCols_cons N f H hH, hsum, offsetCols_one]
  simp only [List.append_nil]
  rw [← cosCols_cons N f H hH, ← sinCols_cons N f H hH, cosCols_all, sinCols_all]
  unfold designOne
  simp only [if_true, one_ne_zero, if_false]
  split_ifs <;> rfl

/-- Both programs choose the same unity basis, and when that fit is determined they have the same coefficients up to the column scaling. -/
theorem known_same (solve : Lstsq) (hs : IsLstsq solve) (N : ℕ) (hN : 0 < N) (cols : List (ℕ → ℝ)) (f : ℝ) (H : ℕ) (hH : 0 < H) :
    ∃ x, solveKnown solve [N] (scaleCols N cols) [f] H = .ok (x, if (mlFitBoth solve N (mlScaled N cols) f H []).2 then 1 else 0) ∧
      x.length = cols.length + 2 * H ∧ (FitDetermined N cols f H (mlFitBoth solve N (mlScaled N cols) f H []).2 →
        (∀ j < cols.length, x.getD j 0 * (10 : ℝ) ^ (-colScale N (cols.getD j 0))
          = (mlFitBoth solve N (mlScaled N cols) f H []).1.getD j 0 * (10 : ℝ) ^ (-mlMag N (cols.getD j 0))) ∧
        ∀ i < 2 * H, x.getD (cols.length + i) 0 = (mlFitBoth solve N (mlScaled N cols) f H []).1.getD (cols.length + i) 0) := by
  have hsl : (scaleCols N cols).length = cols.length := by simp [scaleCols]
  have hlen : ∀ sine : Bool, (scaleCols N cols ++ (mlTail f H sine).map (cutCol N)).length = (mlScaled N cols ++ mlTail f H sine).length := by
    intro sine
    simp [hsl, mlScaled_length]
  have hb : ∀ sine : Bool, ∀ n < N, (fun n => -cutCol N (if sine then mlXs f 0 else mlXc f 0) n) n = (fun n => -(if sine then mlXs f 0 n else mlXc f 0 n)) n := by
    intro sine n hn
    simp only [cutCol, if_pos hn]
    cases sine <;> rfl
  have hres := fun sine => resid_transfer solve hs N _ _ _ _ (colRatio N cols) (colRatio_ne N cols) (hlen sine) (design_cols N cols f H sine) (hb sine)
  have htr := fun sine (hd : FitDetermined N cols f H sine) => lstsq_transfer solve hs N _ _ _ _ (colRatio N cols) (colRatio_ne N cols) (hlen sine)
    (design_cols N cols f H sine) (hb sine) (scaled_determined N cols f H hH sine hd)
  have fin : ∀ sine (x y : List ℝ), (∀ j < (mlScaled N cols ++ mlTail f H sine).length, colRatio N cols j * x.getD j 0 = y.getD j 0) →
      (∀ j < cols.length, x.getD j 0 * (10 : ℝ) ^ (-colScale N (cols.getD j 0)) = y.getD j 0 * (10 : ℝ) ^ (-mlMag N (cols.getD j 0))) ∧
        ∀ i < 2 * H, x.getD (cols.length + i) 0 = y.getD (cols.length + i) 0 := by
    intro sine x y h
    rw [List.length_append, mlScaled_length, mlTail_length f H hH] at h
    constructor
    · intro j hj
      have := h j (by omega)
      unfold colRatio at this
      rw [if_pos hj] at this
      rw [← this, zpow_neg _ (mlMag N (cols.getD j 0))]
      have : (10 : ℝ) ^ (mlMag N (cols.getD j 0)) ≠ 0 := by positivity
      field_simp
    · intro i hi
      have := h (cols.length + i) (by omega)
      unfold colRatio at this
      rw [if_neg (by omega), one_mul] at this
      exact this
  have hd0 := designOne_eq N (scaleCols N cols) f H false
  have hd1 := designOne_eq N (scaleCols N cols) f H true
  simp only [Bool.false_eq_true, if_false] at hd0
  simp only [if_true] at hd1
  have h0 := hres false
  have h1 := hres true
  simp only [Bool.false_eq_true, if_false] at h0
  simp only [if_true] at h1
  have hxl : ∀ sine b, (solve N (scaleCols N cols ++ (mlTail f H sine).map (cutCol N)) b).length = cols.length + 2 * H := by
    intro sine b
    rw [hs.len, hlen, List.length_append, mlScaled_length, mlTail_length f H hH]
  rw [solveKnown_choice solve N _ f H hH, hd0, hd1]
  simp only
  rw [h0, h1]
  have hboth : mlFitBoth solve N (mlScaled N cols) f H []
      = if residNorm N (mlScaled N cols ++ mlTail f H false) (solve N (mlScaled N cols ++ mlTail f H false) fun n => -mlXc f 0 n) (fun n => -mlXc f 0 n)
          < residNorm N (mlScaled N cols ++ mlTail f H true) (solve N (mlScaled N cols ++ mlTail f H true) fun n => -mlXs f 0 n) (fun n => -mlXs f 0 n)
        then (solve N (mlScaled N cols ++ mlTail f H false) fun n => -mlXc f 0 n, false)
        else (solve N (mlScaled N cols ++ mlTail f H true) fun n => -mlXs f 0 n, true) := by
    unfold mlFitBoth
    simp only [rms_lt_iff N hN, mlFitMatrix_eq, Bool.false_eq_true, if_false, if_true]
  rw [hboth]
  by_cases hlt : residNorm N (mlScaled N cols ++ mlTail f H false) (solve N (mlScaled N cols ++ mlTail f H false) fun n => -mlXc f 0 n) (fun n => -mlXc f 0 n)
          < residNorm N (mlScaled N cols ++ mlTail f H true) (solve N (mlScaled N cols ++ mlTail f H true) fun n => -mlXs f 0 n) (fun n => -mlXs f 0 n)
  · simp only [if_pos hlt, Bool.false_eq_true, if_false]
    refine ⟨_, rfl, hxl false _, ?_⟩
    intro hd
    have := htr false hd
    simp only [Bool.false_eq_true, if_false] at this
    exact fin false _ _ this
  · simp only [if_neg hlt, if_true]
    refine ⟨_, rfl, hxl true _, ?_⟩
    intro hd
    have := htr true hd
    simp only [if_true] at this
    exact fin true _ _ this

/-- The exact coefficients of MATLAB's fit for a record `sum w = c + sum (a cos + b sin)`, referred to the sine (`sine`) or the cosine. -/
noncomputable def exactFit (N : ℕ) (cols : List (ℕ → ℝ)) (H : ℕ) (w : List ℝ) (c : ℝ) (a b : ℕ → ℝ) (sine : Bool) : List ℝ :=
  let g := if sine then b else a
  let o := if sine then a else b
  (List.range (cols.length + 2 * H)).map fun (j : ℕ) =>
    if j < cols.length then -(w.getD j 0 * (10 : ℝ) ^ mlMag N (cols.getD j 0)) / g 0
    else if j = cols.length then c / g 0
    else if j < cols.length + H then g (j - cols.length) / g 0 else o (j - cols.length - H) / g 0

theorem exactFit_length (N : ℕ) (cols : List (ℕ → ℝ)) (H : ℕ) (w : List ℝ) (c : ℝ) (a b : ℕ → ℝ) (sine : Bool) :
    (exactFit N cols H w c a b sine).length = cols.length + 2 * H := by simp [exactFit]

theorem exactFit_bit (N : ℕ) (cols : List (ℕ → ℝ)) (H : ℕ) (w : List ℝ) (c : ℝ) (a b : ℕ → ℝ) (sine : Bool) (j : ℕ) (hj : j < cols.length) :
    (exactFit N cols H w c a b sine).getD j 0 = -(w.getD j 0 * (10 : ℝ) ^ mlMag N (cols.getD j 0)) / (if sine then b 0 else a 0) := by
  unfold exactFit
  simp only
  rw [getD_range_map _ _ _ _ (by omega), if_pos hj]
  cases sine <;> rfl

theorem exactFit_offset (N : ℕ) (cols : List (ℕ → ℝ)) (H : ℕ) (hH : 0 < H) (w : List ℝ) (c : ℝ) (a b : ℕ → ℝ) (sine : Bool) :
    (exactFit N cols H w c a b sine).getD cols.length 0 = c / (if sine then b 0 else a 0) := by
  unfold exactFit
  simp only
  rw [getD_range_map _ _ _ _ (by omega), if_neg (by omega), if_pos rfl]
  cases sine <;> rfl

theorem exactFit_unity (N : ℕ) (cols : List (ℕ → ℝ)) (H : ℕ) (w : List ℝ) (c : ℝ) (a b : ℕ → ℝ) (sine : Bool) (h : ℕ) (h0 : h ≠ 0) (hh : h < H) :
    (exactFit N cols H w c a b sine).getD (cols.length + h) 0 = (if sine then b h else a h) / (if sine then b 0 else a 0) := by
  unfold exactFit
  simp only
  rw [getD_range_map _ _ _ _ (by omega), if_neg (by omega), if_neg (by omega), if_pos (by omega), show cols.length + h - cols.length = h by omega]
  cases sine <;> rfl

theorem exactFit_other (N : ℕ) (cols : List (ℕ → ℝ)) (H : ℕ) (w : List ℝ) (c : ℝ) (a b : ℕ → ℝ) (sine : Bool) (h : ℕ) (hh : h < H) (hH : 0 < H) :
    (exactFit N cols H w c a b sine).getD (cols.length + H + h) 0 = (if sine then a h else b h) / (if sine then b 0 else a 0) := by
  unfold exactFit
  simp only
  rw [getD_range_map _ _ _ _ (by omega), if_neg (by omega), if_neg (by omega), if_neg (by omega),
    show cols.length + H + h - cols.length - H = h by omega]
  cases sine <;> rfl

/-- MATLAB's fit with extra columns: matrix in terms of bits, series and extra columns. -/
theorem fit_expand (N : ℕ) (cols : List (ℕ → ℝ)) (f : ℝ) (H : ℕ) (hH : 0 < H) (extra : List (ℕ → ℝ)) (sine : Bool) (z : List ℝ) (n : ℕ) :
    matVec (mlFitMatrix (mlScaled N cols) f H extra sine).1 z n - (mlFitMatrix (mlScaled N cols) f H extra sine).2 n
      = matVec cols ((List.range cols.length).map fun (j : ℕ) => z.getD j 0 * (10 : ℝ) ^ (-mlMag N (cols.getD j 0))) n
        + (if sine then harmonicSeries f H (z.getD cols.length 0) (fun h => z.getD (cols.length + H + h) 0) (fun h => if h = 0 then 1 else z.getD (cols.length + h) 0) n
          else harmonicSeries f H (z.getD cols.length 0) (fun h => if h = 0 then 1 else z.getD (cols.length + h) 0) (fun h => z.getD (cols.length + H + h) 0) n)
        + matVec extra (z.drop (cols.length + 2 * H)) n := by
  have e1 : (mlFitMatrix (mlScaled N cols) f H extra sine).1 = mlScaled N cols ++ mlTail f H sine ++ extra := by
    unfold mlFitMatrix mlTail
    cases sine <;> simp
  have e2 : (mlFitMatrix (mlScaled N cols) f H extra sine).2 n = -(if sine then mlXs f 0 n else mlXc f 0 n) := by
    unfold mlFitMatrix
    cases sine <;> simp
  rw [e1, e2, matVec_append, matVec_append, mlScaled_vec, tail_series f H hH, List.length_append, mlScaled_length, mlTail_length f H hH]
  simp only [getD_drop_list, add_zero]
  have hone : ∀ (d : ℝ) (p q y : ℕ → ℝ), harmonicSeries f H d p (fun h => if h = 0 then 1 else y h) n
      = harmonicSeries f H d p (fun h => if h = 0 then 0 else y h) n + mlXs f 0 n ∧
      harmonicSeries f H d (fun h => if h = 0 then 1 else y h) q n = harmonicSeries f H d (fun h => if h = 0 then 0 else y h) q n + mlXc f 0 n := by
    intro d p q y
    unfold harmonicSeries
    rw [xs_eq, xc_eq, show H = H - 1 + 1 by omega]
    simp only [sum_range_succ', if_true]
    constructor
    · have : ∀ h : ℕ, (if h + 1 = 0 then (1 : ℝ) else y (h + 1)) = if h + 1 = 0 then 0 else y (h + 1) := by intro h; rw [if_neg (by omega), if_neg (by omega)]
      simp only [this]
      ring
    · have : ∀ h : ℕ, (if h + 1 = 0 then (1 : ℝ) else y (h + 1)) = if h + 1 = 0 then 0 else y (h + 1) := by intro h; rw [if_neg (by omega), if_neg (by omega)]
      simp only [this]
      ring
  have hidx : ∀ h, cols.length + (H + h) = cols.length + H + h := fun h => by omega
  cases sine
  · simp only [Bool.false_eq_true, if_false, hidx]
    rw [(hone _ (fun _ => 0) _ fun h => z.getD (cols.length + h) 0).2]
    ring
  · simp only [if_true, hidx]
    rw [(hone _ _ (fun _ => 0) fun h => z.getD (cols.length + h) 0).1]
    ring

/-- A consistent system whose columns are independent has one solution, and the solver returns it. -/
theorem exact_unique (solve : Lstsq) (hs : IsLstsq solve) (N : ℕ) (A : List (ℕ → ℝ)) (b : ℕ → ℝ) (y : List ℝ) (hy : y.length = A.length)
    (hex : ∀ n < N, matVec A y n = b n)
    (hind : ∀ z : List ℝ, z.length = A.length → (∀ n < N, matVec A z n = b n) → ∀ j < A.length, z.getD j 0 = y.getD j 0) : solve N A b = y := by
  have h0 : residNorm N A y b = 0 := (residNorm_eq_zero N A y b).mpr hex
  have h1 : residNorm N A (solve N A b) b = 0 := le_antisymm (h0 ▸ hs.opt N A b y) (residNorm_nonneg _ _ _ _)
  have h2 := hind (solve N A b) (hs.len N A b) ((residNorm_eq_zero N A _ b).mp h1)
  apply list_ext_getD
  · rw [hs.len, hy]
  · intro j hj
    rw [hs.len] at hj
    exact h2 j hj

/-- The residual of the coefficients belonging to given weights, offset and harmonics. -/
theorem fit_gap (N : ℕ) (cols : List (ℕ → ℝ)) (f : ℝ) (H : ℕ) (hH : 0 < H) (w : List ℝ) (c : ℝ) (a b : ℕ → ℝ) (sine : Bool)
    (hr : (if sine then b 0 else a 0) ≠ 0) (n : ℕ) :
    matVec (mlFitMatrix (mlScaled N cols) f H [] sine).1 (exactFit N cols H w c a b sine) n - (mlFitMatrix (mlScaled N cols) f H [] sine).2 n
      = (harmonicSeries f H c a b n - matVec cols w n) / (if sine then b 0 else a 0) := by
  rw [fit_expand N cols f H hH [] sine]
  have hpow : ∀ j, (10 : ℝ) ^ (mlMag N (cols.getD j 0)) ≠ 0 := fun j => by positivity
  have hzero : ∀ z : List ℝ, matVec [] z n = 0 := by intro z; unfold matVec; simp
  have hbits : matVec cols ((List.range cols.length).map fun (j : ℕ) => (exactFit N cols H w c a b sine).getD j 0
      * (10 : ℝ) ^ (-mlMag N (cols.getD j 0))) n = -(1 / (if sine then b 0 else a 0)) * matVec cols w n := by
    rw [← matVec_smul]
    apply matVec_congr
    intro j hj
    rw [getD_range_map _ _ _ _ hj, getD_map_list, exactFit_bit _ _ _ _ _ _ _ _ _ hj, zpow_neg]
    have := hpow j
    field_simp
  rw [hzero, hbits, exactFit_offset _ _ _ hH]
  have hser : ∀ (d d' : ℝ) (p p' q q' : ℕ → ℝ), d = d' → (∀ h < H, p h = p' h) → (∀ h < H, q h = q' h) → harmonicSeries f H d p q n = harmonicSeries f H d' p' q' n := by
    intro d d' p p' q q' hd hp hq
    unfold harmonicSeries
    rw [hd]
    congr 1
    apply sum_congr rfl
    intro h hh
    rw [hp h (mem_range.mp hh), hq h (mem_range.mp hh)]
  have hlin : ∀ t : ℝ, harmonicSeries f H (t * c) (fun h => t * a h) (fun h => t * b h) n = t * harmonicSeries f H c a b n := by
    intro t
    unfold harmonicSeries
    rw [mul_add, mul_sum]
    congr 1
    apply sum_congr rfl
    intro h _
    ring
  generalize harmonicSeries f H c a b n = S at hlin ⊢
  cases sine
  · simp only [Bool.false_eq_true, if_false] at hr ⊢
    rw [hser _ (1 / a 0 * c) _ (fun h => 1 / a 0 * a h) _ (fun h => 1 / a 0 * b h) (by ring) ?_ ?_, hlin]
    · ring
    · intro h hh
      split_ifs with h0
      · rw [h0]; field_simp
      · rw [exactFit_unity _ _ _ _ _ _ _ _ _ h0 hh]
        simp only [Bool.false_eq_true, if_false]
        ring
    · intro h hh
      rw [exactFit_other _ _ _ _ _ _ _ _ _ hh hH]
      simp only [Bool.false_eq_true, if_false]
      ring
  · simp only [if_true] at hr ⊢
    rw [hser _ (1 / b 0 * c) _ (fun h => 1 / b 0 * a h) _ (fun h => 1 / b 0 * b h) (by ring) ?_ ?_, hlin]
    · ring
    · intro h hh
      rw [exactFit_other _ _ _ _ _ _ _ _ _ hh hH]
      simp only [if_true]
      ring
    · intro h hh
      split_ifs with h0
      · rw [h0]; field_simp
      · rw [exactFit_unity _ _ _ _ _ _ _ _ _ h0 hh]
        simp only [if_true]
        ring

/-- Noise-free data: the fit MATLAB chooses, with any extra columns that cannot take part. -/
theorem fit_clean (solve : Lstsq) (hs : IsLstsq solve) (N : ℕ) (hN : 0 < N) (cols : List (ℕ → ℝ)) (f : ℝ) (H : ℕ) (hH : 0 < H) (extra : List (ℕ → ℝ))
    (w : List ℝ) (hw : w.length = cols.length) (c : ℝ) (a b : ℕ → ℝ) (hne : a 0 ≠ 0 ∨ b 0 ≠ 0)
    (hclean : ∀ n < N, matVec cols w n = harmonicSeries f H c a b n)
    (honly : ∀ (u : List ℝ) (d : ℝ) (p q : ℕ → ℝ) (v : List ℝ), u.length = cols.length → v.length = extra.length →
      (∀ n < N, matVec cols u n = harmonicSeries f H d p q n + matVec extra v n) →
      ∃ t : ℝ, u = w.map (fun y => t * y) ∧ d = t * c ∧ (∀ h < H, p h = t * a h ∧ q h = t * b h) ∧ ∀ j < extra.length, v.getD j 0 = 0) :
    mlFitBoth solve N (mlScaled N cols) f H extra
      = (exactFit N cols H w c a b (decide (b 0 ≠ 0)) ++ List.replicate extra.length 0, decide (b 0 ≠ 0)) := by
  have hpow : ∀ j, (10 : ℝ) ^ (mlMag N (cols.getD j 0)) ≠ 0 := fun j => by positivity
  have hlenA : ∀ sine, (mlFitMatrix (mlScaled N cols) f H extra sine).1.length = cols.length + 2 * H + extra.length := by
    intro sine
    have e1 : (mlFitMatrix (mlScaled N cols) f H extra sine).1 = mlScaled N cols ++ mlTail f H sine ++ extra := by
      unfold mlFitMatrix mlTail
      cases sine <;> simp
    rw [e1, List.length_append, List.length_append, mlScaled_length, mlTail_length f H hH]
  -- any exact solution is the expected one
  have hsol : ∀ (sine : Bool) (z : List ℝ), z.length = cols.length + 2 * H + extra.length →
      (∀ n < N, matVec (mlFitMatrix (mlScaled N cols) f H extra sine).1 z n = (mlFitMatrix (mlScaled N cols) f H extra sine).2 n) →
      (if sine then b 0 else a 0) ≠ 0 ∧ ∀ j < cols.length + 2 * H + extra.length,
        z.getD j 0 = (exactFit N cols H w c a b sine ++ List.replicate extra.length 0).getD j 0 := by
    intro sine z hz h
    have hneg : ∀ (d : ℝ) (p q : ℕ → ℝ) (n : ℕ), -harmonicSeries f H d p q n = harmonicSeries f H (-d) (fun h => -p h) (fun h => -q h) n := by
      intro d p q n
      unfold harmonicSeries
      rw [neg_add, ← sum_neg_distrib]
      congr 1
      apply sum_congr rfl
      intro h _
      ring
    have hnegv : ∀ (v : List ℝ) (n : ℕ), -matVec extra v n = matVec extra (v.map fun y => -1 * y) n := by
      intro v n
      rw [matVec_smul]
      ring
    have hget : ∀ t, (if sine then b 0 else a 0) * t = -1 →
        (List.range cols.length).map (fun (j : ℕ) => z.getD j 0 * (10 : ℝ) ^ (-mlMag N (cols.getD j 0))) = w.map (fun y => t * y) →
        z.getD cols.length 0 = -(t * c) → (∀ h < H, h ≠ 0 → z.getD (cols.length + h) 0 = -(t * if sine then b h else a h)) →
        (∀ h < H, z.getD (cols.length + H + h) 0 = -(t * if sine then a h else b h)) → (∀ j < extra.length, z.getD (cols.length + 2 * H + j) 0 = 0) →
        (if sine then b 0 else a 0) ≠ 0 ∧ ∀ j < cols.length + 2 * H + extra.length,
          z.getD j 0 = (exactFit N cols H w c a b sine ++ List.replicate extra.length 0).getD j 0 := by
      intro t ht g1 g2 g3 g4 g5
      have hr : (if sine then b 0 else a 0) ≠ 0 := by
        intro h0
        rw [h0] at ht
        norm_num at ht
      have htr : t = -(1 / (if sine then b 0 else a 0)) := by field_simp; linarith
      refine ⟨hr, ?_⟩
      intro j hj
      by_cases hx : j < cols.length + 2 * H
      · rw [getD_append_left_list _ _ _ _ (by rw [exactFit_length]; exact hx)]
        by_cases h1 : j < cols.length
        · rw [exactFit_bit _ _ _ _ _ _ _ _ _ h1]
          have := congrArg (fun l => l.getD j 0) g1
          rw [getD_range_map _ _ _ _ h1, getD_map_list, zpow_neg] at this
          have h2 := hpow j
          have h3 : z.getD j 0 = t * w.getD j 0 * (10 : ℝ) ^ mlMag N (cols.getD j 0) := by
            rw [← this]
            field_simp
          rw [h3, htr]
          field_simp
        · obtain ⟨i, rfl⟩ : ∃ i, j = cols.length + i := ⟨j - cols.length, by omega⟩
          by_cases h2 : i = 0
          · subst h2
            rw [add_zero, exactFit_offset _ _ _ hH, g2, htr]
            field_simp
          · by_cases h3 : i < H
            · rw [exactFit_unity _ _ _ _ _ _ _ _ _ h2 h3, g3 i h3 h2, htr]
              field_simp
            · obtain ⟨k, rfl⟩ : ∃ k, i = H + k := ⟨i - H, by omega⟩
              rw [← add_assoc, exactFit_other _ _ _ _ _ _ _ _ _ (by omega) hH, g4 k (by omega), htr]
              field_simp
      · obtain ⟨i, rfl⟩ : ∃ i, j = cols.length + 2 * H + i := ⟨j - (cols.length + 2 * H), by omega⟩
        have := getD_append_right_list (exactFit N cols H w c a b sine) (List.replicate extra.length 0) i 0
        rw [exactFit_length] at this
        rw [this, g5 i (by omega), List.getD_eq_getElem _ _ (by simp; omega), List.getElem_replicate]
    have hz0 : ∀ n < N, _ := fun n hn => (fit_expand N cols f H hH extra sine z n).symm.trans (sub_eq_zero.mpr (h n hn))
    have hdl : ((z.drop (cols.length + 2 * H)).map fun y => -1 * y).length = extra.length := by
      rw [List.length_map, List.length_drop]; omega
    cases sine
    · simp only [Bool.false_eq_true, if_false] at hz0 hget ⊢
      obtain ⟨t, t1, t2, t3, t4⟩ := honly ((List.range cols.length).map fun (j : ℕ) => z.getD j 0 * (10 : ℝ) ^ (-mlMag N (cols.getD j 0))) (-(z.getD cols.length 0)) (fun h => -(if h = 0 then 1 else z.getD (cols.length + h) 0))
        (fun h => -z.getD (cols.length + H + h) 0) ((z.drop (cols.length + 2 * H)).map fun y => -1 * y) (by rw [List.length_map, List.length_range]) hdl (fun n hn => by
          rw [← hneg, ← hnegv]
          linarith [hz0 n hn])
      refine hget t ?_ t1 (by linarith) ?_ ?_ ?_
      · have := (t3 0 hH).1
        simp only [if_true] at this
        linarith
      · intro h hh h0
        have := (t3 h hh).1
        simp only [if_neg h0] at this
        linarith
      · intro h hh
        have := (t3 h hh).2
        linarith
      · intro j hj
        have := t4 j hj
        rw [getD_map_list, getD_drop_list] at this
        linarith
    · simp only [if_true] at hz0 hget ⊢
      obtain ⟨t, t1, t2, t3, t4⟩ := honly ((List.range cols.length).map fun (j : ℕ) => z.getD j 0 * (10 : ℝ) ^ (-mlMag N (cols.getD j 0))) (-(z.getD cols.length 0)) (fun h => -z.getD (cols.length + H + h) 0)
        (fun h => -(if h = 0 then 1 else z.getD (cols.length + h) 0)) ((z.drop (cols.length + 2 * H)).map fun y => -1 * y) (by rw [List.length_map, List.length_range]) hdl (fun n hn => by
          rw [← hneg, ← hnegv]
          linarith [hz0 n hn])
      refine hget t ?_ t1 (by linarith) ?_ ?_ ?_
      · have := (t3 0 hH).2
        simp only [if_true] at this
        linarith
      · intro h hh h0
        have := (t3 h hh).2
        simp only [if_neg h0] at this
        linarith
      · intro h hh
        have := (t3 h hh).1
        linarith
      · intro j hj
        have := t4 j hj
        rw [getD_map_list, getD_drop_list] at this
        linarith
  -- the expected one is exact
  have hex : ∀ sine : Bool, (if sine then b 0 else a 0) ≠ 0 → ∀ n < N,
      matVec (mlFitMatrix (mlScaled N cols) f H extra sine).1 (exactFit N cols H w c a b sine ++ List.replicate extra.length 0) n
        = (mlFitMatrix (mlScaled N cols) f H extra sine).2 n := by
    intro sine hr n hn
    rw [← sub_eq_zero, fit_expand N cols f H hH extra sine]
    have hl := exactFit_length N cols H w c a b sine
    have hleft : ∀ j < cols.length + 2 * H, (exactFit N cols H w c a b sine ++ List.replicate extra.length 0).getD j 0
        = (exactFit N cols H w c a b sine).getD j 0 := fun j hj => getD_append_left_list _ _ _ _ (by omega)
    have hzero : matVec extra ((exactFit N cols H w c a b sine ++ List.replicate extra.length 0).drop (cols.length + 2 * H)) n = 0 := by
      rw [← hl, List.drop_left]
      unfold matVec
      apply sum_eq_zero
      intro j hj
      rw [List.getD_eq_getElem _ _ (by simpa using hj), List.getElem_replicate, zero_mul]
    have hbits : matVec cols ((List.range cols.length).map fun (j : ℕ) => (exactFit N cols H w c a b sine ++ List.replicate extra.length 0).getD j 0
        * (10 : ℝ) ^ (-mlMag N (cols.getD j 0))) n = -(1 / (if sine then b 0 else a 0)) * matVec cols w n := by
      rw [← matVec_smul]
      apply matVec_congr
      intro j hj
      rw [getD_range_map _ _ _ _ hj, getD_map_list, hleft j (by omega), exactFit_bit _ _ _ _ _ _ _ _ _ hj, zpow_neg]
      have := hpow j
      field_simp
    rw [hzero, hbits, hclean n hn, hleft _ (by omega), exactFit_offset _ _ _ hH]
    have hser : ∀ (d d' : ℝ) (p p' q q' : ℕ → ℝ), d = d' → (∀ h < H, p h = p' h) → (∀ h < H, q h = q' h) → harmonicSeries f H d p q n = harmonicSeries f H d' p' q' n := by
      intro d d' p p' q q' hd hp hq
      unfold harmonicSeries
      rw [hd]
      congr 1
      apply sum_congr rfl
      intro h hh
      rw [hp h (mem_range.mp hh), hq h (mem_range.mp hh)]
    have hlin : ∀ t : ℝ, harmonicSeries f H (t * c) (fun h => t * a h) (fun h => t * b h) n = t * harmonicSeries f H c a b n := by
      intro t
      unfold harmonicSeries
      rw [mul_add, mul_sum]
      congr 1
      apply sum_congr rfl
      intro h _
      ring
    generalize harmonicSeries f H c a b n = S at hlin ⊢
    cases sine
    · simp only [Bool.false_eq_true, if_false] at hr ⊢ hleft
      rw [hser _ (1 / a 0 * c) _ (fun h => 1 / a 0 * a h) _ (fun h => 1 / a 0 * b h) (by ring) ?_ ?_, hlin]
      · ring
      · intro h hh
        split_ifs with h0
        · rw [h0]; field_simp
        · rw [hleft _ (by omega), exactFit_unity _ _ _ _ _ _ _ _ _ h0 hh]
          simp only [Bool.false_eq_true, if_false]
          ring
      · intro h hh
        rw [hleft _ (by omega), exactFit_other _ _ _ _ _ _ _ _ _ hh hH]
        simp only [Bool.false_eq_true, if_false]
        ring
    · simp only [if_true] at hr ⊢ hleft
      rw [hser _ (1 / b 0 * c) _ (fun h => 1 / b 0 * a h) _ (fun h => 1 / b 0 * b h) (by ring) ?_ ?_, hlin]
      · ring
      · intro h hh
        rw [hleft _ (by omega), exactFit_other _ _ _ _ _ _ _ _ _ hh hH]
        simp only [if_true]
        ring
      · intro h hh
        split_ifs with h0
        · rw [h0]; field_simp
        · rw [hleft _ (by omega), exactFit_unity _ _ _ _ _ _ _ _ _ h0 hh]
          simp only [if_true]
          ring
  have hsolve : ∀ sine : Bool, (if sine then b 0 else a 0) ≠ 0 →
      solve N (mlFitMatrix (mlScaled N cols) f H extra sine).1 (mlFitMatrix (mlScaled N cols) f H extra sine).2
        = exactFit N cols H w c a b sine ++ List.replicate extra.length 0 := by
    intro sine hr
    apply exact_unique solve hs N _ _ _ (by rw [List.length_append, exactFit_length, List.length_replicate, hlenA]) (hex sine hr)
    intro z hz h j hj
    rw [hlenA] at hz hj
    exact (hsol sine z hz h).2 j hj
  unfold mlFitBoth
  simp only
  by_cases hb : b 0 = 0
  · have ha : a 0 ≠ 0 := hne.resolve_right (by simp [hb])
    have hf := hsolve false (by simpa using ha)
    rw [if_pos, hf]
    · simp [hb]
    · rw [rms_lt_iff N hN, hf, (residNorm_eq_zero _ _ _ _).mpr (hex false (by simpa using ha))]
      apply lt_of_le_of_ne (residNorm_nonneg _ _ _ _)
      intro h0
      have := (hsol true _ (by rw [hs.len, hlenA]) ((residNorm_eq_zero _ _ _ _).mp h0.symm)).1
      simp [hb] at this
  · have ht := hsolve true (by simpa using hb)
    rw [if_neg, ht]
    · simp [hb]
    · rw [rms_lt_iff N hN, ht, (residNorm_eq_zero _ _ _ _).mpr (hex true (by simpa using hb))]
      exact not_lt.mpr (residNorm_nonneg _ _ _ _)

/-! ## MATLAB's choice of the unity basis -/

/-- Squared distance between a combination of the bits and an offset plus harmonics. -/
noncomputable def toneGap (N : ℕ) (cols : List (ℕ → ℝ)) (f : ℝ) (H : ℕ) (u : List ℝ) (d : ℝ) (p q : ℕ → ℝ) : ℝ :=
  ∑ n ∈ range N, (matVec cols u n - harmonicSeries f H d p q n) ^ 2

/-- MATLAB's solution with the given unity basis. -/
noncomputable def unitySolve (solve : Lstsq) (N : ℕ) (cols : List (ℕ → ℝ)) (f : ℝ) (H : ℕ) (sine : Bool) : List ℝ :=
  solve N (mlFitMatrix (mlScaled N cols) f H [] sine).1 (mlFitMatrix (mlScaled N cols) f H [] sine).2

/-- Its squared residual. -/
noncomputable def unityGap (solve : Lstsq) (N : ℕ) (cols : List (ℕ → ℝ)) (f : ℝ) (H : ℕ) (sine : Bool) : ℝ :=
  ∑ n ∈ range N, (matVec (mlFitMatrix (mlScaled N cols) f H [] sine).1 (unitySolve solve N cols f H sine) n
    - (mlFitMatrix (mlScaled N cols) f H [] sine).2 n) ^ 2

theorem unityGap_nonneg (solve : Lstsq) (N : ℕ) (cols : List (ℕ → ℝ)) (f : ℝ) (H : ℕ) (sine : Bool) : 0 ≤ unityGap solve N cols f H sine :=
  sum_nonneg fun _ _ => sq_nonneg _

theorem both_choice (solve : Lstsq) (N : ℕ) (hN : 0 < N) (cols : List (ℕ → ℝ)) (f : ℝ) (H : ℕ) :
    mlFitBoth solve N (mlScaled N cols) f H [] = if unityGap solve N cols f H false < unityGap solve N cols f H true
      then (unitySolve solve N cols f H false, false) else (unitySolve solve N cols f H true, true) := by
  unfold mlFitBoth unityGap unitySolve
  simp only [rms_lt_iff N hN]
  unfold residNorm
  simp only [Real.sqrt_lt_sqrt_iff (sum_nonneg fun (n : ℕ) (_ : n ∈ range N) => sq_nonneg (_ : ℝ))]

theorem tail_length (cols : List (ℕ → ℝ)) (N : ℕ) (f : ℝ) (H : ℕ) (hH : 0 < H) (sine : Bool) :
    (mlFitMatrix (mlScaled N cols) f H [] sine).1.length = cols.length + 2 * H := by
  rw [mlFitMatrix_eq]
  simp [mlScaled_length, mlTail_length f H hH]

theorem unity_orth (solve : Lstsq) (hs : IsLstsq solve) (N : ℕ) (cols : List (ℕ → ℝ)) (f : ℝ) (H : ℕ) (sine : Bool) (z : List ℝ)
    (hz : z.length = (mlFitMatrix (mlScaled N cols) f H [] sine).1.length) :
    ∑ n ∈ range N, (matVec (mlFitMatrix (mlScaled N cols) f H [] sine).1 (unitySolve solve N cols f H sine) n
      - (mlFitMatrix (mlScaled N cols) f H [] sine).2 n) * matVec (mlFitMatrix (mlScaled N cols) f H [] sine).1 z n = 0 := by
  have := lstsq_orthogonal solve hs N _ (mlFitMatrix (mlScaled N cols) f H [] sine).2 z hz
  rw [← neg_eq_zero, ← sum_neg_distrib] at this
  rw [← this]
  apply sum_congr rfl
  intro n _
  unfold unitySolve
  ring

/-- The figure MATLAB computes for the cosine fit: it is taken against the sine target, so it is the distance of the two targets less the residual. -/
theorem wrong_target (solve : Lstsq) (hs : IsLstsq solve) (N : ℕ) (cols : List (ℕ → ℝ)) (f : ℝ) (H : ℕ) (hH : 0 < H) :
    ∑ n ∈ range N, (matVec (mlFitMatrix (mlScaled N cols) f H [] false).1 (unitySolve solve N cols f H false) n
      - (mlFitMatrix (mlScaled N cols) f H [] true).2 n) ^ 2
      = ∑ n ∈ range N, (mlXs f 0 n - mlXc f 0 n) ^ 2 - unityGap solve N cols f H false := by
  set A := (mlFitMatrix (mlScaled N cols) f H [] false).1 with hA
  have hAl : A.length = cols.length + 2 * H := tail_length cols N f H hH false
  set x := unitySolve solve N cols f H false with hx
  have hb1 : (mlFitMatrix (mlScaled N cols) f H [] false).2 = fun n => -mlXc f 0 n := by rw [mlFitMatrix_eq]; simp
  have hb2 : (mlFitMatrix (mlScaled N cols) f H [] true).2 = fun n => -mlXs f 0 n := by rw [mlFitMatrix_eq]; simp
  set z : List ℝ := (List.range A.length).map fun (j : ℕ) => if j = cols.length + H then (1 : ℝ) else 0 with hz
  have hzg : ∀ j < cols.length + 2 * H, z.getD j 0 = if j = cols.length + H then (1 : ℝ) else 0 := by
    intro j hj
    rw [hz, getD_range_map _ _ _ _ (by omega)]
  have hzm : ∀ n, matVec A z n = mlXs f 0 n := by
    intro n
    have := fit_expand N cols f H hH [] false z n
    rw [← hA, hb1] at this
    simp only [Bool.false_eq_true, if_false] at this
    have e1 : matVec cols ((List.range cols.length).map fun (j : ℕ) => z.getD j 0 * (10 : ℝ) ^ (-mlMag N (cols.getD j 0))) n = 0 := by
      unfold matVec
      apply sum_eq_zero
      intro j hj
      have hj' := mem_range.mp hj
      rw [getD_range_map _ _ _ _ hj', hzg j (by omega), if_neg (by omega), zero_mul, zero_mul]
    have e2 : matVec [] (z.drop (cols.length + 2 * H)) n = 0 := by unfold matVec; simp
    have e3 : harmonicSeries f H (z.getD cols.length 0) (fun h => if h = 0 then 1 else z.getD (cols.length + h) 0) (fun h => z.getD (cols.length + H + h) 0) n
        = mlXc f 0 n + mlXs f 0 n := by
      unfold harmonicSeries
      rw [hzg _ (by omega), if_neg (by omega), zero_add, show H = H - 1 + 1 by omega, sum_range_succ', xc_eq, xs_eq]
      rw [sum_eq_zero (fun h hh => by
        have hh' := mem_range.mp hh
        beta_reduce
        rw [if_neg (by omega), hzg _ (by omega), if_neg (by omega), hzg _ (by omega), if_neg (by omega)]
        ring)]
      beta_reduce
      rw [if_pos rfl, hzg _ (by omega), if_pos (by omega)]
      ring
    rw [e1, e2, e3] at this
    linarith
  have h1 := unity_orth solve hs N cols f H false z (by rw [hz]; simp [hA])
  have h2 := unity_orth solve hs N cols f H false x (by rw [hx]; unfold unitySolve; exact hs.len _ _ _)
  rw [← hA, ← hx, hb1] at h1 h2
  unfold unityGap
  rw [← hA, ← hx, hb1, hb2]
  simp only [hzm] at h1
  rw [← sub_eq_zero]
  have : ∑ n ∈ range N, (matVec A x n - -mlXs f 0 n) ^ 2 - (∑ n ∈ range N, (mlXs f 0 n - mlXc f 0 n) ^ 2 - ∑ n ∈ range N, (matVec A x n - -mlXc f 0 n) ^ 2)
      = 2 * ∑ n ∈ range N, (matVec A x n - -mlXc f 0 n) * mlXs f 0 n + 2 * ∑ n ∈ range N, (matVec A x n - -mlXc f 0 n) * matVec A x n := by
    rw [mul_sum, mul_sum, ← sum_sub_distrib, ← sum_sub_distrib, ← sum_add_distrib]
    apply sum_congr rfl
    intro n _
    ring
  rw [this, h1, h2]
  ring

theorem first_choice (solve : Lstsq) (hs : IsLstsq solve) (N : ℕ) (hN : 0 < N) (cols : List (ℕ → ℝ)) (f : ℝ) (H : ℕ) (hH : 0 < H) :
    mlFitOpen solve N (mlScaled N cols) f H
      = if ∑ n ∈ range N, (mlXs f 0 n - mlXc f 0 n) ^ 2 < unityGap solve N cols f H false + unityGap solve N cols f H true
        then (unitySolve solve N cols f H false, false) else (unitySolve solve N cols f H true, true) := by
  have hw := wrong_target solve hs N cols f H hH
  have hiff : mlFitRms N ((mlFitMatrix (mlScaled N cols) f H [] false).1, (mlFitMatrix (mlScaled N cols) f H [] true).2) (unitySolve solve N cols f H false)
      < mlFitRms N (mlFitMatrix (mlScaled N cols) f H [] true) (unitySolve solve N cols f H true)
      ↔ ∑ n ∈ range N, (mlXs f 0 n - mlXc f 0 n) ^ 2 < unityGap solve N cols f H false + unityGap solve N cols f H true := by
    rw [rms_lt_iff N hN]
    unfold residNorm
    rw [Real.sqrt_lt_sqrt_iff (sum_nonneg fun (n : ℕ) (_ : n ∈ range N) => sq_nonneg (_ : ℝ)), hw]
    change _ < unityGap solve N cols f H true ↔ _
    constructor <;> intro h <;> linarith
  unfold mlFitOpen
  simp only
  exact if_congr hiff rfl rfl

/-- An exact sine fit is taken. -/
theorem open_exact (solve : Lstsq) (N : ℕ) (hN : 0 < N) (cols : List (ℕ → ℝ)) (f : ℝ) (H : ℕ) (h : unityGap solve N cols f H true = 0) :
    mlFitOpen solve N (mlScaled N cols) f H = mlFitBoth solve N (mlScaled N cols) f H [] := by
  rw [both_choice solve N hN, if_neg (by rw [h]; exact not_lt.mpr (unityGap_nonneg _ _ _ _ _ _))]
  unfold mlFitOpen
  simp only
  rw [if_neg]
  · rfl
  · rw [rms_lt_iff N hN]
    unfold residNorm
    change ¬ _ < Real.sqrt (unityGap solve N cols f H true)
    rw [h, Real.sqrt_zero]
    exact not_lt.mpr (Real.sqrt_nonneg _)

/-- The residual is at most that of any fit with reference coefficient one. -/
theorem unityGap_le (solve : Lstsq) (hs : IsLstsq solve) (N : ℕ) (cols : List (ℕ → ℝ)) (f : ℝ) (H : ℕ) (hH : 0 < H) (sine : Bool)
    (u : List ℝ) (d : ℝ) (p q : ℕ → ℝ) (h1 : (if sine then q 0 else p 0) = 1) :
    unityGap solve N cols f H sine ≤ toneGap N cols f H u d p q := by
  have hopt := lstsq_min solve hs N (mlFitMatrix (mlScaled N cols) f H [] sine).1 (mlFitMatrix (mlScaled N cols) f H [] sine).2
    (exactFit N cols H u d p q sine)
  have : ∑ n ∈ range N, ((mlFitMatrix (mlScaled N cols) f H [] sine).2 n - matVec (mlFitMatrix (mlScaled N cols) f H [] sine).1 (exactFit N cols H u d p q sine) n) ^ 2
      = toneGap N cols f H u d p q := by
    apply sum_congr rfl
    intro n _
    have := fit_gap N cols f H hH u d p q sine (by rw [h1]; exact one_ne_zero) n
    rw [h1, div_one] at this
    rw [← neg_sq, neg_sub, this]
    ring
  rw [← this]
  refine le_trans (le_of_eq ?_) hopt
  unfold unityGap unitySolve
  apply sum_congr rfl
  intro n _
  ring

/-- The residual is that of some fit with reference coefficient one. -/
theorem unityGap_attained (solve : Lstsq) (N : ℕ) (cols : List (ℕ → ℝ)) (f : ℝ) (H : ℕ) (hH : 0 < H) (sine : Bool) :
    ∃ (u : List ℝ) (d : ℝ) (p q : ℕ → ℝ), u.length = cols.length ∧ (if sine then q 0 else p 0) = 1 ∧
      unityGap solve N cols f H sine = toneGap N cols f H u d p q := by
  set x := unitySolve solve N cols f H sine with hx
  set v := (List.range cols.length).map fun (j : ℕ) => x.getD j 0 * (10 : ℝ) ^ (-mlMag N (cols.getD j 0)) with hv
  refine ⟨v.map fun y => -1 * y, x.getD cols.length 0,
    fun h => if sine then x.getD (cols.length + H + h) 0 else if h = 0 then 1 else x.getD (cols.length + h) 0,
    fun h => if sine then (if h = 0 then 1 else x.getD (cols.length + h) 0) else x.getD (cols.length + H + h) 0, by simp [hv], by cases sine <;> simp, ?_⟩
  unfold unityGap toneGap
  apply sum_congr rfl
  intro n _
  rw [← hx, fit_expand N cols f H hH [] sine x n, ← hv, matVec_smul]
  have : matVec [] (x.drop (cols.length + 2 * H)) n = 0 := by unfold matVec; simp
  rw [this]
  cases sine
  · simp only [Bool.false_eq_true, if_false]
    ring
  · simp only [if_true]
    ring

/-- Noise-free data with a sine part: the sine fit is exact. -/
theorem gap_clean (solve : Lstsq) (hs : IsLstsq solve) (N : ℕ) (cols : List (ℕ → ℝ)) (f : ℝ) (H : ℕ) (hH : 0 < H) (w : List ℝ) (c : ℝ) (a b : ℕ → ℝ)
    (hb : b 0 ≠ 0) (hclean : ∀ n < N, matVec cols w n = harmonicSeries f H c a b n) : unityGap solve N cols f H true = 0 := by
  apply le_antisymm _ (unityGap_nonneg _ _ _ _ _ _)
  refine le_trans (unityGap_le solve hs N cols f H hH true (w.map fun y => 1 / b 0 * y) (1 / b 0 * c) (fun h => 1 / b 0 * a h) (fun h => 1 / b 0 * b h)
    (by simp [hb])) (le_of_eq ?_)
  unfold toneGap
  apply sum_eq_zero
  intro n hn
  have hlin : harmonicSeries f H (1 / b 0 * c) (fun h => 1 / b 0 * a h) (fun h => 1 / b 0 * b h) n = 1 / b 0 * harmonicSeries f H c a b n := by
    unfold harmonicSeries
    rw [mul_add, mul_sum]
    congr 1
    apply sum_congr rfl
    intro h _
    ring
  rw [matVec_smul, hlin, hclean n (mem_range.mp hn)]
  ring

/-- When the products of cosine and sine do not sum to a positive value, the two residuals never exceed the distance of the targets. -/
theorem gaps_small (solve : Lstsq) (hs : IsLstsq solve) (N : ℕ) (cols : List (ℕ → ℝ)) (f : ℝ) (H : ℕ) (hH : 0 < H)
    (hcs : ∑ n ∈ range N, Real.cos (2 * Real.pi * f * n) * Real.sin (2 * Real.pi * f * n) ≤ 0) :
    unityGap solve N cols f H false + unityGap solve N cols f H true ≤ ∑ n ∈ range N, (mlXs f 0 n - mlXc f 0 n) ^ 2 := by
  have h0 : ∀ n, matVec cols [] n = 0 := by
    intro n
    unfold matVec
    simp
  have g1 := unityGap_le solve hs N cols f H hH false [] 0 (fun h => if h = 0 then 1 else 0) (fun _ => 0) (by simp)
  have g2 := unityGap_le solve hs N cols f H hH true [] 0 (fun _ => 0) (fun h => if h = 0 then 1 else 0) (by simp)
  have s1 : ∀ n, harmonicSeries f H 0 (fun h => if h = 0 then 1 else 0) (fun _ => 0) n = mlXc f 0 n := by
    intro n
    unfold harmonicSeries
    rw [xc_eq, show H = H - 1 + 1 by omega, sum_range_succ']
    simp
  have s2 : ∀ n, harmonicSeries f H 0 (fun _ => 0) (fun h => if h = 0 then 1 else 0) n = mlXs f 0 n := by
    intro n
    unfold harmonicSeries
    rw [xs_eq, show H = H - 1 + 1 by omega, sum_range_succ']
    simp
  unfold toneGap at g1 g2
  simp only [h0, s1, s2, zero_sub, neg_sq] at g1 g2
  have e : ∑ n ∈ range N, (mlXs f 0 n - mlXc f 0 n) ^ 2 = ∑ n ∈ range N, mlXc f 0 n ^ 2 + ∑ n ∈ range N, mlXs f 0 n ^ 2
      - 2 * ∑ n ∈ range N, Real.cos (2 * Real.pi * f * n) * Real.sin (2 * Real.pi * f * n) := by
    rw [mul_sum, ← sum_add_distrib, ← sum_sub_distrib]
    apply sum_congr rfl
    intro n _
    rw [xc_eq, xs_eq]
    simp only [Nat.cast_zero, zero_add, mul_one]
    ring
  linarith

/-- Then MATLAB always takes the sine, whatever the data. -/
theorem first_sine (solve : Lstsq) (hs : IsLstsq solve) (N : ℕ) (hN : 0 < N) (cols : List (ℕ → ℝ)) (f : ℝ) (H : ℕ) (hH : 0 < H)
    (hcs : ∑ n ∈ range N, Real.cos (2 * Real.pi * f * n) * Real.sin (2 * Real.pi * f * n) ≤ 0) :
    mlFitOpen solve N (mlScaled N cols) f H = (unitySolve solve N cols f H true, true) := by
  rw [first_choice solve hs N hN cols f H hH, if_neg (not_lt.mpr (gaps_small solve hs N cols f H hH hcs))]

/-- The choices agree when the sine fit is no worse than the cosine fit. -/
theorem first_both (solve : Lstsq) (hs : IsLstsq solve) (N : ℕ) (hN : 0 < N) (cols : List (ℕ → ℝ)) (f : ℝ) (H : ℕ) (hH : 0 < H)
    (hcs : ∑ n ∈ range N, Real.cos (2 * Real.pi * f * n) * Real.sin (2 * Real.pi * f * n) ≤ 0)
    (hsine : ∃ (u : List ℝ) (d : ℝ) (p q : ℕ → ℝ), q 0 = 1 ∧ ∀ (u' : List ℝ) (d' : ℝ) (p' q' : ℕ → ℝ), u'.length = cols.length → p' 0 = 1 →
      toneGap N cols f H u d p q ≤ toneGap N cols f H u' d' p' q') :
    mlFitOpen solve N (mlScaled N cols) f H = mlFitBoth solve N (mlScaled N cols) f H [] := by
  obtain ⟨u, d, p, q, hq, hle⟩ := hsine
  obtain ⟨u', d', p', q', hl, hp, he⟩ := unityGap_attained solve N cols f H hH false
  have h1 := unityGap_le solve hs N cols f H hH true u d p q (by simpa using hq)
  have h2 := hle u' d' p' q' hl (by simpa using hp)
  rw [first_sine solve hs N hN cols f H hH hcs, both_choice solve N hN, if_neg (by rw [he]; exact not_lt.mpr (le_trans h1 h2))]

/-! ## The returned values -/

/-- The two sets of results agree. -/
structure SameCal (m : MlCal) (r : CalResult) : Prop where
  weight : m.weight = r.weight
  offset : m.offset = r.offset
  signal : [m.postcal] = r.signal
  ideal : [m.ideal] = r.ideal
  resid : [m.err] = r.resid
  freq : [m.freqcal] = r.freq

theorem result_same (N : ℕ) (bits : List (ℕ → ℝ)) (P : Patched) (f : ℝ) (H : ℕ) (hH : 0 < H) (x xm w : List ℝ) (sel : Bool)
    (hxl : x.length = P.eff.length + 2 * H)
    (h1 : ∀ j < P.eff.length, x.getD j 0 * (10 : ℝ) ^ (-colScale N (P.eff.getD j 0)) = xm.getD j 0 * (10 : ℝ) ^ (-mlMag N (P.eff.getD j 0)))
    (h2 : ∀ i < 2 * H, x.getD (P.eff.length + i) 0 = xm.getD (P.eff.length + i) 0)
    (hrec : recoverRank (recoverScale x P.eff.length (Real.sqrt (1 + x.getD (P.eff.length + 1 * H) 0 ^ 2)) (P.eff.map (colScale N))) P.links = .ok w)
    (hneg : ∀ l ∈ P.links, l.1 < 0 → l.2 = 0) :
    SameCal (mlCalResult N bits P f H xm sel)
      (postProcess [N] [f] bits w P.eff.length H x (if sel then 1 else 0) (Real.sqrt (1 + x.getD (P.eff.length + 1 * H) 0 ^ 2))) := by
  rw [one_mul] at hrec ⊢
  have hw0 : Real.sqrt (1 + xm.getD (P.eff.length + H) 0 ^ 2) = Real.sqrt (1 + x.getD (P.eff.length + H) 0 ^ 2) := by rw [h2 H (by omega)]
  set M := P.eff.length with hM
  set ν := Real.sqrt (1 + x.getD (M + H) 0 ^ 2) with hν
  have hwp : (List.range M).map (fun (j : ℕ) => xm.getD j 0 / ν * (10 : ℝ) ^ (-mlMag N (P.eff.getD j 0)))
      = recoverScale x M ν (P.eff.map (colScale N)) := by
    unfold recoverScale
    apply List.map_congr_left
    intro j hj
    have hj' := List.mem_range.mp hj
    rw [getD_map_cols _ _ _ _ (by omega)]
    have := h1 j hj'
    rw [div_mul_eq_mul_div, div_mul_eq_mul_div, this]
  have hw : (P.links.map fun l => (recoverScale x M ν (P.eff.map (colScale N))).getD (max l.1 0).toNat 0 * l.2) = w := by
    unfold recoverRank at hrec
    split_ifs at hrec
    injection hrec with hrec
    rw [← hrec]
    apply List.map_congr_left
    intro l hl
    split_ifs with hl0
    · rw [hneg l hl hl0, mul_zero]
    · rw [max_eq_left (by omega)]
  have hx0 : x.getD M 0 = xm.getD M 0 := by have := h2 0 (by omega); simpa using this
  -- the harmonic part
  have hsplit := list_split x (M + 1) (H - 1) H (by omega)
  have hid : ∀ n < N, reconstructSine [N] [f] M H x (if sel then 1 else 0) ν 0 n
      = if sel then -(mlXs f 0 n + ∑ h ∈ range (H - 1), mlXs f (h + 1) n * xm.getD (M + 1 + h) 0 + ∑ h ∈ range H, mlXc f h n * xm.getD (M + H + h) 0) / ν
        else -(mlXc f 0 n + ∑ h ∈ range (H - 1), mlXc f (h + 1) n * xm.getD (M + 1 + h) 0 + ∑ h ∈ range H, mlXs f h n * xm.getD (M + H + h) 0) / ν := by
    intro n hn
    set z := x.take (M + 1) with hz
    set ut := slice x (M + 1) (M + 1 + (H - 1)) with hut
    set o := slice x (M + 1 + (H - 1)) (M + 1 + (H - 1) + H) with ho
    have hzl : z.length = M + 1 := by rw [hz, List.length_take]; omega
    have hutl : ut.length = H - 1 := by rw [hut, slice_length]; omega
    have hol : o.length = H := by rw [ho, slice_length]; omega
    have hx1 : x = (z ++ ut ++ o).map (fun v => 1 * v) := by
      rw [← hsplit]; simp
    have hrecon : reconstructSine [N] [f] M H x (if sel then 1 else 0) ν 0 n
        = -(1 * (if (if sel then 1 else 0) = 0 then matVec (cosCols [N] [f] H) (1 :: ut) n + matVec (sinCols [N] [f] H) o n
          else matVec (cosCols [N] [f] H) o n + matVec (sinCols [N] [f] H) (1 :: ut) n)) / ν := by
      conv_lhs => rw [hx1]
      exact reconstruct_one N f M H hH z ut o 1 1 ν (if sel then 1 else 0) n hzl (by omega) hol (by norm_num)
    have hutg : ∀ h < H - 1, ut.getD h 0 = xm.getD (M + 1 + h) 0 := by
      intro h hh
      rw [hut, slice_getD _ _ _ _ (by rw [← hut]; omega), add_assoc, h2 (1 + h) (by omega), ← add_assoc]
    have hog : ∀ h < H, o.getD h 0 = xm.getD (M + H + h) 0 := by
      intro h hh
      rw [ho, slice_getD _ _ _ _ (by rw [← ho]; omega), show M + 1 + (H - 1) + h = M + (H + h) by omega, h2 (H + h) (by omega), ← add_assoc]
    have hc : ∀ h, cosOne N f h n = mlXc f h n := by
      intro h; rw [xc_eq]; unfold cosOne; rw [if_pos hn]
    have hsn : ∀ h, sinOne N f h n = mlXs f h n := by
      intro h; rw [xs_eq]; unfold sinOne; rw [if_pos hn]
    have ec1 : matVec (cosCols [N] [f] H) (1 :: ut) n = mlXc f 0 n + ∑ h ∈ range (H - 1), mlXc f (h + 1) n * xm.getD (M + 1 + h) 0 := by
      rw [cosCols_cons N f H hH, matVec_cons, matVec_range, one_mul, hc]
      congr 1
      apply sum_congr rfl
      intro h hh
      rw [hutg h (mem_range.mp hh), hc, mul_comm]
    have es1 : matVec (sinCols [N] [f] H) (1 :: ut) n = mlXs f 0 n + ∑ h ∈ range (H - 1), mlXs f (h + 1) n * xm.getD (M + 1 + h) 0 := by
      rw [sinCols_cons N f H hH, matVec_cons, matVec_range, one_mul, hsn]
      congr 1
      apply sum_congr rfl
      intro h hh
      rw [hutg h (mem_range.mp hh), hsn, mul_comm]
    have ec2 : matVec (cosCols [N] [f] H) o n = ∑ h ∈ range H, mlXc f h n * xm.getD (M + H + h) 0 := by
      rw [cosCols_all, matVec_range]
      apply sum_congr rfl
      intro h hh
      rw [hog h (mem_range.mp hh), hc, mul_comm]
    have es2 : matVec (sinCols [N] [f] H) o n = ∑ h ∈ range H, mlXs f h n * xm.getD (M + H + h) 0 := by
      rw [sinCols_all, matVec_range]
      apply sum_congr rfl
      intro h hh
      rw [hog h (mem_range.mp hh), hsn, mul_comm]
    rw [hrecon, ec1, ec2, es1, es2]
    cases sel
    · simp
    · simp
      ring
  unfold mlCalResult postProcess
  simp only [← hM, hw0, hwp, hw]
  refine ⟨rfl, ?_, ?_, ?_, ?_, rfl⟩
  · rw [hx0]
  · simp [segStart, Function.comp_def]
  · simp only [List.length_singleton, List.range_one, List.map_cons, List.map_nil, List.getD_cons_zero, List.map_map]
    congr 1
    apply List.map_congr_left
    intro n hn
    simp only [Function.comp]
    rw [show segStart [N] 0 + n = n by simp [segStart], hid n (List.mem_range.mp hn)]
  · simp only [List.length_singleton, List.range_one, List.map_cons, List.map_nil, List.getD_cons_zero, List.map_map]
    congr 1
    apply List.map_congr_left
    intro n hn
    simp only [Function.comp]
    rw [show segStart [N] 0 + n = n by simp [segStart], hid n (List.mem_range.mp hn), hx0]

theorem cal_known_open (solve : Lstsq) (est : List ℝ) (segs : List (List (List ℝ)))
    (f : ℝ) (hf0 : f ≠ 0) (hf : f ≤ 1 / 2) (force : Option Bool) (hforce : force ≠ some true) (given : Option (List ℝ)) (H : ℕ) (lr reltol : ℝ)
    (maxIter : ℕ) (rows : List (List ℝ)) (width : ℕ) (nominal : List ℝ) (hprep : prepareInput segs given = .ok ([rows], width, nominal))
    (bits : List (ℕ → ℝ)) (hbits : bits = (List.range width).map fun (j : ℕ) => fun (n : ℕ) => (rows.getD n []).getD j 0)
    (P : Patched) (hP : P = patchRank rows.length bits nominal) (x : List ℝ) (ch : ℕ)
    (hk : solveKnown solve [rows.length] (scaleCols rows.length P.eff) [f] H = .ok (x, ch)) (w : List ℝ)
    (hrec : recoverRank (recoverScale x P.eff.length (Real.sqrt (1 + x.getD (P.eff.length + 1 * H) 0 ^ 2)) (P.eff.map (colScale rows.length))) P.links = .ok w) :
    calibrate solve est segs (.scalar f) force given H lr reltol maxIter
      = .ok (postProcess [rows.length] [f] bits w P.eff.length H x ch (Real.sqrt (1 + x.getD (P.eff.length + 1 * H) 0 ^ 2))) := by
  unfold calibrate
  rw [if_neg (by
    rintro ⟨f', hf', h⟩
    simp only [FreqArg.values, List.mem_singleton] at hf'
    rw [hf'] at h
    exact absurd h (not_lt.mpr hf)), hprep]
  simp only [List.map_cons, List.map_nil, List.flatten_cons, List.flatten_nil, List.append_nil, List.sum_cons, List.sum_nil, add_zero,
    List.length_singleton]
  rw [← hbits, ← hP]
  simp only [estimateFrequencies, if_neg hf0, FreqArg.values, List.replicate_one]
  have hsearch : searchWanted force [f] [f] = false := by
    unfold searchWanted
    rw [Bool.or_eq_false_iff]
    refine ⟨?_, decide_eq_false (by
      rintro ⟨y, hy, h0⟩
      rw [List.mem_singleton] at hy
      exact hf0 (hy ▸ h0))⟩
    cases force with
    | none => exact decide_eq_false (by simp [hf0])
    | some v => cases v with
      | false => rfl
      | true => exact absurd rfl hforce
  simp only [hsearch, Bool.false_eq_true, if_false, hk, hrec]

/-- One accepted dataset: what the preparation returns. -/
theorem prep_single (seg : List (List ℝ)) (given : Option (List ℝ)) (rows : List (List ℝ)) (width : ℕ) (nominal : List ℝ)
    (h : prepareInput [seg] given = .ok ([rows], width, nominal)) :
    rows = orientSegment seg ∧ width = (rows.headD []).length ∧ nominal = mlNominal width given ∧ 0 < rows.length ∧ 0 < width := by
  unfold prepareInput at h
  rw [if_neg (by simp)] at h
  unfold stackSegments at h
  split_ifs at h with he
  · simp only [stackSegments] at h
    push Not at he
    cases hn : nominalWeights (orientSegment seg |>.headD []).length given with
    | error e => rw [show (some ((orientSegment seg).headD []).length).getD 0 = ((orientSegment seg).headD []).length from rfl, hn] at h; cases h
    | ok nom =>
      rw [show (some ((orientSegment seg).headD []).length).getD 0 = ((orientSegment seg).headD []).length from rfl, hn] at h
      injection h with h
      rw [Prod.mk.injEq, Prod.mk.injEq] at h
      obtain ⟨h1, h2, h3⟩ := h
      have hr : orientSegment seg = rows := by simpa using h1
      have hpos : 0 < rows.length ∧ 0 < (rows.headD []).length := by
        rw [← hr]
        unfold orientSegment
        obtain ⟨r0, rest, rfl⟩ := List.exists_cons_of_ne_nil he.1
        have hr0 : 0 < r0.length := List.length_pos_of_ne_nil (by simpa using he.2)
        split_ifs with hlt
        · simp only [List.headD_cons] at hlt ⊢
          obtain ⟨m, hm⟩ : ∃ m, r0.length = m + 1 := ⟨r0.length - 1, by omega⟩
          rw [hm, List.range_succ_eq_map]
          simp
        · simp
          exact hr0
      refine ⟨hr.symm, by rw [← hr, h2], ?_, hpos.1, by rw [← h2, hr]; exact hpos.2⟩
      rw [← h3, ← h2]
      unfold nominalWeights at hn
      unfold mlNominal
      cases given with
      | none => injection hn with hn; exact hn.symm
      | some w =>
        simp only at hn
        split_ifs at hn
        injection hn with hn
        exact hn.symm

/-- Bits with no column of their own have weight zero. -/
theorem links_neg (N : ℕ) (bits : List (ℕ → ℝ)) (nominal : List ℝ) : ∀ l ∈ (patchRank N bits nominal).links, l.1 < 0 → l.2 = 0 := by
  unfold patchRank
  split_ifs with h
  · intro l hl hneg
    obtain ⟨i, _, rfl⟩ := List.mem_map.mp hl
    simp only at hneg
    omega
  · have key : ∀ (ks : List ℕ) (s : Patched), (∀ l ∈ s.links, l.1 < 0 → l.2 = 0) →
        ∀ l ∈ (ks.foldl (patchStep N bits nominal) s).links, l.1 < 0 → l.2 = 0 := by
      intro ks
      induction ks with
      | nil => intro s hs; exact hs
      | cons k ks ih =>
        intro s hs
        rw [List.foldl_cons]
        apply ih
        intro l hl hneg
        unfold patchStep at hl
        simp only at hl
        split_ifs at hl with hA hB
        · rcases List.mem_append.mp hl with hl | hl
          · exact hs l hl hneg
          · rw [List.mem_singleton.mp hl]
        · rcases List.mem_append.mp hl with hl | hl
          · exact hs l hl hneg
          · rw [List.mem_singleton.mp hl] at hneg
            simp only at hneg
            omega
        · cases hmt : mergeTarget N (bits.getD k 0) s.eff s.founders.length with
          | none =>
            rw [hmt] at hl
            rcases List.mem_append.mp hl with hl | hl
            · exact hs l hl hneg
            · rw [List.mem_singleton.mp hl]
          | some j =>
            rw [hmt] at hl
            rcases List.mem_append.mp hl with hl | hl
            · exact hs l hl hneg
            · rw [List.mem_singleton.mp hl] at hneg
              simp only at hneg
              omega
    exact key _ _ (by simp)

/-- `calibrate_weight_sine` on one dataset returns what MATLAB's formulas give for the better of the two fits, when that fit is determined. -/
theorem cal_both (solve : Lstsq) (hs : IsLstsq solve) (est : List ℝ) (seg : List (List ℝ)) (f : ℝ) (hf0 : 0 < f) (hf : f ≤ 1 / 2)
    (force : Option Bool) (hforce : force ≠ some true) (given : Option (List ℝ)) (H : ℕ) (hH : 0 < H) (lr reltol : ℝ) (maxIter : ℕ)
    (rows : List (List ℝ)) (width : ℕ) (nominal : List ℝ) (hprep : prepareInput [seg] given = .ok ([rows], width, nominal))
    (bits : List (ℕ → ℝ)) (hbits : bits = (List.range width).map fun (j : ℕ) => fun (n : ℕ) => (rows.getD n []).getD j 0)
    (P : Patched) (hP : P = patchRank rows.length bits nominal) (hne : P.eff ≠ [])
    (hd : FitDetermined rows.length P.eff f H (mlFitBoth solve rows.length (mlScaled rows.length P.eff) f H []).2) :
    ∃ r, calibrate solve est [seg] (.scalar f) force given H lr reltol maxIter = .ok r ∧
      SameCal (mlCalResult rows.length bits P f H (mlFitBoth solve rows.length (mlScaled rows.length P.eff) f H []).1
        (mlFitBoth solve rows.length (mlScaled rows.length P.eff) f H []).2) r := by
  obtain ⟨p1, p2, p3, p4, p5⟩ := prep_single seg given rows width nominal hprep
  obtain ⟨x, k1, k2, k3⟩ := known_same solve hs rows.length p4 P.eff f H hH
  obtain ⟨k4, k5⟩ := k3 hd
  obtain ⟨w, hw⟩ := (C38_recover_succeeds rows.length bits nominal
    (recoverScale x P.eff.length (Real.sqrt (1 + x.getD (P.eff.length + 1 * H) 0 ^ 2)) (P.eff.map (colScale rows.length)))
    (by rw [← hP]; simp [recoverScale])).mpr (Or.inr (by rw [← hP]; exact hne))
  rw [← hP] at hw
  exact ⟨_, cal_known_open solve est [seg] f hf0.ne' hf force hforce given H lr reltol maxIter rows width nominal hprep bits hbits P hP x _ k1 w hw,
    result_same rows.length bits P f H hH x _ w _ k2 k4 k5 hw (by rw [hP]; exact links_neg _ _ _)⟩

/-- `wcalsin` on one dataset at a known frequency without search. -/
theorem ml_open (solve : Lstsq) (seg : List (List ℝ)) (f : ℝ) (hf0 : 0 < f) (given : Option (List ℝ)) (H : ℕ) (hH : 0 < H)
    (rate tol : ℝ) (hr0 : 0 < rate) (hr1 : rate < 1) (htol : 0 < tol) (niter : ℕ) (hni : 0 < niter)
    (rows : List (List ℝ)) (width : ℕ) (nominal : List ℝ) (hprep : prepareInput [seg] given = .ok ([rows], width, nominal))
    (bits : List (ℕ → ℝ)) (hbits : bits = (List.range width).map fun (j : ℕ) => fun (n : ℕ) => (rows.getD n []).getD j 0)
    (P : Patched) (hml : mlPatch rows.length bits nominal = some P) :
    mlWcalsin solve seg f rate tol niter H false given
      = some (mlCalResult rows.length bits P f H (mlFitOpen solve rows.length (mlScaled rows.length P.eff) f H).1
        (mlFitOpen solve rows.length (mlScaled rows.length P.eff) f H).2) := by
  obtain ⟨p1, p2, p3, p4, p5⟩ := prep_single seg given rows width nominal hprep
  unfold mlWcalsin
  rw [if_neg (by push Not; exact ⟨hf0.le, hr0, hr1, htol, by omega, by omega⟩)]
  simp only
  rw [← p1, ← p2, ← p3, ← hbits, hml]
  simp only
  rw [if_neg hf0.ne']
  simp only
  rw [if_neg (by simp [hf0.ne'])]

/-- Both programs on one dataset once the patched columns and the choices agree and the chosen fit is determined. -/
theorem cal_same (solve : Lstsq) (hs : IsLstsq solve) (est : List ℝ) (seg : List (List ℝ)) (f : ℝ) (hf0 : 0 < f) (hf : f ≤ 1 / 2)
    (force : Option Bool) (hforce : force ≠ some true) (given : Option (List ℝ)) (H : ℕ) (hH : 0 < H) (lr reltol : ℝ) (maxIter : ℕ)
    (rate tol : ℝ) (hr0 : 0 < rate) (hr1 : rate < 1) (htol : 0 < tol) (niter : ℕ) (hni : 0 < niter)
    (rows : List (List ℝ)) (width : ℕ) (nominal : List ℝ) (hprep : prepareInput [seg] given = .ok ([rows], width, nominal))
    (bits : List (ℕ → ℝ)) (hbits : bits = (List.range width).map fun (j : ℕ) => fun (n : ℕ) => (rows.getD n []).getD j 0)
    (P : Patched) (hP : P = patchRank rows.length bits nominal) (hml : mlPatch rows.length bits nominal = some P) (hne : P.eff ≠ [])
    (hfirst : mlFitOpen solve rows.length (mlScaled rows.length P.eff) f H = mlFitBoth solve rows.length (mlScaled rows.length P.eff) f H [])
    (hd : FitDetermined rows.length P.eff f H (mlFitBoth solve rows.length (mlScaled rows.length P.eff) f H []).2) :
    ∃ r m, calibrate solve est [seg] (.scalar f) force given H lr reltol maxIter = .ok r ∧
      mlWcalsin solve seg f rate tol niter H false given = some m ∧ SameCal m r := by
  obtain ⟨r, h1, h2⟩ := cal_both solve hs est seg f hf0 hf force hforce given H hH lr reltol maxIter rows width nominal hprep bits hbits P hP hne hd
  rw [← hfirst] at h2
  exact ⟨r, _, h1, ml_open solve seg f hf0 given H hH rate tol hr0 hr1 htol niter hni rows width nominal hprep bits hbits P hml, h2⟩

theorem rank_of_determined (N : ℕ) (bits : List (ℕ → ℝ)) (f : ℝ) (H : ℕ) (sine : Bool) (hd : FitDetermined N bits f H sine) :
    bits.length + 1 ≤ rankOf N (bits ++ [fun _ => 1]) := by
  apply rank_full
  intro u d hu h
  obtain ⟨h1, h2, _⟩ := hd u d (fun _ => 0) (fun _ => 0) hu (by cases sine <;> simp) (by
    intro n hn
    rw [h n hn]
    unfold harmonicSeries
    simp)
  exact ⟨h1, h2⟩

theorem patch_same_full (N : ℕ) (bits : List (ℕ → ℝ)) (nominal : List ℝ) (hb : 0 < bits.length) (h : bits.length + 1 ≤ rankOf N (bits ++ [fun _ => 1])) :
    mlPatch N bits nominal = some (patchRank N bits nominal) ∧ (patchRank N bits nominal).eff = bits := by
  unfold mlPatch patchRank
  rw [if_neg (by omega), if_neg (by omega), if_pos h]
  exact ⟨rfl, rfl⟩

/-- **C133 (any data).** One dataset at a known frequency, noisy or not, without search. When no combination of bits, other than zero, is an offset plus harmonics
lacking the cosine or lacking the sine of the fundamental, `cos * sin` does not sum to a positive value over the record (it sums to zero over whole periods) and
the best fit with the sine normalised is no worse than the best fit with the cosine normalised, `calibrate_weight_sine` and `wcalsin` return the same weights,
offset, calibrated signal, ideal signal, error and frequency, although they scale the columns differently. The last condition is needed: `C133_cosine_phase`. -/
theorem C133_same (solve : Lstsq) (hs : IsLstsq solve) (est : List ℝ) (seg : List (List ℝ)) (f : ℝ) (hf0 : 0 < f) (hf : f ≤ 1 / 2)
    (force : Option Bool) (hforce : force ≠ some true) (given : Option (List ℝ)) (H : ℕ) (hH : 0 < H) (lr reltol : ℝ) (maxIter : ℕ)
    (rate tol : ℝ) (hr0 : 0 < rate) (hr1 : rate < 1) (htol : 0 < tol) (niter : ℕ) (hni : 0 < niter)
    (rows : List (List ℝ)) (width : ℕ) (nominal : List ℝ) (hprep : prepareInput [seg] given = .ok ([rows], width, nominal))
    (hind : ∀ (u : List ℝ) (d : ℝ) (p q : ℕ → ℝ), u.length = width → (p 0 = 0 ∨ q 0 = 0) →
      (∀ n < rows.length, ∑ j ∈ range width, u.getD j 0 * (rows.getD n []).getD j 0 = harmonicSeries f H d p q n) →
      (∀ j < width, u.getD j 0 = 0) ∧ d = 0 ∧ ∀ h < H, p h = 0 ∧ q h = 0)
    (hcs : ∑ n ∈ range rows.length, Real.cos (2 * Real.pi * f * n) * Real.sin (2 * Real.pi * f * n) ≤ 0)
    (hsine : ∃ (u : List ℝ) (d : ℝ) (p q : ℕ → ℝ), q 0 = 1 ∧ ∀ (u' : List ℝ) (d' : ℝ) (p' q' : ℕ → ℝ), u'.length = width → p' 0 = 1 →
      ∑ n ∈ range rows.length, (∑ j ∈ range width, u.getD j 0 * (rows.getD n []).getD j 0 - harmonicSeries f H d p q n) ^ 2
        ≤ ∑ n ∈ range rows.length, (∑ j ∈ range width, u'.getD j 0 * (rows.getD n []).getD j 0 - harmonicSeries f H d' p' q' n) ^ 2) :
    ∃ r m, calibrate solve est [seg] (.scalar f) force given H lr reltol maxIter = .ok r ∧
      mlWcalsin solve seg f rate tol niter H false given = some m ∧ SameCal m r := by
  set bits := (List.range width).map fun (j : ℕ) => fun (n : ℕ) => (rows.getD n []).getD j 0 with hbits
  have hbl : bits.length = width := by rw [hbits]; simp
  have hmv : ∀ (u : List ℝ) (n : ℕ), matVec bits u n = ∑ j ∈ range width, u.getD j 0 * (rows.getD n []).getD j 0 := fun u n => matVec_range _ _ _ _
  have hd : ∀ sine, FitDetermined rows.length bits f H sine := by
    intro sine u d p q hu h0 h
    rw [hbl] at hu ⊢
    exact hind u d p q hu (by cases sine <;> simp at h0 <;> tauto) (fun n hn => by rw [← hmv]; exact h n hn)
  obtain ⟨_, _, _, hN, hw⟩ := prep_single seg given rows width nominal hprep
  obtain ⟨hm, he⟩ := patch_same_full rows.length bits nominal (by omega) (rank_of_determined rows.length bits f H false (hd false))
  refine cal_same solve hs est seg f hf0 hf force hforce given H hH lr reltol maxIter rate tol hr0 hr1 htol niter hni rows width nominal hprep bits hbits
    _ rfl hm (by rw [he]; intro h; rw [h] at hbl; simp at hbl; omega) (by
      rw [he]
      obtain ⟨u, d, p, q, hq, hle⟩ := hsine
      refine first_both solve hs rows.length hN bits f H hH hcs ⟨u, d, p, q, hq, ?_⟩
      intro u' d' p' q' hu' hp'
      unfold toneGap
      simp only [hmv]
      exact hle u' d' p' q' (by omega) hp') (by rw [he]; exact hd _)

/-- **C133 (noise-free data).** A record that is exactly an offset plus harmonics for one set of weights, unique up to a factor, whose fundamental is not a pure
cosine: both programs return the same results. -/
theorem C133_same_clean (solve : Lstsq) (hs : IsLstsq solve) (est : List ℝ) (seg : List (List ℝ)) (f : ℝ) (hf0 : 0 < f) (hf : f ≤ 1 / 2)
    (force : Option Bool) (hforce : force ≠ some true) (given : Option (List ℝ)) (H : ℕ) (hH : 0 < H) (lr reltol : ℝ) (maxIter : ℕ)
    (rate tol : ℝ) (hr0 : 0 < rate) (hr1 : rate < 1) (htol : 0 < tol) (niter : ℕ) (hni : 0 < niter)
    (rows : List (List ℝ)) (width : ℕ) (nominal : List ℝ) (hprep : prepareInput [seg] given = .ok ([rows], width, nominal))
    (w : List ℝ) (hlen : w.length = width) (c : ℝ) (a b : ℕ → ℝ)
    (hclean : ∀ n < rows.length, ∑ j ∈ range width, w.getD j 0 * (rows.getD n []).getD j 0 = harmonicSeries f H c a b n) (hb0 : b 0 ≠ 0)
    (honly : OnlyFit rows.length ((List.range width).map fun (j : ℕ) => fun (n : ℕ) => (rows.getD n []).getD j 0) f H w c a b) :
    ∃ r m, calibrate solve est [seg] (.scalar f) force given H lr reltol maxIter = .ok r ∧
      mlWcalsin solve seg f rate tol niter H false given = some m ∧ SameCal m r := by
  have hne : a 0 ≠ 0 ∨ b 0 ≠ 0 := Or.inr hb0
  set bits := (List.range width).map fun (j : ℕ) => fun (n : ℕ) => (rows.getD n []).getD j 0 with hbits
  have hbl : bits.length = width := by rw [hbits]; simp
  have hmv : ∀ (u : List ℝ) (n : ℕ), matVec bits u n = ∑ j ∈ range width, u.getD j 0 * (rows.getD n []).getD j 0 := fun u n => matVec_range _ _ _ _
  obtain ⟨_, _, _, hN, hw⟩ := prep_single seg given rows width nominal hprep
  obtain ⟨hm, he⟩ := patch_same_full rows.length bits nominal (by omega) (rank_of_onlyFit rows.length bits f H hH w c a b hne honly)
  have hk := known_solution solve hs rows.length bits f H hH w (by omega) c a b hne (fun n hn => by rw [hmv]; exact hclean n hn) honly
  obtain ⟨x, k1, _, _⟩ := known_same solve hs rows.length hN bits f H hH
  rw [k1] at hk
  have hd : FitDetermined rows.length bits f H (mlFitBoth solve rows.length (mlScaled rows.length bits) f H []).2 := by
    intro u d p q hu h0 h
    obtain ⟨t, e1, e2, e3⟩ := honly u d p q hu h
    have ht : t = 0 := by
      obtain ⟨e4, e5⟩ := e3 0 hH
      generalize (mlFitBoth solve rows.length (mlScaled rows.length bits) f H []).2 = sel at hk h0
      by_cases hb : b 0 = 0
      · cases sel
        · simp only [Bool.false_eq_true, if_false] at h0
          rw [h0] at e4
          exact (mul_eq_zero.mp e4.symm).resolve_right (hne.resolve_right (by simp [hb]))
        · simp [hb] at hk
      · cases sel
        · simp [hb] at hk
        · simp only [if_true] at h0
          rw [h0] at e5
          exact (mul_eq_zero.mp e5.symm).resolve_right hb
    subst ht
    refine ⟨?_, by rw [e2, zero_mul], fun h hh => ?_⟩
    · intro j _
      rw [e1, getD_map_list, zero_mul]
    · obtain ⟨e4, e5⟩ := e3 h hh
      exact ⟨by rw [e4, zero_mul], by rw [e5, zero_mul]⟩
  refine cal_same solve hs est seg f hf0 hf force hforce given H hH lr reltol maxIter rate tol hr0 hr1 htol niter hni rows width nominal hprep bits hbits
    _ rfl hm (by rw [he]; intro h; rw [h] at hbl; simp at hbl; omega)
    (by rw [he]; exact open_exact solve rows.length hN bits f H (gap_clean solve hs rows.length bits f H hH w c a b hb0 (fun n hn => by rw [hmv]; exact hclean n hn)))
    (by rw [he]; exact hd)

/-! ## Cosine phase -/

/-- Sine and cosine on a whole number of periods. -/
theorem coherent_sums (N k : ℕ) (hk : 0 < k) (hkN : 2 * k < N) (f : ℝ) (hf : f = k / N) :
    (∑ n ∈ range N, mlXc f 0 n = 0) ∧ (∑ n ∈ range N, mlXs f 0 n = 0) ∧ (∑ n ∈ range N, mlXc f 0 n * mlXs f 0 n = 0) ∧
    (∑ n ∈ range N, mlXc f 0 n ^ 2 = N / 2) ∧ ∑ n ∈ range N, mlXs f 0 n ^ 2 = N / 2 := by
  have hN : N ≠ 0 := by omega
  have harg : ∀ n : ℕ, (n : ℝ) * f * (((0 : ℕ) : ℝ) + 1) * 2 * Real.pi = 2 * Real.pi * (((k : ℕ) : ℤ) * n / N) := by
    intro n
    rw [hf]
    push_cast
    ring
  have h1 := fun c => sum_cos_zero N hN ((k : ℕ) : ℤ) (not_dvd_bin hk (by omega)) c
  have h2 := fun c => sum_cos_zero N hN ((2 * k : ℕ) : ℤ) (not_dvd_bin (by omega) (by omega)) c
  have hdbl : ∀ n : ℕ, 2 * Real.pi * ((((2 * k : ℕ) : ℤ) : ℝ) * n / N) = 2 * (2 * Real.pi * (((k : ℕ) : ℤ) * n / N)) := by
    intro n
    push_cast
    ring
  refine ⟨?_, ?_, ?_, ?_, ?_⟩
  · rw [← h1 0]
    exact sum_congr rfl fun n _ => by unfold mlXc; rw [harg, add_zero]
  · rw [← h1 (-(Real.pi / 2))]
    exact sum_congr rfl fun n _ => by unfold mlXs; rw [harg, ← sub_eq_add_neg, Real.cos_sub_pi_div_two]
  · have := h2 (-(Real.pi / 2))
    have e : ∀ n ∈ range N, mlXc f 0 n * mlXs f 0 n = 1 / 2 * Real.cos (2 * Real.pi * ((((2 * k : ℕ) : ℤ) : ℝ) * n / N) + -(Real.pi / 2)) := by
      intro n _
      rw [← sub_eq_add_neg, Real.cos_sub_pi_div_two, hdbl, Real.sin_two_mul]
      unfold mlXc mlXs
      rw [harg]
      ring
    rw [sum_congr rfl e, ← mul_sum, this, mul_zero]
  · have := h2 0
    have e : ∀ n ∈ range N, mlXc f 0 n ^ 2 = 1 / 2 + 1 / 2 * Real.cos (2 * Real.pi * ((((2 * k : ℕ) : ℤ) : ℝ) * n / N) + 0) := by
      intro n _
      rw [add_zero, hdbl, Real.cos_two_mul]
      unfold mlXc
      rw [harg]
      ring
    rw [sum_congr rfl e, sum_add_distrib, ← mul_sum, this, mul_zero]
    simp
    ring
  · have := h2 0
    have e : ∀ n ∈ range N, mlXs f 0 n ^ 2 = 1 / 2 - 1 / 2 * Real.cos (2 * Real.pi * ((((2 * k : ℕ) : ℤ) : ℝ) * n / N) + 0) := by
      intro n _
      rw [add_zero, hdbl, Real.cos_two_mul, Real.cos_sq']
      unfold mlXs
      rw [harg]
      ring
    rw [sum_congr rfl e, sum_sub_distrib, ← mul_sum, this, mul_zero]
    simp
    ring

/-- An odd sequence over a period sums to zero. -/
theorem odd_sum (N : ℕ) (g : ℕ → ℝ) (h0 : g 0 = 0) (h : ∀ n, 0 < n → n < N → g (N - n) = -g n) : ∑ n ∈ range N, g n = 0 := by
  rcases N with _ | M
  · simp
  · rw [sum_range_succ', h0, add_zero]
    have e : ∑ n ∈ range M, g (n + 1) = ∑ n ∈ range M, -g (n + 1) := by
      rw [← sum_range_reflect]
      apply sum_congr rfl
      intro n hn
      have hn' := mem_range.mp hn
      rw [show M - 1 - n + 1 = M + 1 - (n + 1) by omega]
      exact h (n + 1) (by omega) (by omega)
    rw [sum_neg_distrib] at e
    linarith

theorem xs_odd (N k : ℕ) (f : ℝ) (hf : f = k / N) (n : ℕ) (hn : n < N) : mlXs f 0 (N - n) = -mlXs f 0 n := by
  have hN : (N : ℝ) ≠ 0 := by exact_mod_cast (by omega : N ≠ 0)
  unfold mlXs
  rw [← Real.sin_neg, ← Real.sin_add_nat_mul_two_pi (-_) k]
  congr 1
  rw [hf, Nat.cast_sub hn.le]
  field_simp
  ring

/-- The combination of bits that a solution stands for. -/
noncomputable def solWeights (N : ℕ) (cols : List (ℕ → ℝ)) (x : List ℝ) : List ℝ :=
  (List.range cols.length).map fun (j : ℕ) => x.getD j 0 * (10 : ℝ) ^ (-mlMag N (cols.getD j 0))

/-- Bits even about the start of a coherent record: the sine-normalised fit is zero. -/
theorem even_zero (solve : Lstsq) (hs : IsLstsq solve) (N k : ℕ) (hk : 0 < k) (hkN : 2 * k < N) (f : ℝ) (hf : f = k / N) (bits : List (ℕ → ℝ))
    (heven : ∀ c ∈ bits, ∀ n, 0 < n → n < N → c (N - n) = c n) (hd : FitDetermined N bits f 1 true) :
    ∀ j < bits.length + 2, (unitySolve solve N bits f 1 true).getD j 0 = 0 := by
  obtain ⟨s1, s2, s3, _, _⟩ := coherent_sums N k hk hkN f hf
  set x := unitySolve solve N bits f 1 true with hx
  set A := (mlFitMatrix (mlScaled N bits) f 1 [] true).1 with hA
  have hb2 : (mlFitMatrix (mlScaled N bits) f 1 [] true).2 = fun n => -mlXs f 0 n := by rw [mlFitMatrix_eq]; simp
  have hxl : x.length = A.length := by rw [hx]; unfold unitySolve; exact hs.len _ _ _
  have hAx : ∀ n, matVec A x n = matVec bits (solWeights N bits x) n + x.getD bits.length 0 + x.getD (bits.length + 1) 0 * mlXc f 0 n := by
    intro n
    have := fit_expand N bits f 1 one_pos [] true x n
    rw [← hA, hb2] at this
    have e : matVec [] (x.drop (bits.length + 2 * 1)) n = 0 := by unfold matVec; simp
    rw [e] at this
    simp only [if_true, harmonicSeries, sum_range_one, add_zero, one_mul] at this
    rw [← xc_eq, ← xs_eq] at this
    unfold solWeights
    linarith
  have hodd : ∑ n ∈ range N, matVec bits (solWeights N bits x) n * mlXs f 0 n = 0 := by
    apply odd_sum
    · simp [mlXs]
    · intro n hn hnN
      rw [xs_odd N k f hf n hnN]
      have : matVec bits (solWeights N bits x) (N - n) = matVec bits (solWeights N bits x) n := by
        unfold matVec
        apply sum_congr rfl
        intro j hj
        have hj' := mem_range.mp hj
        rw [heven (bits.getD j 0) (by rw [List.getD_eq_getElem _ _ hj']; exact List.getElem_mem hj') n hn hnN]
      rw [this]
      ring
  have horth := unity_orth solve hs N bits f 1 true x hxl
  rw [← hA, ← hx, hb2] at horth
  have hzero : ∑ n ∈ range N, matVec A x n ^ 2 = 0 := by
    have e1 : ∑ n ∈ range N, mlXs f 0 n * matVec A x n = 0 := by
      have : ∀ n ∈ range N, mlXs f 0 n * matVec A x n = matVec bits (solWeights N bits x) n * mlXs f 0 n + x.getD bits.length 0 * mlXs f 0 n
          + x.getD (bits.length + 1) 0 * (mlXc f 0 n * mlXs f 0 n) := by
        intro n _
        rw [hAx]
        ring
      rw [sum_congr rfl this, sum_add_distrib, sum_add_distrib, hodd, ← mul_sum, ← mul_sum, s2, s3]
      ring
    have e2 : ∑ n ∈ range N, (matVec A x n - -mlXs f 0 n) * matVec A x n = ∑ n ∈ range N, matVec A x n ^ 2 + ∑ n ∈ range N, mlXs f 0 n * matVec A x n := by
      rw [← sum_add_distrib]
      exact sum_congr rfl fun n _ => by ring
    rw [e2, e1] at horth
    linarith
  rw [sum_eq_zero_iff_of_nonneg (fun n _ => sq_nonneg _)] at hzero
  have hAe : A = mlScaled N bits ++ mlTail f 1 true := by rw [hA, mlFitMatrix_eq]
  have hl : (mlScaled N bits ++ mlTail f 1 true).length = bits.length + 2 := by
    rw [List.length_append, mlScaled_length, mlTail_length f 1 one_pos]
  have := scaled_determined N bits f 1 one_pos true hd x (by rw [hxl, hAe]) (by
    intro n hn
    rw [← hAe]
    exact pow_eq_zero_iff two_ne_zero |>.mp (hzero n (mem_range.mpr hn)))
  rw [hl] at this
  exact this

/-- **C133 (cosine phase).** A coherent record, one harmonic, every bit even about the first sample (what a noise-free converter gives for a tone in cosine phase),
some bit correlated with the tone, fits determined. `wcalsin` with the frequency given returns weights and offset zero: it compares both fits with the right-hand
side of the second and takes the sine-normalised one. `calibrate_weight_sine` compares each fit with its own right-hand side and returns weights that are not zero. -/
theorem C133_cosine_phase (solve : Lstsq) (hs : IsLstsq solve) (est : List ℝ) (seg : List (List ℝ)) (k : ℕ) (hk : 0 < k)
    (force : Option Bool) (hforce : force ≠ some true) (given : Option (List ℝ)) (lr reltol : ℝ) (maxIter : ℕ)
    (rate tol : ℝ) (hr0 : 0 < rate) (hr1 : rate < 1) (htol : 0 < tol) (niter : ℕ) (hni : 0 < niter)
    (rows : List (List ℝ)) (width : ℕ) (nominal : List ℝ) (hprep : prepareInput [seg] given = .ok ([rows], width, nominal))
    (hkN : 2 * k < rows.length) (f : ℝ) (hf : f = k / rows.length)
    (heven : ∀ j < width, ∀ n, 0 < n → n < rows.length → (rows.getD (rows.length - n) []).getD j 0 = (rows.getD n []).getD j 0)
    (hcor : ∃ j < width, ∑ n ∈ range rows.length, (rows.getD n []).getD j 0 * Real.cos (2 * Real.pi * f * n) ≠ 0)
    (hind : ∀ (u : List ℝ) (d : ℝ) (p q : ℕ → ℝ), u.length = width → (p 0 = 0 ∨ q 0 = 0) →
      (∀ n < rows.length, ∑ j ∈ range width, u.getD j 0 * (rows.getD n []).getD j 0 = harmonicSeries f 1 d p q n) →
      (∀ j < width, u.getD j 0 = 0) ∧ d = 0 ∧ ∀ h < 1, p h = 0 ∧ q h = 0) :
    ∃ r m, calibrate solve est [seg] (.scalar f) force given 1 lr reltol maxIter = .ok r ∧
      mlWcalsin solve seg f rate tol niter 1 false given = some m ∧ (∀ v ∈ m.weight, v = 0) ∧ m.offset = 0 ∧ ∃ v ∈ r.weight, v ≠ 0 := by
  set N := rows.length with hNd
  set bits := (List.range width).map fun (j : ℕ) => fun (n : ℕ) => (rows.getD n []).getD j 0 with hbits
  have hbl : bits.length = width := by rw [hbits]; simp
  have hmv : ∀ (u : List ℝ) (n : ℕ), matVec bits u n = ∑ j ∈ range width, u.getD j 0 * (rows.getD n []).getD j 0 := fun u n => matVec_range _ _ _ _
  have hd : ∀ sine, FitDetermined N bits f 1 sine := by
    intro sine u d p q hu h0 h
    rw [hbl] at hu ⊢
    exact hind u d p q hu (by cases sine <;> simp at h0 <;> tauto) (fun n hn => by rw [← hmv]; exact h n hn)
  obtain ⟨_, _, _, hN, hw⟩ := prep_single seg given rows width nominal hprep
  have hNR : (0 : ℝ) < N := by exact_mod_cast (by omega : 0 < N)
  have hf0 : 0 < f := by rw [hf]; have : (0 : ℝ) < k := by exact_mod_cast hk
                         positivity
  have hf2 : f ≤ 1 / 2 := by
    rw [hf, div_le_div_iff₀ hNR two_pos]
    have : 2 * (k : ℝ) < N := by exact_mod_cast hkN
    linarith
  obtain ⟨hm, he⟩ := patch_same_full N bits nominal (by omega) (rank_of_determined N bits f 1 false (hd false))
  obtain ⟨s1, s2, s3, s4, s5⟩ := coherent_sums N k hk hkN f hf
  have hx2 := even_zero solve hs N k hk hkN f hf bits (by
    intro c hc n hn hnN
    rw [hbits, List.mem_map] at hc
    obtain ⟨j, hj, rfl⟩ := hc
    exact heven j (List.mem_range.mp hj) n hn hnN) (hd true)
  have hcs : ∑ n ∈ range N, Real.cos (2 * Real.pi * f * n) * Real.sin (2 * Real.pi * f * n) ≤ 0 := by
    refine le_of_eq (Eq.trans ?_ s3)
    apply sum_congr rfl
    intro n _
    rw [xc_eq, xs_eq]
    simp
  have hopen := first_sine solve hs N hN bits f 1 one_pos hcs
  -- the cosine fit is strictly better
  have hgt : unityGap solve N bits f 1 true = N / 2 := by
    unfold unityGap
    rw [← s5]
    apply sum_congr rfl
    intro n _
    rw [fit_expand N bits f 1 one_pos [] true]
    have e1 : matVec bits ((List.range bits.length).map fun (j : ℕ) => (unitySolve solve N bits f 1 true).getD j 0 * (10 : ℝ) ^ (-mlMag N (bits.getD j 0))) n = 0 := by
      unfold matVec
      apply sum_eq_zero
      intro j hj
      have hj' := mem_range.mp hj
      rw [getD_range_map _ _ _ _ hj', hx2 j (by omega), zero_mul, zero_mul]
    have e2 : ∀ z : List ℝ, matVec [] z n = 0 := by intro z; unfold matVec; simp
    rw [e1, e2]
    simp only [if_true, harmonicSeries, sum_range_one, add_zero, one_mul]
    rw [hx2 _ (by omega), hx2 _ (by omega), ← xs_eq]
    ring
  obtain ⟨j, hj, hjc⟩ := hcor
  have hlt : unityGap solve N bits f 1 false < N / 2 := by
    set c := fun n => (rows.getD n []).getD j 0 with hc
    set S := ∑ n ∈ range N, c n * mlXc f 0 n with hS
    have hS0 : S ≠ 0 := by
      rw [hS]
      refine fun h => hjc (Eq.trans ?_ h)
      apply sum_congr rfl
      intro n _
      rw [xc_eq, Nat.cast_zero, zero_add, mul_one]
    set Q := ∑ n ∈ range N, c n ^ 2 with hQ
    have hQ0 : 0 ≤ Q := sum_nonneg fun _ _ => sq_nonneg _
    set t := S / (Q + 1) with ht
    have hle := unityGap_le solve hs N bits f 1 one_pos false ((List.range width).map fun (i : ℕ) => if i = j then t else 0) 0 (fun _ => 1) (fun _ => 0) (by simp)
    refine lt_of_le_of_lt hle ?_
    have hval : toneGap N bits f 1 ((List.range width).map fun (i : ℕ) => if i = j then t else 0) 0 (fun _ => 1) (fun _ => 0)
        = t ^ 2 * Q - 2 * t * S + N / 2 := by
      unfold toneGap
      rw [← s4, hQ, hS, mul_sum, mul_sum, ← sum_sub_distrib, ← sum_add_distrib]
      apply sum_congr rfl
      intro n _
      have e1 : matVec bits ((List.range width).map fun (i : ℕ) => if i = j then t else 0) n = t * c n := by
        rw [hmv, sum_eq_single j]
        · rw [getD_range_map _ _ _ _ hj, if_pos rfl]
        · intro i hi hne
          rw [getD_range_map _ _ _ _ (mem_range.mp hi), if_neg hne, zero_mul]
        · intro h
          exact absurd (mem_range.mpr hj) h
      have e2 : harmonicSeries f 1 0 (fun _ => 1) (fun _ => 0) n = mlXc f 0 n := by
        rw [xc_eq]
        simp [harmonicSeries]
      rw [e1, e2]
      ring
    rw [hval]
    have hneg : t ^ 2 * Q - 2 * t * S < 0 := by
      have hq1 : 0 < Q + 1 := by linarith
      have hSt : S = t * (Q + 1) := by rw [ht]; field_simp
      have ht0 : t ≠ 0 := by rw [ht]; exact div_ne_zero hS0 hq1.ne'
      have : 0 < t ^ 2 := by positivity
      rw [hSt]
      nlinarith
    linarith
  have hboth : mlFitBoth solve N (mlScaled N bits) f 1 [] = (unitySolve solve N bits f 1 false, false) := by
    rw [both_choice solve N hN, if_pos (by rw [hgt]; exact hlt)]
  obtain ⟨r, hr, hsame⟩ := cal_both solve hs est seg f hf0 hf2 force hforce given 1 one_pos lr reltol maxIter rows width nominal hprep bits hbits
    _ rfl (by rw [← hNd, he]; intro h; rw [h] at hbl; simp at hbl; omega) (by rw [← hNd, he]; exact hd _)
  rw [← hNd, he, hboth] at hsame
  have hml := ml_open solve seg f hf0 given 1 one_pos rate tol hr0 hr1 htol niter hni rows width nominal hprep bits hbits _ hm
  rw [← hNd, he, hopen] at hml
  refine ⟨r, _, hr, hml, ?_, ?_, ?_⟩
  · intro v hv
    unfold mlCalResult at hv
    simp only [List.map_map, List.mem_map, Function.comp] at hv
    obtain ⟨l, _, rfl⟩ := hv
    rw [he]
    by_cases hl : (max l.1 0).toNat < bits.length
    · rw [getD_range_map _ _ _ _ hl, hx2 _ (by omega)]
      simp
    · rw [List.getD_eq_default _ _ (by rw [List.length_map, List.length_range]; omega)]
      simp
  · unfold mlCalResult
    simp only
    rw [he, hx2 _ (by omega)]
    simp
  · -- some coefficient of the cosine fit differs from zero
    set x := unitySolve solve N bits f 1 false with hx
    have hex : ∃ i < width, x.getD i 0 ≠ 0 := by
      by_contra hall
      push Not at hall
      have hge : (N : ℝ) / 2 ≤ unityGap solve N bits f 1 false := by
        have hval : unityGap solve N bits f 1 false
            = N / 2 + (N * x.getD bits.length 0 ^ 2 + N / 2 * x.getD (bits.length + 1) 0 ^ 2) := by
          unfold unityGap
          have : ∀ n ∈ range N, (matVec (mlFitMatrix (mlScaled N bits) f 1 [] false).1 (unitySolve solve N bits f 1 false) n
              - (mlFitMatrix (mlScaled N bits) f 1 [] false).2 n) ^ 2
              = mlXc f 0 n ^ 2 + x.getD bits.length 0 ^ 2 + x.getD (bits.length + 1) 0 ^ 2 * mlXs f 0 n ^ 2 + 2 * x.getD bits.length 0 * mlXc f 0 n
                + 2 * x.getD bits.length 0 * x.getD (bits.length + 1) 0 * mlXs f 0 n + 2 * x.getD (bits.length + 1) 0 * (mlXc f 0 n * mlXs f 0 n) := by
            intro n _
            rw [fit_expand N bits f 1 one_pos [] false]
            have e1 : matVec bits ((List.range bits.length).map fun (j : ℕ) => (unitySolve solve N bits f 1 false).getD j 0 * (10 : ℝ) ^ (-mlMag N (bits.getD j 0))) n = 0 := by
              unfold matVec
              apply sum_eq_zero
              intro i hi
              have hi' := mem_range.mp hi
              rw [getD_range_map _ _ _ _ hi', ← hx, hall i (by omega), zero_mul, zero_mul]
            have e2 : ∀ z : List ℝ, matVec [] z n = 0 := by intro z; unfold matVec; simp
            rw [e1, e2, ← hx]
            simp only [Bool.false_eq_true, if_false, harmonicSeries, sum_range_one, add_zero, one_mul, if_true]
            rw [← xs_eq, ← xc_eq]
            ring
          rw [sum_congr rfl this]
          simp only [sum_add_distrib, ← mul_sum]
          rw [s1, s2, s3, s4, s5]
          simp
          ring
        rw [hval]
        have : 0 ≤ N * x.getD bits.length 0 ^ 2 + N / 2 * x.getD (bits.length + 1) 0 ^ 2 := by positivity
        linarith
      linarith
    obtain ⟨i, hi, hxi⟩ := hex
    rw [← hsame.weight]
    unfold mlCalResult
    simp only [List.map_map, List.mem_map]
    have hlinks : (patchRank N bits nominal).links = (List.range bits.length).map fun (i : ℕ) => ((i : ℤ), (1 : ℝ)) := by
      unfold patchRank
      rw [if_pos (rank_of_determined N bits f 1 false (hd false))]
    refine ⟨_, ⟨((i : ℤ), 1), by rw [hlinks]; exact List.mem_map.mpr ⟨i, List.mem_range.mpr (by omega), rfl⟩, rfl⟩, ?_⟩
    simp only [Function.comp]
    rw [he, show (max (i : ℤ) 0).toNat = i by omega, getD_range_map _ _ _ _ (by omega)]
    have hw0 : Real.sqrt (1 + x.getD (bits.length + 1) 0 ^ 2) ≠ 0 := (Real.sqrt_pos.mpr (by positivity)).ne'
    have hp : ∀ c : Prop, ∀ [Decidable c], (if c then (-1 : ℝ) else 1) ≠ 0 := by
      intro c _
      split_ifs <;> norm_num
    have h10 : (10 : ℝ) ^ (-mlMag N (bits.getD i 0)) ≠ 0 := by positivity
    exact mul_ne_zero (mul_ne_zero (mul_ne_zero (div_ne_zero hxi hw0) h10) one_ne_zero) (hp _)

/-! ## Stuck and correlated bits -/

/-- Standard deviation of a column. -/
noncomputable def colStd (N : ℕ) (c : ℕ → ℝ) : ℝ := Real.sqrt (colMean N fun n => (c n - colMean N c) ^ 2)

theorem rank_order (N : ℕ) (cols : List (ℕ → ℝ)) : rankOf N ((fun _ => 1) :: cols) = rankOf N (cols ++ [fun _ => 1]) := by
  have key : ∀ l l' : List (ℕ → ℝ), (∀ c, c ∈ l → c ∈ l') → (Set.range fun (j : Fin l.length) (i : Fin N) => (l.get j) i)
      ⊆ Set.range fun (j : Fin l'.length) (i : Fin N) => (l'.get j) i := by
    rintro l l' h _ ⟨j, rfl⟩
    obtain ⟨k, hk⟩ := List.get_of_mem (h _ (List.get_mem l j))
    refine ⟨k, ?_⟩
    funext i
    simp only [hk]
  unfold rankOf
  congr 1
  apply Set.Subset.antisymm
  · exact key _ _ (by intro c; simp; tauto)
  · exact key _ _ (by intro c; simp; tauto)

/-- The two correlation tests agree unless the product of the standard deviations is positive and below `1e-15`. -/
theorem corr_same (N : ℕ) (c e : ℕ → ℝ) (h : ¬ (0 < colStd N c * colStd N e ∧ colStd N c * colStd N e < 1 / 10 ^ 15)) :
    (match mlCorrelation N c e with
      | none => false
      | some cor => @decide (|(|cor|) - 1| < 1 / 1000) (Classical.propDecidable _))
      = @decide (|(|correlation N c e|) - 1| < 1 / 1000) (Classical.propDecidable _) := by
  have hc : 0 ≤ colStd N c := Real.sqrt_nonneg _
  have he : 0 ≤ colStd N e := Real.sqrt_nonneg _
  unfold mlCorrelation correlation
  simp only
  change (match (if colStd N c = 0 ∨ colStd N e = 0 then none else some (colMean N (fun n => (c n - colMean N c) * (e n - colMean N e)) / colStd N c / colStd N e)) with
      | none => false
      | some cor => @decide (|(|cor|) - 1| < 1 / 1000) (Classical.propDecidable _))
    = @decide (|(|if colStd N c * colStd N e < 1 / 10 ^ 15 then 0 else colMean N (fun n => (c n - colMean N c) * (e n - colMean N e)) / (colStd N c * colStd N e)|) - 1|
        < 1 / 1000) (Classical.propDecidable _)
  by_cases h0 : colStd N c = 0 ∨ colStd N e = 0
  · rw [if_pos h0, if_pos (by rcases h0 with h0 | h0 <;> rw [h0] <;> norm_num)]
    symm
    simp only
    rw [decide_eq_false_iff_not]
    norm_num
  · rw [if_neg h0]
    push Not at h0
    have hpos : 0 < colStd N c * colStd N e := mul_pos (lt_of_le_of_ne hc (Ne.symm h0.1)) (lt_of_le_of_ne he (Ne.symm h0.2))
    rw [if_neg (fun hlt => h ⟨hpos, hlt⟩), div_div]

/-- The state of the Python patching loop before bit `k`. -/
noncomputable def patchBefore (N : ℕ) (bits : List (ℕ → ℝ)) (nominal : List ℝ) (k : ℕ) : Patched :=
  (List.range k).foldl (patchStep N bits nominal) { eff := [], founders := [], links := [] }

theorem find_congr {α : Type} (l : List α) (p q : α → Bool) (h : ∀ a ∈ l, p a = q a) : l.find? p = l.find? q := by
  induction l with
  | nil => rfl
  | cons a l ih =>
    rw [List.find?_cons, List.find?_cons, h a List.mem_cons_self, ih fun b hb => h b (List.mem_cons_of_mem _ hb)]

/-- **C133 (patching).** On rank-deficient data the two patching loops build the same columns, links and ratios, provided no column that varies has a range
below `1e-15` and no two compared columns have standard deviations whose product is positive and below `1e-15`. -/
theorem C133_patch (N : ℕ) (bits : List (ℕ → ℝ)) (nominal : List ℝ)
    (hrange : ∀ k < bits.length, (∃ i < N, ∃ j < N, bits.getD k 0 i ≠ bits.getD k 0 j) → ∃ i < N, ∃ j < N, 1 / 10 ^ 15 ≤ bits.getD k 0 i - bits.getD k 0 j)
    (hstd : ∀ k < bits.length, ∀ e ∈ (patchBefore N bits nominal k).eff,
      ¬ (0 < colStd N (bits.getD k 0) * colStd N e ∧ colStd N (bits.getD k 0) * colStd N e < 1 / 10 ^ 15)) :
    (List.range bits.length).foldl (mlPatchStep N bits nominal) { eff := [], founders := [], links := [] } = patchBefore N bits nominal bits.length := by
  have key : ∀ k ≤ bits.length, (List.range k).foldl (mlPatchStep N bits nominal) { eff := [], founders := [], links := [] } = patchBefore N bits nominal k ∧
      (patchBefore N bits nominal k).founders.length = (patchBefore N bits nominal k).eff.length := by
    intro k
    induction k with
    | zero => intro _; exact ⟨rfl, rfl⟩
    | succ k ih =>
      intro hk
      obtain ⟨i1, i2⟩ := ih (by omega)
      have hst := hstd k (by omega)
      have hrg := hrange k (by omega)
      have hnext : patchBefore N bits nominal (k + 1) = patchStep N bits nominal (patchBefore N bits nominal k) k := by
        unfold patchBefore
        rw [List.range_succ, List.foldl_append]
        rfl
      rw [hnext, List.range_succ, List.foldl_append, i1]
      simp only [List.foldl_cons, List.foldl_nil]
      generalize patchBefore N bits nominal k = s at i2 hst
      have hcst : mlConstant N (bits.getD k 0) ↔ ptpSmall N (bits.getD k 0) := by
        constructor
        · intro h i hi j hj
          rw [h i hi j hj, sub_self]
          positivity
        · intro h i hi j hj
          by_contra hne
          obtain ⟨i', hi', j', hj', hge⟩ := hrg ⟨i, hi, j, hj, hne⟩
          exact absurd (h i' hi' j' hj') (not_lt.mpr hge)
      have hmt : mlMergeTarget N (bits.getD k 0) s.eff = mergeTarget N (bits.getD k 0) s.eff s.founders.length := by
        unfold mlMergeTarget mergeTarget
        rw [i2]
        apply find_congr
        intro j hj
        apply corr_same
        apply hst
        rw [List.getD_eq_getElem _ _ (List.mem_range.mp hj)]
        exact List.getElem_mem _
      unfold mlPatchStep patchStep
      simp only
      rw [hmt]
      by_cases hA : ptpSmall N (bits.getD k 0)
      · rw [if_pos (hcst.mpr hA), if_pos hA]
        exact ⟨rfl, i2⟩
      · rw [if_neg (fun h => hA (hcst.mp h)), if_neg hA]
        split_ifs with hB
        · exact ⟨rfl, by simp [i2]⟩
        · cases mergeTarget N (bits.getD k 0) s.eff s.founders.length with
          | none => exact ⟨rfl, i2⟩
          | some j =>
            simp only
            refine ⟨?_, by simp [i2]⟩
            congr 1
            congr 1
            funext n
            rw [mul_div_assoc]
  exact (key bits.length le_rfl).1

/-- **C133 (stuck or correlated bits).** As `C133_same` and `C133_same_clean` for data that needs patching, under the conditions of `C133_patch`: if the fit
to the effective columns is determined, both programs return the same results. -/
theorem C133_same_patched (solve : Lstsq) (hs : IsLstsq solve) (est : List ℝ) (seg : List (List ℝ)) (f : ℝ) (hf0 : 0 < f) (hf : f ≤ 1 / 2)
    (force : Option Bool) (hforce : force ≠ some true) (given : Option (List ℝ)) (H : ℕ) (hH : 0 < H) (lr reltol : ℝ) (maxIter : ℕ)
    (rate tol : ℝ) (hr0 : 0 < rate) (hr1 : rate < 1) (htol : 0 < tol) (niter : ℕ) (hni : 0 < niter)
    (rows : List (List ℝ)) (width : ℕ) (nominal : List ℝ) (hprep : prepareInput [seg] given = .ok ([rows], width, nominal))
    (bits : List (ℕ → ℝ)) (hbits : bits = (List.range width).map fun (j : ℕ) => fun (n : ℕ) => (rows.getD n []).getD j 0)
    (hrange : ∀ k < bits.length, (∃ i < rows.length, ∃ j < rows.length, bits.getD k 0 i ≠ bits.getD k 0 j) →
      ∃ i < rows.length, ∃ j < rows.length, 1 / 10 ^ 15 ≤ bits.getD k 0 i - bits.getD k 0 j)
    (hstd : ∀ k < bits.length, ∀ e ∈ (patchBefore rows.length bits nominal k).eff,
      ¬ (0 < colStd rows.length (bits.getD k 0) * colStd rows.length e ∧ colStd rows.length (bits.getD k 0) * colStd rows.length e < 1 / 10 ^ 15))
    (hne : (patchRank rows.length bits nominal).eff ≠ [])
    (hd : ∀ sine, FitDetermined rows.length (patchRank rows.length bits nominal).eff f H sine)
    (hcs : ∑ n ∈ range rows.length, Real.cos (2 * Real.pi * f * n) * Real.sin (2 * Real.pi * f * n) ≤ 0)
    (hsine : ∃ (u : List ℝ) (d : ℝ) (p q : ℕ → ℝ), q 0 = 1 ∧ ∀ (u' : List ℝ) (d' : ℝ) (p' q' : ℕ → ℝ),
      u'.length = (patchRank rows.length bits nominal).eff.length → p' 0 = 1 →
      toneGap rows.length (patchRank rows.length bits nominal).eff f H u d p q ≤ toneGap rows.length (patchRank rows.length bits nominal).eff f H u' d' p' q') :
    ∃ r m, calibrate solve est [seg] (.scalar f) force given H lr reltol maxIter = .ok r ∧
      mlWcalsin solve seg f rate tol niter H false given = some m ∧ SameCal m r := by
  obtain ⟨_, _, _, hN, hw⟩ := prep_single seg given rows width nominal hprep
  have hbl : bits.length = width := by rw [hbits]; simp
  have hm : mlPatch rows.length bits nominal = some (patchRank rows.length bits nominal) := by
    by_cases hr : bits.length + 1 ≤ rankOf rows.length (bits ++ [fun _ => 1])
    · exact (patch_same_full rows.length bits nominal (by omega) hr).1
    · have hp : patchRank rows.length bits nominal = patchBefore rows.length bits nominal bits.length := by
        unfold patchRank patchBefore
        rw [if_neg hr]
      have hrk := rank_of_determined rows.length _ f H false (hd false)
      unfold mlPatch
      rw [if_pos (by omega)]
      simp only
      rw [C133_patch rows.length bits nominal hrange hstd, ← hp, rank_order, if_neg (by omega), if_neg (by
        intro h0
        exact hne (List.length_eq_zero_iff.mp h0))]
  exact cal_same solve hs est seg f hf0 hf force hforce given H hH lr reltol maxIter rate tol hr0 hr1 htol niter hni rows width nominal hprep bits hbits
    _ rfl hm hne (first_both solve hs rows.length hN _ f H hH hcs hsine) (hd _)

/-! ## The frequency search -/

/-- How a tone with harmonics `a h cos + b h sin` changes with its frequency, up to the factor `2 pi`. -/
noncomputable def toneSlope (f : ℝ) (H : ℕ) (a b : ℕ → ℝ) (n : ℕ) : ℝ :=
  ∑ h ∈ range H, ((h : ℝ) + 1) * n * (b h * Real.cos (2 * Real.pi * f * ((n : ℝ) * ((h : ℝ) + 1))) - a h * Real.sin (2 * Real.pi * f * ((n : ℝ) * ((h : ℝ) + 1))))

/-- The slope is the derivative of the series in the frequency. -/
theorem toneSlope_deriv (f : ℝ) (H : ℕ) (c : ℝ) (a b : ℕ → ℝ) (n : ℕ) :
    HasDerivAt (fun f => harmonicSeries f H c a b n) (2 * Real.pi * toneSlope f H a b n) f := by
  unfold harmonicSeries toneSlope
  rw [mul_sum]
  have hsum : HasDerivAt (fun f => ∑ h ∈ range H, (a h * Real.cos (2 * Real.pi * f * ((n : ℝ) * ((h : ℝ) + 1)))
      + b h * Real.sin (2 * Real.pi * f * ((n : ℝ) * ((h : ℝ) + 1)))))
      (∑ h ∈ range H, 2 * Real.pi * (((h : ℝ) + 1) * n * (b h * Real.cos (2 * Real.pi * f * ((n : ℝ) * ((h : ℝ) + 1)))
        - a h * Real.sin (2 * Real.pi * f * ((n : ℝ) * ((h : ℝ) + 1)))))) f := by
    apply HasDerivAt.fun_sum
    intro h _
    have hin : HasDerivAt (fun f : ℝ => 2 * Real.pi * f * ((n : ℝ) * ((h : ℝ) + 1))) (2 * Real.pi * ((n : ℝ) * ((h : ℝ) + 1))) f := by
      have := ((hasDerivAt_id f).const_mul (2 * Real.pi)).mul_const ((n : ℝ) * ((h : ℝ) + 1))
      simpa using this
    have := (hin.cos.const_mul (a h)).add (hin.sin.const_mul (b h))
    exact this.congr_deriv (by ring)
  have := hsum.const_add c
  exact this

theorem result_congr (N : ℕ) (bits : List (ℕ → ℝ)) (P : Patched) (f : ℝ) (H : ℕ) (hH : 0 < H) (x y : List ℝ) (sel : Bool)
    (h : ∀ j < P.eff.length + 2 * H, x.getD j 0 = y.getD j 0) : mlCalResult N bits P f H x sel = mlCalResult N bits P f H y sel := by
  have e1 : x.getD (P.eff.length + H) 0 = y.getD (P.eff.length + H) 0 := h _ (by omega)
  have e2 : x.getD P.eff.length 0 = y.getD P.eff.length 0 := h _ (by omega)
  have e3 : ∀ w0 : ℝ, ((List.range P.eff.length).map fun (j : ℕ) => x.getD j 0 / w0 * (10 : ℝ) ^ (-mlMag N (P.eff.getD j 0)))
      = (List.range P.eff.length).map fun (j : ℕ) => y.getD j 0 / w0 * (10 : ℝ) ^ (-mlMag N (P.eff.getD j 0)) := by
    intro w0
    apply List.map_congr_left
    intro j hj
    rw [h j (by have := List.mem_range.mp hj; omega)]
  have e4 : ∀ g : ℕ → ℝ, ∑ k ∈ range (H - 1), g k * x.getD (P.eff.length + 1 + k) 0 = ∑ k ∈ range (H - 1), g k * y.getD (P.eff.length + 1 + k) 0 := by
    intro g
    apply sum_congr rfl
    intro k hk
    rw [h _ (by have := mem_range.mp hk; omega)]
  have e5 : ∀ g : ℕ → ℝ, ∑ k ∈ range H, g k * x.getD (P.eff.length + H + k) 0 = ∑ k ∈ range H, g k * y.getD (P.eff.length + H + k) 0 := by
    intro g
    apply sum_congr rfl
    intro k hk
    rw [h _ (by have := mem_range.mp hk; omega)]
  unfold mlCalResult
  simp only [e1, e2, e3, e4 (fun k => mlXs f (k + 1) _), e4 (fun k => mlXc f (k + 1) _), e5 (fun k => mlXs f k _), e5 (fun k => mlXc f k _)]

/-- The derivative column MATLAB computes from the exact fit is the slope of the tone, up to a factor. -/
theorem deriv_exact (N : ℕ) (cols : List (ℕ → ℝ)) (f : ℝ) (H : ℕ) (hH : 0 < H) (w : List ℝ) (c : ℝ) (a b : ℕ → ℝ) (sine : Bool)
    (hr : (if sine then b 0 else a 0) ≠ 0) (n : ℕ) :
    mlDerivColumn N cols.length f H (exactFit N cols H w c a b sine) sine n = 2 * Real.pi / (if sine then b 0 else a 0) / N * toneSlope f H a b n := by
  unfold mlDerivColumn toneSlope
  rw [mul_sum]
  apply sum_congr rfl
  intro h hh
  have hh' := mem_range.mp hh
  have hu : mlUnity cols.length (exactFit N cols H w c a b sine) h = (if sine then b h else a h) / (if sine then b 0 else a 0) := by
    unfold mlUnity
    split_ifs with h0 h1 h1
    · subst h0; rw [if_pos h1] at hr; rw [div_self hr]
    · subst h0; rw [if_neg h1] at hr; rw [div_self hr]
    · rw [exactFit_unity _ _ _ _ _ _ _ _ _ h0 hh', if_pos h1, if_pos h1]
    · rw [exactFit_unity _ _ _ _ _ _ _ _ _ h0 hh', if_neg h1, if_neg h1]
  have ho : mlOther cols.length H (exactFit N cols H w c a b sine) h = (if sine then a h else b h) / (if sine then b 0 else a 0) := by
    unfold mlOther
    exact exactFit_other _ _ _ _ _ _ _ _ _ hh' hH
  rw [hu, ho, xc_eq, xs_eq]
  cases sine
  · simp only [Bool.false_eq_true, if_false]
    ring
  · simp only [if_true]
    ring

/-- **C133 (search).** Noise-free data whose fundamental is not a pure cosine, search started at the exact frequency, fit (with the slope of the tone added) determined: MATLAB's fine search stays
there and returns what it returns without a search, for every number of iterations, rate and tolerance. The Python search leaves the exact frequency
(`C42_search_step`, `C133_search_differs`). -/
theorem C133_search (solve : Lstsq) (hs : IsLstsq solve) (seg : List (List ℝ)) (f : ℝ) (hf0 : 0 < f) (given : Option (List ℝ)) (H : ℕ) (hH : 0 < H)
    (rate tol : ℝ) (hr0 : 0 < rate) (hr1 : rate < 1) (htol : 0 < tol) (niter : ℕ) (hni : 0 < niter)
    (rows : List (List ℝ)) (width : ℕ) (nominal : List ℝ) (hprep : prepareInput [seg] given = .ok ([rows], width, nominal))
    (w : List ℝ) (hlen : w.length = width) (c : ℝ) (a b : ℕ → ℝ)
    (hclean : ∀ n < rows.length, ∑ j ∈ range width, w.getD j 0 * (rows.getD n []).getD j 0 = harmonicSeries f H c a b n) (hb0 : b 0 ≠ 0)
    (honly : ∀ (u : List ℝ) (d e : ℝ) (p q : ℕ → ℝ), u.length = width →
      (∀ n < rows.length, ∑ j ∈ range width, u.getD j 0 * (rows.getD n []).getD j 0 = harmonicSeries f H d p q n + e * toneSlope f H a b n) →
      ∃ t : ℝ, u = w.map (fun v => t * v) ∧ d = t * c ∧ e = 0 ∧ ∀ h < H, p h = t * a h ∧ q h = t * b h) :
    ∃ m, mlWcalsin solve seg f rate tol niter H true given = some m ∧ mlWcalsin solve seg f rate tol niter H false given = some m ∧ m.freqcal = f := by
  have hne : a 0 ≠ 0 ∨ b 0 ≠ 0 := Or.inr hb0
  obtain ⟨p1, p2, p3, hN, hw⟩ := prep_single seg given rows width nominal hprep
  set N := rows.length with hNd
  set bits := (List.range width).map fun (j : ℕ) => fun (n : ℕ) => (rows.getD n []).getD j 0 with hbits
  have hbl : bits.length = width := by rw [hbits]; simp
  have hmv : ∀ (u : List ℝ) (n : ℕ), matVec bits u n = ∑ j ∈ range width, u.getD j 0 * (rows.getD n []).getD j 0 := fun u n => matVec_range _ _ _ _
  have honly1 : OnlyFit N bits f H w c a b := by
    intro u d p q hu h
    obtain ⟨t, h1, h2, _, h3⟩ := honly u d 0 p q (by omega) (fun n hn => by rw [← hmv, h n hn]; ring)
    exact ⟨t, h1, h2, h3⟩
  obtain ⟨hm, he⟩ := patch_same_full N bits nominal (by omega) (rank_of_onlyFit N bits f H hH w c a b hne honly1)
  set sel := decide (b 0 ≠ 0) with hsel
  have hr : (if sel then b 0 else a 0) ≠ 0 := by
    by_cases hb : b 0 = 0
    · simp only [hsel, hb, ne_eq, not_true_eq_false, decide_false, Bool.false_eq_true, if_false]
      exact hne.resolve_right (by simp [hb])
    · simp only [hsel, ne_eq, hb, not_false_eq_true, decide_true, if_true]
  have hcl : ∀ n < N, matVec bits w n = harmonicSeries f H c a b n := fun n hn => by rw [hmv]; exact hclean n hn
  have hfit0 := fit_clean solve hs N hN bits f H hH [] w (by omega) c a b hne hcl (by
    intro u d p q v hu _ h
    obtain ⟨t, h1, h2, h3⟩ := honly1 u d p q hu (fun n hn => by rw [h n hn]; unfold matVec; simp)
    exact ⟨t, h1, h2, h3, fun j hj => by simp at hj⟩)
  rw [List.length_nil, List.replicate_zero, List.append_nil, ← hsel] at hfit0
  set y := exactFit N bits H w c a b sel with hy
  set D := mlDerivColumn N bits.length f H y sel with hD
  have hN' : (N : ℝ) ≠ 0 := by exact_mod_cast hN.ne'
  have hκ : 2 * Real.pi / (if sel then b 0 else a 0) / N ≠ 0 := div_ne_zero (div_ne_zero (mul_ne_zero two_ne_zero Real.pi_ne_zero) hr) hN'
  have hDn : ∀ n, D n = 2 * Real.pi / (if sel then b 0 else a 0) / N * toneSlope f H a b n := fun n => deriv_exact N bits f H hH w c a b sel hr n
  have hfit1 := fit_clean solve hs N hN bits f H hH [D] w (by omega) c a b hne hcl (by
    intro u d p q v hu hv h
    obtain ⟨v0, rfl⟩ := List.length_eq_one_iff.mp (show v.length = 1 by simpa using hv)
    obtain ⟨t, h1, h2, h3, h4⟩ := honly u d (v0 * (2 * Real.pi / (if sel then b 0 else a 0) / N)) p q (by omega) (fun n hn => by
      rw [← hmv, h n hn]
      congr 1
      unfold matVec
      simp only [List.length_singleton, sum_range_one, List.getD_cons_zero]
      rw [hDn]
      ring)
    refine ⟨t, h1, h2, h4, ?_⟩
    intro j hj
    have : j = 0 := by simpa using hj
    subst this
    exact (mul_eq_zero.mp h3).resolve_right hκ)
  rw [List.length_singleton, List.replicate_one, ← hsel, ← hy] at hfit1
  have hyl : y.length = bits.length + 2 * H := exactFit_length _ _ _ _ _ _ _ _
  have hlast : (y ++ [0]).getD ((y ++ [0]).length - 1) 0 = 0 := by
    have := getD_append_right_list y [(0 : ℝ)] 0 0
    rw [List.length_append, List.length_singleton, Nat.add_sub_cancel]
    rw [add_zero] at this
    rw [this]
    rfl
  have hrel : mlRelErr N (mlScaled N bits).length H (y ++ [0]) D < tol := by
    unfold mlRelErr
    rw [hlast]
    have : (colMean N fun n => (0 / (N : ℝ) * D n) ^ 2) = 0 := by
      unfold colMean
      simp
    rw [this, Real.sqrt_zero, zero_div]
    exact htol
  obtain ⟨k, rfl⟩ : ∃ k, niter = k + 1 := ⟨niter - 1, by omega⟩
  have hloop : mlFineSearch solve N (mlScaled N bits) H rate tol (k + 1) f 0 y sel = (f, y ++ [0], sel) := by
    simp only [mlFineSearch, add_zero]
    rw [mlScaled_length, ← hD, hfit1]
    rw [mlScaled_length] at hrel
    rw [if_pos hrel]
  have hP : ∀ fs, mlWcalsin solve seg f rate tol (k + 1) H fs given
      = some (mlCalResult N bits (patchRank N bits nominal) f H y sel) := by
    intro fs
    unfold mlWcalsin
    rw [if_neg (by push Not; exact ⟨hf0.le, hr0, hr1, htol, by omega, by omega⟩)]
    simp only
    rw [← p1, ← p2, ← p3, ← hNd, ← hbits, hm]
    simp only
    rw [if_neg hf0.ne', he]
    simp only
    rw [open_exact solve N hN bits f H (gap_clean solve hs N bits f H hH w c a b hb0 hcl), hfit0]
    simp only
    rw [hloop]
    simp only
    split_ifs
    · rw [result_congr N bits _ f H hH (y ++ [0]) y sel (fun j hj => getD_append_left_list _ _ _ _ (by rw [he] at hj; omega))]
    · rfl
  exact ⟨_, hP true, hP false, rfl⟩

theorem xc_period (f : ℝ) (h : ℕ) : mlXc (f + 1) h = mlXc f h := by
  funext n
  unfold mlXc
  conv_rhs => rw [← Real.cos_add_nat_mul_two_pi _ (n * (h + 1))]
  congr 1
  push_cast
  ring

theorem xs_period (f : ℝ) (h : ℕ) : mlXs (f + 1) h = mlXs f h := by
  funext n
  unfold mlXs
  conv_rhs => rw [← Real.sin_add_nat_mul_two_pi _ (n * (h + 1))]
  congr 1
  push_cast
  ring

/-- **C133 (frequency range).** A frequency beyond one half of the sampling rate: `calibrate_weight_sine` raises `ValueError`; `wcalsin` takes it. One sampling
rate higher it returns the same weights, offset and waveforms, whatever the data. -/
theorem C133_above (solve : Lstsq) (est : List ℝ) (seg : List (List ℝ)) (f : ℝ) (hf : 0 < f) (force : Option Bool) (given : Option (List ℝ)) (H : ℕ)
    (lr reltol : ℝ) (maxIter : ℕ) (rate tol : ℝ) (niter : ℕ) :
    calibrate solve est [seg] (.scalar (f + 1)) force given H lr reltol maxIter = .error .valueError ∧
    mlWcalsin solve seg (f + 1) rate tol niter H false given
      = (mlWcalsin solve seg f rate tol niter H false given).map fun m => { m with freqcal := f + 1 } := by
  constructor
  · unfold calibrate
    rw [if_pos ⟨f + 1, by simp [FreqArg.values], by linarith⟩]
  · have hfit : ∀ N cols, mlFitOpen solve N cols (f + 1) H = mlFitOpen solve N cols f H := by
      intro N cols
      have : ∀ sine, mlFitMatrix cols (f + 1) H [] sine = mlFitMatrix cols f H [] sine := by
        intro sine
        unfold mlFitMatrix
        have e1 : (mlXc (f + 1)) = mlXc f := funext (xc_period f)
        have e2 : (mlXs (f + 1)) = mlXs f := funext (xs_period f)
        rw [e1, e2]
      unfold mlFitOpen
      simp only [this]
    have hres : ∀ N bits P x sel, mlCalResult N bits P (f + 1) H x sel = { mlCalResult N bits P f H x sel with freqcal := f + 1 } := by
      intro N bits P x sel
      unfold mlCalResult
      simp only [xc_period, xs_period]
    unfold mlWcalsin
    have hc : (f + 1 < 0 ∨ rate ≤ 0 ∨ 1 ≤ rate ∨ tol ≤ 0 ∨ niter = 0 ∨ H = 0) ↔ (f < 0 ∨ rate ≤ 0 ∨ 1 ≤ rate ∨ tol ≤ 0 ∨ niter = 0 ∨ H = 0) := by
      have h1 : ¬ f + 1 < 0 := by linarith
      have h2 : ¬ f < 0 := by linarith
      simp only [h1, h2]
    by_cases h : f < 0 ∨ rate ≤ 0 ∨ 1 ≤ rate ∨ tol ≤ 0 ∨ niter = 0 ∨ H = 0
    · rw [if_pos h, if_pos (hc.mpr h)]
      rfl
    · rw [if_neg h, if_neg (fun h' => h (hc.mp h'))]
      simp only
      rcases mlPatch _ _ _ with _ | P
      · rfl
      · simp only [if_neg hf.ne', if_neg (by linarith : ¬ f + 1 = 0), hfit]
        rw [if_neg (by simp; linarith), if_neg (by simp [hf.ne']), hres]
        rfl

/-! ## The remaining rank check -/

theorem patched_short (N : ℕ) (e : ℕ → ℝ) (t : ℝ) (h : ∀ n < N, e n = t) : rankOf N [fun _ => 1, e] < 2 := by
  by_contra hge
  push Not at hge
  unfold rankOf at hge
  have hcard := linearIndependent_iff_card_le_finrank_span (R := ℝ) (b := fun (j : Fin [fun _ => (1 : ℝ), e].length) (i : Fin N) => ([fun _ => (1 : ℝ), e].get j) i)
  have hli := hcard.mpr (by simpa using hge)
  rw [Fintype.linearIndependent_iff] at hli
  have := hli ![-t, 1] (by
    funext i
    rw [Finset.sum_apply]
    change ∑ j : Fin 2, (![-t, 1] j • fun (i : Fin N) => ([fun _ => (1 : ℝ), e].get j) i) i = 0
    rw [Fin.sum_univ_two]
    change -t * 1 + 1 * e i = 0
    rw [h i i.2]
    ring) 1
  simp at this

theorem patch_none (N : ℕ) (b : ℕ → ℝ) (v0 v1 α β t : ℝ) (hα : |α| = 1) (i j : ℕ) (hi : i < N) (hj : j < N) (h : 1 / 10 ^ 15 ≤ b i - b j)
    (hvar : 1 / 10 ^ 15 ≤ colMean N fun n => (b n - colMean N b) ^ 2) (ht : ∀ n, b n + (α * b n + β) * (v1 / v0) = t) :
    mlPatch N [b, fun n => α * b n + β] [v0, v1] = none := by
  have he := patch_two N b v0 v1 α β hα i j hi hj h hvar
  set bits : List (ℕ → ℝ) := [b, fun n => α * b n + β] with hb
  have hbl : bits.length = 2 := rfl
  have hlow : rankOf N (bits ++ [fun _ => 1]) < bits.length + 1 := by
    by_contra hge
    push Not at hge
    have hp : (patchRank N bits [v0, v1]).eff = bits := by
      unfold patchRank
      rw [if_pos hge]
    rw [he] at hp
    simp [hb] at hp
  have hN : 0 < N := by omega
  have hvar1 : colStd N b ^ 2 = colMean N fun n => (b n - colMean N b) ^ 2 := Real.sq_sqrt (by linarith [show (0 : ℝ) < 1 / 10 ^ 15 by positivity])
  have hα2 : α ^ 2 = 1 := by rw [← sq_abs, hα]; norm_num
  have hstdc : colStd N (fun n => α * b n + β) = colStd N b := by
    unfold colStd
    congr 1
    have hmean : colMean N (fun n => α * b n + β) = α * colMean N b + β := by
      unfold colMean
      rw [sum_add_distrib, ← mul_sum]
      have : (N : ℝ) ≠ 0 := by exact_mod_cast hN.ne'
      simp only [sum_const, card_range, nsmul_eq_mul]
      field_simp
    rw [hmean]
    unfold colMean
    congr 1
    apply sum_congr rfl
    intro n _
    calc _ = α ^ 2 * (b n - (∑ n ∈ range N, b n) / N) ^ 2 := by ring
      _ = _ := by rw [hα2, one_mul]
  have hpatch := C133_patch N bits [v0, v1] (by
      intro k hk _
      rw [hbl] at hk
      interval_cases k
      · exact ⟨i, hi, j, hj, h⟩
      · rcases (abs_eq (by norm_num)).mp hα with ha | ha
        · refine ⟨i, hi, j, hj, ?_⟩
          change 1 / 10 ^ 15 ≤ (α * b i + β) - (α * b j + β)
          rw [ha]
          linarith
        · refine ⟨j, hj, i, hi, ?_⟩
          change 1 / 10 ^ 15 ≤ (α * b j + β) - (α * b i + β)
          rw [ha]
          linarith) (by
      intro k hk e' he' hcon
      rw [hbl] at hk
      interval_cases k
      · unfold patchBefore at he'
        simp at he'
      · have hone : patchBefore N bits [v0, v1] 1 = { eff := [bits.getD 0 0], founders := [0], links := [(0, 1)] } :=
          step_first N bits [v0, v1] i j hi hj h
        rw [hone] at he'
        have : e' = b := by simpa [hb] using he'
        rw [this] at hcon
        have hc2 : colStd N (fun n => α * b n + β) * colStd N b < 1 / 10 ^ 15 := hcon.2
        rw [hstdc, ← sq, hvar1] at hc2
        exact absurd hc2 (not_lt.mpr hvar))
  have hsame : patchBefore N bits [v0, v1] bits.length = patchRank N bits [v0, v1] := by
    unfold patchRank patchBefore
    rw [if_neg (by omega)]
  unfold mlPatch
  rw [if_pos hlow]
  simp only
  rw [hpatch, hsame, he, if_pos (by simpa using patched_short N _ t fun n _ => ht n)]

/-- **C133 (rank check).** A bit and its complement with equal nominal weights: merging leaves a constant column. `wcalsin` stops with an error there, the Python
patching returns the constant column and goes on. -/
theorem C133_rank_check (N : ℕ) (b : ℕ → ℝ) (v : ℝ) (hv : v ≠ 0) (i j : ℕ) (hi : i < N) (hj : j < N) (h : 1 / 10 ^ 15 ≤ b i - b j)
    (hvar : 1 / 10 ^ 15 ≤ colMean N fun n => (b n - colMean N b) ^ 2) :
    mlPatch N [b, fun n => -1 * b n + 1] [v, v] = none ∧ ∃ e, (patchRank N [b, fun n => -1 * b n + 1] [v, v]).eff = [e] ∧ ∀ n, e n = 1 := by
  refine ⟨patch_none N b v v (-1) 1 1 (by norm_num) i j hi hj h hvar ?_, C38_complementary_bits_cancel N b v hv i j hi hj h hvar⟩
  intro n
  rw [div_self hv]
  ring

/-- Calibration of two equal bits whose nominal weights are opposite: `wcalsin` stops, `calibrate_weight_sine` returns a result. -/
theorem C133_rank_check_call (solve : Lstsq) (hs : IsLstsq solve) (est : List ℝ) (seg : List (List ℝ)) (f : ℝ) (hf0 : 0 < f) (hf : f ≤ 1 / 2)
    (force : Option Bool) (hforce : force ≠ some true) (given : Option (List ℝ)) (H : ℕ) (hH : 0 < H) (lr reltol : ℝ) (maxIter : ℕ)
    (rate tol : ℝ) (niter : ℕ) (v : ℝ) (hv : v ≠ 0)
    (rows : List (List ℝ)) (hprep : prepareInput [seg] given = .ok ([rows], 2, [v, -v]))
    (b : ℕ → ℝ) (hb : ∀ n, (rows.getD n []).getD 0 0 = b n ∧ (rows.getD n []).getD 1 0 = b n)
    (i j : ℕ) (hi : i < rows.length) (hj : j < rows.length) (h : 1 / 10 ^ 15 ≤ b i - b j)
    (hvar : 1 / 10 ^ 15 ≤ colMean rows.length fun n => (b n - colMean rows.length b) ^ 2) :
    mlWcalsin solve seg f rate tol niter H false given = none ∧ ∃ r, calibrate solve est [seg] (.scalar f) force given H lr reltol maxIter = .ok r := by
  obtain ⟨p1, p2, p3, p4, p5⟩ := prep_single seg given rows 2 [v, -v] hprep
  have hbits : ((List.range 2).map fun (j : ℕ) => fun (n : ℕ) => (rows.getD n []).getD j 0) = [b, fun n => 1 * b n + 0] := by
    have hr : List.range 2 = [0, 1] := rfl
    rw [hr, List.map_cons, List.map_cons, List.map_nil]
    congr 1
    · funext n; exact (hb n).1
    · congr 1
      funext n
      rw [(hb n).2]
      ring
  constructor
  · unfold mlWcalsin
    simp only
    rw [← p1, ← p2, ← p3, hbits, patch_none rows.length b v (-v) 1 0 0 (by norm_num) i j hi hj h hvar (by
      intro n
      rw [neg_div, div_self hv]
      ring)]
    split_ifs <;> rfl
  · obtain ⟨x, k1, k2, k3⟩ := known_same solve hs rows.length p4 (patchRank rows.length [b, fun n => 1 * b n + 0] [v, -v]).eff f H hH
    obtain ⟨w, hw⟩ := (C38_recover_succeeds rows.length [b, fun n => 1 * b n + 0] [v, -v] (recoverScale x
        (patchRank rows.length [b, fun n => 1 * b n + 0] [v, -v]).eff.length
        (Real.sqrt (1 + x.getD ((patchRank rows.length [b, fun n => 1 * b n + 0] [v, -v]).eff.length + 1 * H) 0 ^ 2))
        ((patchRank rows.length [b, fun n => 1 * b n + 0] [v, -v]).eff.map (colScale rows.length)))
      (by simp [recoverScale])).mpr (Or.inr (by rw [patch_two rows.length b v (-v) 1 0 (by norm_num) i j hi hj h hvar]; simp))
    exact ⟨_, cal_known_open solve est [seg] f hf0.ne' hf force hforce given H lr reltol maxIter rows 2 [v, -v] hprep _ hbits.symm _ rfl x _ k1 w hw⟩

/-! ## Worked cases -/

/-- A two-bit record whose bits are equal. -/
def twinRows : List (List ℝ) := [[1, 1], [1, 1], [0, 0], [0, 0]]

theorem twin_prep (given : Option (List ℝ)) (nominal : List ℝ) (h : nominalWeights 2 given = .ok nominal) :
    prepareInput [twinRows] given = .ok ([twinRows], 2, nominal) := by
  have : orientSegment twinRows = twinRows := by
    unfold orientSegment twinRows
    simp
  unfold twinRows at this ⊢
  simp [prepareInput, stackSegments, this, h]

theorem twin_bits : ((List.range 2).map fun (j : ℕ) => fun (n : ℕ) => (twinRows.getD n []).getD j 0)
    = [fun n => (quarterRows.getD n []).getD 0 0, fun n => 1 * (quarterRows.getD n []).getD 0 0 + 0] := by
  have hr : List.range 2 = [0, 1] := rfl
  rw [hr, List.map_cons, List.map_cons, List.map_nil]
  have key : ∀ n : ℕ, (twinRows.getD n []).getD 0 0 = (quarterRows.getD n []).getD 0 0 ∧ (twinRows.getD n []).getD 1 0 = (quarterRows.getD n []).getD 0 0 := by
    intro n
    rcases n with _ | _ | _ | _ | n <;> simp [twinRows, quarterRows]
  congr 1
  · funext n; exact (key n).1
  · congr 1
    funext n
    rw [(key n).2]
    ring

/-- The record `1, 1, 0, 0` at frequency 1/4 with the search on, learning rates 1/2, two iterations: `wcalsin` returns the frequency 1/4,
`calibrate_weight_sine` returns 3/8. -/
theorem C133_search_differs (solve : Lstsq) (hs : IsLstsq solve) :
    (∃ m, mlWcalsin solve quarterRows (1 / 4) (1 / 2) (1 / 10 ^ 12) 2 1 true none = some m ∧ m.freqcal = 1 / 4) ∧
    ∃ r, calibrate solve [] [quarterRows] (.scalar (1 / 4)) (some true) none 1 (1 / 2) 0 2 = .ok r ∧ r.freq = [3 / 8] := by
  refine ⟨?_, C42_search_leaves_exact_frequency solve hs⟩
  obtain ⟨m, h1, _, h2⟩ := C133_search solve hs quarterRows (1 / 4) (by norm_num) none 1 one_pos (1 / 2) (1 / 10 ^ 12) (by norm_num) (by norm_num)
    (by positivity) 2 two_pos quarterRows 1 [1] quarter_prep [1] rfl (1 / 2) (fun _ => 1 / 2) (fun _ => 1 / 2) quarter_clean (by norm_num) (by
      intro u d e p q hu h
      obtain ⟨x, rfl⟩ := List.length_eq_one_iff.mp hu
      obtain ⟨h0, h1, h2, h3⟩ := quarter_series d p q
      have e0 := h 0 (by simp [quarterRows])
      have e1 := h 1 (by simp [quarterRows])
      have e2 := h 2 (by simp [quarterRows])
      have e3 := h 3 (by simp [quarterRows])
      unfold toneSlope at e0 e1 e2 e3
      rw [sum_range_one, sum_range_one, quarter_cos, quarter_sin] at e0 e1 e2 e3
      rw [h0] at e0
      rw [h1] at e1
      rw [h2] at e2
      rw [h3] at e3
      norm_num [quarterRows] at e0 e1 e2 e3
      have he : e = 0 := by linarith
      subst he
      refine ⟨x, by simp, by linarith, rfl, ?_⟩
      intro k hk
      obtain rfl : k = 0 := by omega
      exact ⟨by linarith, by linarith⟩)
  exact ⟨m, h1, h2⟩

theorem quarter_prod (n : ℕ) : Real.cos (2 * Real.pi * (1 / 4) * n) * Real.sin (2 * Real.pi * (1 / 4) * n) = 0 := by
  have h1 := quarter_cos n
  have h2 := quarter_sin n
  simp only [Nat.cast_zero, zero_add, mul_one] at h1 h2
  rw [h1, h2]
  split_ifs <;> first | omega | simp

/-- A record that no tone of frequency 1/4 fits. -/
def roughRows : List (List ℝ) := [[1], [1], [0], [0], [0], [1]]

theorem rough_prep : prepareInput [roughRows] none = .ok ([roughRows], 1, [1]) := by
  have : orientSegment roughRows = roughRows := by
    unfold orientSegment roughRows
    simp
  unfold roughRows at this ⊢
  simp [prepareInput, stackSegments, this, nominalWeights]

example (solve : Lstsq) (hs : IsLstsq solve) : ∃ r m, calibrate solve [] [roughRows] (.scalar (1 / 4)) none none 1 (1 / 2) 0 2 = .ok r ∧
    mlWcalsin solve roughRows (1 / 4) (1 / 2) (1 / 10 ^ 12) 100 1 false none = some m ∧ SameCal m r :=
  C133_same solve hs [] roughRows (1 / 4) (by norm_num) (by norm_num) none (by simp) none 1 one_pos (1 / 2) 0 2 (1 / 2) (1 / 10 ^ 12) (by norm_num)
    (by norm_num) (by positivity) 100 (by norm_num) roughRows 1 [1] rough_prep (by
      intro u d p q hu _ h
      obtain ⟨x, rfl⟩ := List.length_eq_one_iff.mp hu
      have e0 := h 0 (by simp [roughRows])
      have e1 := h 1 (by simp [roughRows])
      have e2 := h 2 (by simp [roughRows])
      have e3 := h 3 (by simp [roughRows])
      have e4 := h 4 (by simp [roughRows])
      have e5 := h 5 (by simp [roughRows])
      unfold harmonicSeries at e0 e1 e2 e3 e4 e5
      rw [sum_range_one, sum_range_one, quarter_cos, quarter_sin] at e0 e1 e2 e3 e4 e5
      norm_num [roughRows] at e0 e1 e2 e3 e4 e5
      refine ⟨?_, by linarith, ?_⟩
      · intro k hk
        obtain rfl : k = 0 := by omega
        change x = 0
        linarith
      · intro k hk
        obtain rfl : k = 0 := by omega
        exact ⟨by linarith, by linarith⟩)
    (le_of_eq (sum_eq_zero fun n _ => quarter_prod n)) (by
      refine ⟨[13 / 12], 1 / 3, fun _ => 1 / 4, fun _ => 1, rfl, ?_⟩
      intro u' d' p' q' hu' hp'
      obtain ⟨x, rfl⟩ := List.length_eq_one_iff.mp hu'
      rw [show roughRows.length = 6 from rfl]
      simp only [harmonicSeries, sum_range_one, quarter_cos, quarter_sin, hp']
      simp only [sum_range_succ, range_zero, sum_empty]
      norm_num [roughRows]
      nlinarith [sq_nonneg d', sq_nonneg (x - d' - 1), sq_nonneg (x - (d' + q' 0)), sq_nonneg (-d' + q' 0), sq_nonneg (d' + -q' 0)])

example (solve : Lstsq) (hs : IsLstsq solve) : ∃ r m, calibrate solve [] [quarterRows] (.scalar (1 / 4)) none none 1 (1 / 2) 0 2 = .ok r ∧
    mlWcalsin solve quarterRows (1 / 4) (1 / 2) (1 / 10 ^ 12) 100 1 false none = some m ∧ SameCal m r :=
  C133_same_clean solve hs [] quarterRows (1 / 4) (by norm_num) (by norm_num) none (by simp) none 1 one_pos (1 / 2) 0 2 (1 / 2) (1 / 10 ^ 12) (by norm_num)
    (by norm_num) (by positivity) 100 (by norm_num) quarterRows 1 [1] quarter_prep [1] rfl (1 / 2) (fun _ => 1 / 2) (fun _ => 1 / 2) quarter_clean
    (by norm_num) quarter_only

theorem twin_var (v : ℝ) : let b : ℕ → ℝ := fun n => (quarterRows.getD n []).getD 0 0
    1 / 10 ^ 15 ≤ colMean 4 fun n => (b n - colMean 4 b) ^ 2 := by
  simp only [colMean, sum_range_succ, range_zero, sum_empty, quarterRows]
  norm_num

example (solve : Lstsq) (hs : IsLstsq solve) : mlWcalsin solve twinRows (1 / 4) (1 / 2) (1 / 10 ^ 12) 100 1 false (some [1, -1]) = none ∧
    ∃ r, calibrate solve [] [twinRows] (.scalar (1 / 4)) none (some [1, -1]) 1 (1 / 2) 0 2 = .ok r :=
  C133_rank_check_call solve hs [] twinRows (1 / 4) (by norm_num) (by norm_num) none (by simp) (some [1, -1]) 1 one_pos (1 / 2) 0 2 (1 / 2)
    (1 / 10 ^ 12) 100 1 one_ne_zero twinRows (twin_prep _ _ (by simp [nominalWeights])) (fun n => (quarterRows.getD n []).getD 0 0) (by
      intro n
      rcases n with _ | _ | _ | _ | n <;> simp [twinRows, quarterRows]) 0 2 (by simp [twinRows]) (by simp [twinRows]) (by norm_num [quarterRows])
    (twin_var 1)

/-- Two equal bits, default nominal weights: both programs merge them and agree. -/
example (solve : Lstsq) (hs : IsLstsq solve) : ∃ r m, calibrate solve [] [twinRows] (.scalar (1 / 4)) none none 1 (1 / 2) 0 2 = .ok r ∧
    mlWcalsin solve twinRows (1 / 4) (1 / 2) (1 / 10 ^ 12) 100 1 false none = some m ∧ SameCal m r := by
  set b : ℕ → ℝ := fun n => (quarterRows.getD n []).getD 0 0 with hb
  have hl : twinRows.length = 4 := rfl
  have hdiff : 1 / 10 ^ 15 ≤ b 0 - b 2 := by norm_num [hb, quarterRows]
  have hpatch := patch_two 4 b 2 1 1 0 (by norm_num) 0 2 (by norm_num) (by norm_num) hdiff (twin_var 1)
  have hsq : colStd 4 b * colStd 4 b = colMean 4 fun n => (b n - colMean 4 b) ^ 2 := by
    have := twin_var 1
    exact Real.mul_self_sqrt (by linarith [show (0 : ℝ) < 1 / 10 ^ 15 by positivity])
  have hsame : (fun n => 1 * b n + 0) = b := by funext n; ring
  refine C133_same_patched solve hs [] twinRows (1 / 4) (by norm_num) (by norm_num) none (by simp) none 1 one_pos (1 / 2) 0 2 (1 / 2) (1 / 10 ^ 12)
    (by norm_num) (by norm_num) (by positivity) 100 (by norm_num) twinRows 2 [2, 1] (twin_prep _ _ (by simp [nominalWeights, List.range_succ]))
    [b, fun n => 1 * b n + 0] twin_bits.symm ?_ ?_ ?_ ?_ (le_of_eq (sum_eq_zero fun n _ => quarter_prod n)) ?_
  · intro k hk _
    have hk : k < 2 := hk
    interval_cases k
    · exact ⟨0, by simp [twinRows], 2, by simp [twinRows], hdiff⟩
    · refine ⟨0, by simp [twinRows], 2, by simp [twinRows], ?_⟩
      rw [hsame]
      exact hdiff
  · intro k hk e he hcon
    have hk : k < 2 := hk
    interval_cases k
    · unfold patchBefore at he
      simp at he
    · have hone : patchBefore 4 [b, fun n => 1 * b n + 0] [2, 1] 1 = { eff := [b], founders := [0], links := [(0, 1)] } :=
        step_first 4 [b, fun n => 1 * b n + 0] [2, 1] 0 2 (by norm_num) (by norm_num) hdiff
      rw [hl, hone] at he
      obtain rfl : e = b := by simpa using he
      have h2 : colStd 4 (fun n => 1 * b n + 0) * colStd 4 b < 1 / 10 ^ 15 := hcon.2
      rw [hsame, hsq] at h2
      exact absurd h2 (not_lt.mpr (twin_var 1))
  · rw [hl, hpatch]
    simp
  · intro sine
    rw [hl, hpatch]
    intro u d p q hu hz h
    obtain ⟨x, rfl⟩ := List.length_eq_one_iff.mp (show u.length = 1 from hu)
    have hm : ∀ n, matVec [fun n => b n + (1 * b n + 0) * (1 / 2)] [x] n = x * (b n + (1 * b n + 0) * (1 / 2)) := by
      intro n
      simp [matVec]
    obtain ⟨h0, h1, h2, h3⟩ := quarter_series d p q
    have e0 := h 0 (by norm_num)
    have e1 := h 1 (by norm_num)
    have e2 := h 2 (by norm_num)
    have e3 := h 3 (by norm_num)
    rw [hm, h0] at e0
    rw [hm, h1] at e1
    rw [hm, h2] at e2
    rw [hm, h3] at e3
    norm_num [hb, quarterRows] at e0 e1 e2 e3
    have hpq : p 0 = 0 ∧ q 0 = 0 := by
      cases sine
      · have : p 0 = 0 := hz
        exact ⟨this, by linarith⟩
      · have : q 0 = 0 := hz
        exact ⟨by linarith, this⟩
    refine ⟨?_, by linarith [hpq.1], ?_⟩
    · intro k hk
      have hk : k < 1 := hk
      obtain rfl : k = 0 := by omega
      change x = 0
      linarith [hpq.1, hpq.2]
    · intro k hk
      obtain rfl : k = 0 := by omega
      exact hpq
  · rw [hl, hpatch]
    refine ⟨[4 / 3], 1, fun _ => 1, fun _ => 1, rfl, ?_⟩
    intro u' d' p' q' _ _
    refine le_trans (le_of_eq ?_) (sum_nonneg fun n _ => sq_nonneg _)
    unfold toneGap
    obtain ⟨h0, h1, h2, h3⟩ := quarter_series 1 (fun _ => 1) (fun _ => 1)
    simp only [sum_range_succ, range_zero, sum_empty, h0, h1, h2, h3, matVec, List.length_singleton]
    norm_num [hb, quarterRows]

/-- Eight samples, two periods, the bit even about the first sample. -/
def evenRows : List (List ℝ) := [[1], [1], [0], [0], [0], [0], [0], [1]]

theorem even_prep : prepareInput [evenRows] none = .ok ([evenRows], 1, [1]) := by
  have : orientSegment evenRows = evenRows := by
    unfold orientSegment evenRows
    simp
  unfold evenRows at this ⊢
  simp [prepareInput, stackSegments, this, nominalWeights]

example (solve : Lstsq) (hs : IsLstsq solve) : ∃ r m, calibrate solve [] [evenRows] (.scalar (1 / 4)) none none 1 (1 / 2) 0 2 = .ok r ∧
    mlWcalsin solve evenRows (1 / 4) (1 / 2) (1 / 10 ^ 12) 100 1 false none = some m ∧ (∀ v ∈ m.weight, v = 0) ∧ m.offset = 0 ∧ ∃ v ∈ r.weight, v ≠ 0 :=
  C133_cosine_phase solve hs [] evenRows 2 two_pos none (by simp) none (1 / 2) 0 2 (1 / 2) (1 / 10 ^ 12) (by norm_num) (by norm_num) (by positivity) 100
    (by norm_num) evenRows 1 [1] even_prep (by simp [evenRows]) (1 / 4) (by norm_num [evenRows]) (by
      intro j hj n hn hnN
      obtain rfl : j = 0 := by omega
      have hnN : n < 8 := hnN
      interval_cases n <;> simp [evenRows]) ⟨0, one_pos, by
      have h1 := quarter_cos
      simp only [Nat.cast_zero, zero_add, mul_one] at h1
      rw [show evenRows.length = 8 from rfl]
      simp only [h1, sum_range_succ, range_zero, sum_empty]
      norm_num [evenRows]⟩ (by
      intro u d p q hu _ h
      obtain ⟨x, rfl⟩ := List.length_eq_one_iff.mp hu
      have e0 := h 0 (by simp [evenRows])
      have e1 := h 1 (by simp [evenRows])
      have e2 := h 2 (by simp [evenRows])
      have e3 := h 3 (by simp [evenRows])
      have e4 := h 4 (by simp [evenRows])
      unfold harmonicSeries at e0 e1 e2 e3 e4
      rw [sum_range_one, sum_range_one, quarter_cos, quarter_sin] at e0 e1 e2 e3 e4
      norm_num [evenRows] at e0 e1 e2 e3 e4
      refine ⟨?_, by linarith, ?_⟩
      · intro k hk
        obtain rfl : k = 0 := by omega
        change x = 0
        linarith
      · intro k hk
        obtain rfl : k = 0 := by omega
        exact ⟨by linarith, by linarith⟩)

end Verif
