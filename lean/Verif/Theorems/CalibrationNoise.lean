import Verif.Theorems.CalibrationLayout
import Mathlib.Analysis.Normed.Module.FiniteDimension

/-!
# C101: calibration at a known frequency on data with noise
-/

namespace Verif

open Model Finset

/-- What remains of the weighted output after an offset and `H` harmonics. -/
noncomputable def Spec.misfit (bits : ℕ → ℕ → ℝ) (W : ℕ) (f : ℝ) (H : ℕ) (w : ℕ → ℝ) (c : ℝ) (a b : ℕ → ℝ) (n : ℕ) : ℝ :=
  ∑ j ∈ range W, w j * bits j n -
    (c + ∑ h ∈ range H, (a h * Real.cos (2 * Real.pi * f * ((n : ℝ) * ((h : ℝ) + 1))) + b h * Real.sin (2 * Real.pi * f * ((n : ℝ) * ((h : ℝ) + 1)))))

/-- Only the zero combination of bits, offset and harmonics vanishes on the record when its fundamental is in quadrature to phase `φ`. -/
def Spec.Pinned (N : ℕ) (bits : ℕ → ℕ → ℝ) (W : ℕ) (f : ℝ) (H : ℕ) (φ : ℝ) : Prop :=
  ∀ (w : ℕ → ℝ) (c : ℝ) (a b : ℕ → ℝ), (∀ n < N, Spec.misfit bits W f H w c a b n = 0) → a 0 * Real.cos φ + b 0 * Real.sin φ = 0 →
    (∀ j < W, w j = 0) ∧ c = 0 ∧ ∀ h < H, a h = 0 ∧ b h = 0

theorem misfit_add (bits : ℕ → ℕ → ℝ) (W : ℕ) (f : ℝ) (H : ℕ) (w w' : ℕ → ℝ) (c c' : ℝ) (a a' b b' : ℕ → ℝ) (t : ℝ) (n : ℕ) :
    Spec.misfit bits W f H (fun j => w j - t * w' j) (c - t * c') (fun h => a h - t * a' h) (fun h => b h - t * b' h) n =
      Spec.misfit bits W f H w c a b n - t * Spec.misfit bits W f H w' c' a' b' n := by
  unfold Spec.misfit
  have e1 : ∑ j ∈ range W, (w j - t * w' j) * bits j n = ∑ j ∈ range W, w j * bits j n - t * ∑ j ∈ range W, w' j * bits j n := by
    rw [mul_sum, ← sum_sub_distrib]
    exact sum_congr rfl fun j _ => by ring
  have e2 : ∑ h ∈ range H, ((a h - t * a' h) * Real.cos (2 * Real.pi * f * ((n : ℝ) * ((h : ℝ) + 1))) + (b h - t * b' h) * Real.sin (2 * Real.pi * f * ((n : ℝ) * ((h : ℝ) + 1)))) =
      ∑ h ∈ range H, (a h * Real.cos (2 * Real.pi * f * ((n : ℝ) * ((h : ℝ) + 1))) + b h * Real.sin (2 * Real.pi * f * ((n : ℝ) * ((h : ℝ) + 1)))) -
      t * ∑ h ∈ range H, (a' h * Real.cos (2 * Real.pi * f * ((n : ℝ) * ((h : ℝ) + 1))) + b' h * Real.sin (2 * Real.pi * f * ((n : ℝ) * ((h : ℝ) + 1)))) := by
    rw [mul_sum, ← sum_sub_distrib]
    exact sum_congr rfl fun j _ => by ring
  rw [e1, e2]
  ring

/-- A pinned record bounds every coefficient by the misfit and the in-phase fundamental. -/
private theorem pin_bound (N : ℕ) (bits : ℕ → ℕ → ℝ) (W : ℕ) (f : ℝ) (H : ℕ) (hH : 0 < H) (φ : ℝ) (hpin : Spec.Pinned N bits W f H φ) :
    ∃ K : ℝ, 0 < K ∧ ∀ (w : ℕ → ℝ) (c : ℝ) (a b : ℕ → ℝ) (S : ℝ), 0 ≤ S → (∀ n < N, |Spec.misfit bits W f H w c a b n| ≤ S) →
      a 0 * Real.cos φ + b 0 * Real.sin φ = 0 → (∀ j < W, |w j| ≤ K * S) ∧ |c| ≤ K * S ∧ ∀ h < H, |a h| ≤ K * S ∧ |b h| ≤ K * S := by
  let L : ((Fin W → ℝ) × ℝ × (Fin H → ℝ) × (Fin H → ℝ)) →ₗ[ℝ] (Fin N → ℝ) × ℝ :=
    { toFun := fun v => (fun n => ∑ j : Fin W, v.1 j * bits j n - (v.2.1 + ∑ h : Fin H, (v.2.2.1 h * Real.cos (2 * Real.pi * f * ((n : ℝ) * ((h : ℝ) + 1)))
        + v.2.2.2 h * Real.sin (2 * Real.pi * f * ((n : ℝ) * ((h : ℝ) + 1))))), v.2.2.1 ⟨0, hH⟩ * Real.cos φ + v.2.2.2 ⟨0, hH⟩ * Real.sin φ)
      map_add' := by
        intro v w
        ext n
        · simp [add_mul, sum_add_distrib]
          ring
        · simp
          ring
      map_smul' := by
        intro t v
        ext n
        · simp [mul_sum, mul_add, mul_sub, mul_assoc]
        · simp
          ring }
  have hconv : ∀ (w : ℕ → ℝ) (c : ℝ) (a b : ℕ → ℝ) (n : Fin N), (L (fun j => w j, c, fun h => a h, fun h => b h)).1 n = Spec.misfit bits W f H w c a b n := by
    intro w c a b n
    show ∑ j : Fin W, w j * bits j n - (c + ∑ h : Fin H, (a h * Real.cos (2 * Real.pi * f * ((n : ℝ) * ((h : ℝ) + 1)))
        + b h * Real.sin (2 * Real.pi * f * ((n : ℝ) * ((h : ℝ) + 1))))) = _
    rw [Fin.sum_univ_eq_sum_range (fun j => w j * bits j n) W, Fin.sum_univ_eq_sum_range (fun h => a h * Real.cos (2 * Real.pi * f * ((n : ℝ) * ((h : ℝ) + 1)))
        + b h * Real.sin (2 * Real.pi * f * ((n : ℝ) * ((h : ℝ) + 1)))) H]
    rfl
  have hinj : Function.Injective L := by
    rw [← LinearMap.ker_eq_bot, LinearMap.ker_eq_bot']
    rintro ⟨w, c, a, b⟩ hv
    set w' : ℕ → ℝ := fun j => if h : j < W then w ⟨j, h⟩ else 0 with hw'
    set a' : ℕ → ℝ := fun j => if h : j < H then a ⟨j, h⟩ else 0 with ha'
    set b' : ℕ → ℝ := fun j => if h : j < H then b ⟨j, h⟩ else 0 with hb'
    have ew : (fun j : Fin W => w' j) = w := by funext j; simp [hw']
    have ea : (fun j : Fin H => a' j) = a := by funext j; simp [ha']
    have eb : (fun j : Fin H => b' j) = b := by funext j; simp [hb']
    obtain ⟨h1, h2, h3⟩ := hpin w' c a' b' (by
      intro n hn
      rw [← hconv _ _ _ _ ⟨n, hn⟩, ew, ea, eb, hv]
      rfl) (by
      have := congrArg Prod.snd hv
      have e1 : a' 0 = a ⟨0, hH⟩ := by rw [ha']; simp [hH]
      have e2 : b' 0 = b ⟨0, hH⟩ := by rw [hb']; simp [hH]
      rw [e1, e2]
      exact this)
    refine Prod.ext ?_ (Prod.ext h2 (Prod.ext ?_ ?_))
    · rw [← ew]; funext j; exact h1 j j.2
    · rw [← ea]; funext j; exact (h3 j j.2).1
    · rw [← eb]; funext j; exact (h3 j j.2).2
  obtain ⟨K, hK0, hK⟩ := L.injective_iff_antilipschitz.mp hinj
  refine ⟨K, by exact_mod_cast hK0, ?_⟩
  intro w c a b S hS hb hpiv
  have h1 := hK.le_mul_dist (fun j : Fin W => w j, c, fun h : Fin H => a h, fun h : Fin H => b h) 0
  rw [map_zero, dist_zero_right, dist_zero_right] at h1
  have h2 : ‖L (fun j : Fin W => w j, c, fun h : Fin H => a h, fun h : Fin H => b h)‖ ≤ S := by
    rw [Prod.norm_def, sup_le_iff, pi_norm_le_iff_of_nonneg hS]
    refine ⟨fun n => ?_, ?_⟩
    · rw [hconv, Real.norm_eq_abs]
      exact hb n n.2
    · show ‖a 0 * Real.cos φ + b 0 * Real.sin φ‖ ≤ S
      rw [hpiv, norm_zero]
      exact hS
  have h3 : ‖((fun j : Fin W => w j, c, fun h : Fin H => a h, fun h : Fin H => b h) : (Fin W → ℝ) × ℝ × (Fin H → ℝ) × (Fin H → ℝ))‖ ≤ K * S :=
    le_trans h1 (mul_le_mul_of_nonneg_left h2 K.2)
  have hKS : 0 ≤ K * S := mul_nonneg K.2 hS
  rw [Prod.norm_def, sup_le_iff, Prod.norm_def, sup_le_iff, Prod.norm_def, sup_le_iff] at h3
  obtain ⟨n1, n2, n3, n4⟩ := h3
  simp only at n1 n2 n3 n4
  rw [pi_norm_le_iff_of_nonneg hKS] at n1 n3 n4
  exact ⟨fun j hj => n1 ⟨j, hj⟩, n2, fun h hh => ⟨n3 ⟨h, hh⟩, n4 ⟨h, hh⟩⟩⟩

/-- The known-frequency solve for one dataset keeps the design with the smaller residual. -/
private theorem solveKnown_best (solve : Lstsq) (N : ℕ) (cols : List (ℕ → ℝ)) (f : ℝ) (H : ℕ) (hH : 0 < H) :
    ∃ choice, (choice = 0 ∨ choice = 1) ∧
      solveKnown solve [N] cols [f] H = .ok (solve N (designOne N cols f H choice).1 (designOne N cols f H choice).2, choice) ∧
      ∀ ch, ch = 0 ∨ ch = 1 →
        residNorm N (designOne N cols f H choice).1 (solve N (designOne N cols f H choice).1 (designOne N cols f H choice).2) (designOne N cols f H choice).2 ≤
        residNorm N (designOne N cols f H ch).1 (solve N (designOne N cols f H ch).1 (designOne N cols f H ch).2) (designOne N cols f H ch).2 := by
  unfold solveKnown dualBasis
  have hsum : [N].sum = N := by simp
  rw [cosCols_cons N f H hH, sinCols_cons N f H hH, hsum, offsetCols_one]
  simp only [List.append_nil]
  rw [← cosCols_cons N f H hH, ← sinCols_cons N f H hH, cosCols_all, sinCols_all]
  have d0 : designOne N cols f H 0 = (cols ++ [fun n => if n < N then 1 else 0] ++ (List.range (H - 1)).map (fun h => cosOne N f (h + 1)) ++ (List.range H).map (sinOne N f),
      fun n => -cosOne N f 0 n) := by unfold designOne; rw [if_pos rfl]
  have d1 : designOne N cols f H 1 = (cols ++ [fun n => if n < N then 1 else 0] ++ (List.range (H - 1)).map (fun h => sinOne N f (h + 1)) ++ (List.range H).map (cosOne N f),
      fun n => -sinOne N f 0 n) := by unfold designOne; rw [if_neg one_ne_zero]
  split_ifs with hlt
  · refine ⟨0, Or.inl rfl, by rw [d0], ?_⟩
    rintro ch (rfl | rfl)
    · exact le_refl _
    · rw [d0, d1]; exact hlt.le
  · refine ⟨1, Or.inr rfl, by rw [d1], ?_⟩
    rintro ch (rfl | rfl)
    · rw [d0, d1]; exact not_lt.mp hlt
    · exact le_refl _

/-- The harmonic coefficients of a fitted vector: the unit coefficient on the reference side. -/
private noncomputable def sides (choice : ℕ) (ut o : List ℝ) : List ℝ × List ℝ := if choice = 0 then (1 :: ut, o) else (o, 1 :: ut)

/-- A fit vector leaves the weighted columns plus a harmonic series. -/
private theorem design_value (N : ℕ) (cols : List (ℕ → ℝ)) (f : ℝ) (H : ℕ) (hH : 0 < H) (choice : ℕ) (z ut o : List ℝ) (v : ℝ) (hz : z.length = cols.length)
    (hut : ut.length = H - 1) (n : ℕ) (hn : n < N) :
    matVec (designOne N cols f H choice).1 (z ++ [v] ++ ut ++ o) n - (designOne N cols f H choice).2 n =
      matVec cols z n + harmonicSeries f H v (fun h => (sides choice ut o).1.getD h 0) (fun h => (sides choice ut o).2.getD h 0) n := by
  have hone : matVec [fun n => if n < N then (1 : ℝ) else 0] [v] n = v := by unfold matVec; simp [hn]
  have hstep : ∀ (ct ot : List (ℕ → ℝ)), ct.length = H - 1 →
      matVec (cols ++ [fun n => if n < N then (1 : ℝ) else 0] ++ ct ++ ot) (z ++ [v] ++ ut ++ o) n = matVec cols z n + v + matVec ct ut n + matVec ot o n := by
    intro ct ot hc
    rw [matVec_append' _ _ _ _ _ (by simp only [List.length_append, List.length_singleton]; omega),
      matVec_append' _ _ _ _ _ (by simp only [List.length_append, List.length_singleton]; omega), matVec_append' _ _ _ _ _ hz, hone]
  rw [← series_eq N f H _ _ n hn]
  unfold designOne sides
  by_cases hc : choice = 0
  · rw [if_pos hc, if_pos hc]
    simp only
    rw [hstep _ _ (by rw [List.length_map, List.length_range]), cosCols_cons N f H hH, sinCols_all, matVec_cons]
    ring
  · rw [if_neg hc, if_neg hc]
    simp only
    rw [hstep _ _ (by rw [List.length_map, List.length_range]), cosCols_all, sinCols_cons N f H hH, matVec_cons]
    ring

private theorem misfit_eq (rows : List (List ℝ)) (W : ℕ) (f : ℝ) (H : ℕ) (w : List ℝ) (c : ℝ) (a b : ℕ → ℝ) (n : ℕ) :
    matVec ((List.range W).map fun (j : ℕ) => fun (n : ℕ) => (rows.getD n []).getD j 0) w n - harmonicSeries f H c a b n =
      Spec.misfit (fun j n => (rows.getD n []).getD j 0) W f H (fun j => w.getD j 0) c a b n := by
  rw [matVec_range]
  rfl

/-- The fit behind the result, whatever the data: the error waveform is the misfit of the reported weights and offset with some harmonics of
unit fundamental, and no other choice of weights, offset and harmonics does better at the same cosine (or sine) part of the fundamental. The
number `κ` is the squared norm by which the fitted vector is divided. -/
theorem calibrate_fit (solve : Lstsq) (hs : IsLstsq solve) (est : List ℝ) (segs : List (List (List ℝ))) (f : ℝ) (hf0 : f ≠ 0)
    (hf : f ≤ 1 / 2) (force : Option Bool) (hforce : force ≠ some true) (given : Option (List ℝ)) (H : ℕ) (hH : 0 < H) (lr reltol : ℝ) (maxIter : ℕ)
    (rows : List (List ℝ)) (width : ℕ) (nominal : List ℝ) (hprep : prepareInput segs given = .ok ([rows], width, nominal))
    (hrank : width + 1 ≤ rankOf rows.length (((List.range width).map fun (j : ℕ) => fun (n : ℕ) => (rows.getD n []).getD j 0) ++ [fun _ => 1])) :
    ∃ (r : CalResult) (p q : ℕ → ℝ), calibrate solve est segs (.scalar f) force given H lr reltol maxIter = .ok r ∧ r.weight.length = width ∧
      p 0 ^ 2 + q 0 ^ 2 = 1 ∧ 0 ≤ r.weight.sum ∧
      r.resid = [(List.range rows.length).map fun n => Spec.misfit (fun j n => (rows.getD n []).getD j 0) width f H (fun j => r.weight.getD j 0) r.offset p q n] ∧
      (∀ (w : ℕ → ℝ) (c : ℝ) (a b : ℕ → ℝ),
        a 0 ^ 2 * ∑ n ∈ range rows.length, Spec.misfit (fun j n => (rows.getD n []).getD j 0) width f H (fun j => r.weight.getD j 0) r.offset p q n ^ 2 ≤
          ∑ n ∈ range rows.length, Spec.misfit (fun j n => (rows.getD n []).getD j 0) width f H w c a b n ^ 2 ∧
        b 0 ^ 2 * ∑ n ∈ range rows.length, Spec.misfit (fun j n => (rows.getD n []).getD j 0) width f H (fun j => r.weight.getD j 0) r.offset p q n ^ 2 ≤
          ∑ n ∈ range rows.length, Spec.misfit (fun j n => (rows.getD n []).getD j 0) width f H w c a b n ^ 2) ∧
      ∃ κ : ℝ, 1 ≤ κ ∧ (κ * p 0 ^ 2 = 1 ∨ κ * q 0 ^ 2 = 1) ∧ ∀ (w : ℕ → ℝ) (c : ℝ) (a b : ℕ → ℝ),
        κ * a 0 ^ 2 * ∑ n ∈ range rows.length, Spec.misfit (fun j n => (rows.getD n []).getD j 0) width f H (fun j => r.weight.getD j 0) r.offset p q n ^ 2 ≤
          ∑ n ∈ range rows.length, Spec.misfit (fun j n => (rows.getD n []).getD j 0) width f H w c a b n ^ 2 ∧
        κ * b 0 ^ 2 * ∑ n ∈ range rows.length, Spec.misfit (fun j n => (rows.getD n []).getD j 0) width f H (fun j => r.weight.getD j 0) r.offset p q n ^ 2 ≤
          ∑ n ∈ range rows.length, Spec.misfit (fun j n => (rows.getD n []).getD j 0) width f H w c a b n ^ 2 := by
  set N := rows.length with hN
  set bits := (List.range width).map fun (j : ℕ) => fun (n : ℕ) => (rows.getD n []).getD j 0 with hbits
  have hbl : bits.length = width := by rw [hbits]; simp
  rw [← hbl] at hrank
  have heff : (patchRank N bits nominal).eff = bits := by unfold patchRank; rw [if_pos hrank]
  set cols := scaleCols N bits with hcols
  have hcl : cols.length = width := by rw [hcols]; simp [scaleCols, hbl]
  obtain ⟨choice, hch, hsol, hbest⟩ := solveKnown_best solve N cols f H hH
  set A := (designOne N cols f H choice).1 with hA
  set rhs := (designOne N cols f H choice).2 with hrhs
  set x := solve N A rhs with hx
  have hxl : x.length = width + 1 + (H - 1) + H := by
    rw [hx, hs.len, hA]
    unfold designOne
    split_ifs <;> simp only [List.length_append, List.length_singleton, List.length_map, List.length_range, hcl]
  set norm := Real.sqrt (1 + x.getD (width + 1 * H) 0 ^ 2) with hnorm
  have hn1 : 1 ≤ norm := by
    rw [hnorm]
    calc (1 : ℝ) = Real.sqrt 1 := Real.sqrt_one.symm
      _ ≤ _ := Real.sqrt_le_sqrt (by linarith [sq_nonneg (x.getD (width + 1 * H) 0)])
  have hnpos : 0 < norm := by linarith
  have hnsq : norm ^ 2 = 1 + x.getD (width + 1 * H) 0 ^ 2 := Real.sq_sqrt (by positivity)
  set u := recoverScale x width norm (bits.map (colScale N)) with hu
  have hul : u.length = width := by rw [hu]; simp [recoverScale]
  obtain ⟨_, hrec⟩ := patch_full N bits nominal hrank u (by rw [hul, hbl])
  -- the fitted vector in parts
  have hsplit := list_split x (width + 1) (H - 1) H hxl
  set ut := slice x (width + 1) (width + 1 + (H - 1)) with hut
  set o := slice x (width + 1 + (H - 1)) (width + 1 + (H - 1) + H) with ho
  have hutl : ut.length = H - 1 := by rw [hut, slice_length]; omega
  have hol : o.length = H := by rw [ho, slice_length]; omega
  have hzl : (x.take (width + 1)).length = width + 1 := by rw [List.length_take]; omega
  have hz2 := split_last (x.take (width + 1)) width hzl
  rw [List.take_take, min_eq_left (by omega), getD_take_list _ _ _ _ (by omega)] at hz2
  have hx4 : x = x.take width ++ [x.getD width 0] ++ ut ++ o := by
    conv_lhs => rw [hsplit, hz2]
  have ho0 : o.getD 0 0 = x.getD (width + 1 * H) 0 := by
    conv_rhs => rw [hsplit]
    have : width + 1 * H = (x.take (width + 1) ++ ut).length + 0 := by rw [List.length_append, hzl, hutl]; omega
    rw [this, getD_append_right_list]
  set v := x.getD width 0 with hv
  set P := (sides choice ut o).1 with hPd
  set Q := (sides choice ut o).2 with hQd
  -- value of the fit
  have hval : ∀ n < N, matVec A x n - rhs n = matVec cols x n + harmonicSeries f H v (fun h => P.getD h 0) (fun h => Q.getD h 0) n := by
    intro n hn
    have := design_value N cols f H hH choice (x.take width) ut o v (by rw [List.length_take, hcl]; omega) hutl n hn
    rw [← hx4] at this
    rw [hA, hrhs, this]
    congr 1
    apply matVec_congr
    intro j hj
    rw [getD_take_list _ _ _ _ (by omega)]
  have hwt : ∀ n, matVec bits u n = matVec cols x n / norm := by
    intro n
    rw [hu, ← hbl, C39_scaling_undone, ← hcols]
  have hser : ∀ (t d : ℝ) (a b : ℕ → ℝ) (n : ℕ), harmonicSeries f H (t * d) (fun h => t * a h) (fun h => t * b h) n = t * harmonicSeries f H d a b n := by
    intro t d a b n
    unfold harmonicSeries
    rw [mul_add, mul_sum]
    congr 1
    exact sum_congr rfl fun h _ => by ring
  generalize hpol : (if u.sum < 0 then (-1 : ℝ) else 1) = pol
  have hp2 : pol ^ 2 = 1 := by rw [← hpol]; split_ifs <;> norm_num
  -- reported weights, offset and harmonics
  have hrecon : ∀ n < N, reconstructSine [N] [f] width H x choice norm 0 n = -harmonicSeries f H 0 (fun h => P.getD h 0) (fun h => Q.getD h 0) n / norm := by
    intro n hn
    have hx1 : x = (x.take (width + 1) ++ ut ++ o).map (fun v => 1 * v) := by rw [← hsplit]; simp
    conv_lhs => rw [hx1]
    rw [reconstruct_one N f width H hH _ ut o 1 1 norm choice n hzl (by omega) hol (by norm_num), one_mul, ← series_eq N f H _ _ n hn, hPd, hQd]
    unfold sides
    split_ifs <;> ring_nf
  have hcal : calibrate solve est segs (.scalar f) force given H lr reltol maxIter = .ok (postProcess [N] [f] bits u width H x choice norm) := by
    unfold calibrate
    rw [if_neg (by
      rintro ⟨f', hf', h⟩
      simp only [FreqArg.values, List.mem_singleton] at hf'
      rw [hf'] at h
      exact absurd h (not_lt.mpr hf)), hprep]
    simp only [List.map_cons, List.map_nil, List.flatten_cons, List.flatten_nil, List.append_nil, List.sum_cons, List.sum_nil, add_zero,
      List.length_singleton]
    rw [← hbits, ← hN, heff]
    simp only [estimateFrequencies, if_neg hf0, FreqArg.values, List.replicate_one]
    have hsearch : searchWanted force [f] [f] = false := by
      unfold searchWanted
      rw [Bool.or_eq_false_iff]
      refine ⟨?_, decide_eq_false (by
        rintro ⟨y, hy, h0⟩
        rw [List.mem_singleton] at hy
        exact hf0 (hy ▸ h0))⟩
      cases force with
      | none => exact decide_eq_false (by simp [hf0])
      | some v => cases v with
        | false => rfl
        | true => exact absurd rfl hforce
    rw [← hcols]
    simp only [hsearch, Bool.false_eq_true, if_false, hsol]
    rw [hbl, ← hnorm, ← hu, hrec]
  have hWt : (postProcess [N] [f] bits u width H x choice norm).weight = u.map fun v => v * pol := by
    unfold postProcess
    simp only [hpol]
  have hOff : (postProcess [N] [f] bits u width H x choice norm).offset = -v / norm * pol := by
    unfold postProcess
    simp only [hpol]
    rfl
  have hWg : ∀ n, matVec bits (u.map fun v => v * pol) n = pol * matVec bits u n := by
    intro n
    rw [← matVec_smul]
    congr 1
    exact List.map_congr_left fun v _ => mul_comm _ _
  set p : ℕ → ℝ := fun h => -pol / norm * P.getD h 0 with hp
  set q : ℕ → ℝ := fun h => -pol / norm * Q.getD h 0 with hq
  have hmis : ∀ n < N, Spec.misfit (fun j n => (rows.getD n []).getD j 0) width f H (fun j => (u.map fun v => v * pol).getD j 0) (-v / norm * pol) p q n =
      pol / norm * (matVec A x n - rhs n) := by
    intro n hn
    rw [← misfit_eq, ← hbits, hWg, hwt, hval n hn]
    have := hser (-pol / norm) v (fun h => P.getD h 0) (fun h => Q.getD h 0) n
    rw [hp, hq, show -v / norm * pol = -pol / norm * v by ring, this]
    ring
  have hsum : norm ^ 2 * ∑ n ∈ range N, Spec.misfit (fun j n => (rows.getD n []).getD j 0) width f H (fun j => (u.map fun v => v * pol).getD j 0) (-v / norm * pol) p q n ^ 2 =
      residNorm N A x rhs ^ 2 := by
    unfold residNorm
    rw [Real.sq_sqrt (sum_nonneg fun _ _ => sq_nonneg _), mul_sum]
    apply sum_congr rfl
    intro n hn
    rw [hmis n (mem_range.mp hn), mul_pow, div_pow, hp2]
    field_simp
  have hnorm1 : 1 ≤ norm ^ 2 := by nlinarith
  have strong : ∀ (w : ℕ → ℝ) (c : ℝ) (a b : ℕ → ℝ),
      a 0 ^ 2 * residNorm N A x rhs ^ 2 ≤ ∑ n ∈ range N, Spec.misfit (fun j n => (rows.getD n []).getD j 0) width f H w c a b n ^ 2 ∧
      b 0 ^ 2 * residNorm N A x rhs ^ 2 ≤ ∑ n ∈ range N, Spec.misfit (fun j n => (rows.getD n []).getD j 0) width f H w c a b n ^ 2 := by
    intro w c a b
    -- the competitor as a fit vector of the design with reference amplitude `k`
    have main : ∀ (ch : ℕ) (k : ℝ) (ut' o' : List ℝ), ch = 0 ∨ ch = 1 → k ≠ 0 → ut'.length = H - 1 →
        (∀ n < N, k⁻¹ * harmonicSeries f H (-c) (fun h => -a h) (fun h => -b h) n =
          harmonicSeries f H (k⁻¹ * -c) (fun h => (sides ch ut' o').1.getD h 0) (fun h => (sides ch ut' o').2.getD h 0) n) →
        k ^ 2 * residNorm N A x rhs ^ 2 ≤ ∑ n ∈ range N, Spec.misfit (fun j n => (rows.getD n []).getD j 0) width f H w c a b n ^ 2 := by
      intro ch k ut' o' hch' hk hut' hside
      set wl := (List.range width).map w with hwl
      have hwl' : wl.length = bits.length := by rw [hwl, hbl]; simp
      set y := (up N bits (wl.map fun v => k⁻¹ * v)) ++ [k⁻¹ * -c] ++ ut' ++ o' with hy
      have h1 : residNorm N A x rhs ≤ residNorm N (designOne N cols f H ch).1 y (designOne N cols f H ch).2 :=
        le_trans (hbest ch hch') (hs.opt _ _ _ _)
      have h2 : residNorm N (designOne N cols f H ch).1 y (designOne N cols f H ch).2 ^ 2 =
          (k⁻¹) ^ 2 * ∑ n ∈ range N, Spec.misfit (fun j n => (rows.getD n []).getD j 0) width f H w c a b n ^ 2 := by
        unfold residNorm
        rw [Real.sq_sqrt (sum_nonneg fun _ _ => sq_nonneg _), mul_sum]
        apply sum_congr rfl
        intro n hn
        have hn' := mem_range.mp hn
        rw [hy, design_value N cols f H hH ch _ ut' o' _ (by rw [hcl]; simp [up, hbl]) hut' n hn', ← hside n hn', hcols,
          scaled_up N bits _ (by rw [List.length_map, hwl']), matVec_smul, ← mul_add, mul_pow]
        congr 2
        have e1 : matVec bits wl n = ∑ j ∈ range width, w j * (rows.getD n []).getD j 0 := by
          rw [hbits, matVec_range]
          apply sum_congr rfl
          intro j hj
          rw [hwl, getD_range_map _ _ _ _ (mem_range.mp hj)]
        rw [e1]
        unfold Spec.misfit harmonicSeries
        have e2 : ∑ h ∈ range H, (-a h * Real.cos (2 * Real.pi * f * ((n : ℝ) * ((h : ℝ) + 1))) + -b h * Real.sin (2 * Real.pi * f * ((n : ℝ) * ((h : ℝ) + 1)))) =
            -∑ h ∈ range H, (a h * Real.cos (2 * Real.pi * f * ((n : ℝ) * ((h : ℝ) + 1))) + b h * Real.sin (2 * Real.pi * f * ((n : ℝ) * ((h : ℝ) + 1)))) := by
          rw [← sum_neg_distrib]
          exact sum_congr rfl fun h _ => by ring
        rw [e2]
        ring
      have h3 : residNorm N A x rhs ^ 2 ≤ (k⁻¹) ^ 2 * ∑ n ∈ range N, Spec.misfit (fun j n => (rows.getD n []).getD j 0) width f H w c a b n ^ 2 := by
        rw [← h2]
        exact pow_le_pow_left₀ (Real.sqrt_nonneg _) h1 2
      calc k ^ 2 * residNorm N A x rhs ^ 2 ≤ k ^ 2 * ((k⁻¹) ^ 2 * ∑ n ∈ range N, Spec.misfit (fun j n => (rows.getD n []).getD j 0) width f H w c a b n ^ 2) :=
            mul_le_mul_of_nonneg_left h3 (sq_nonneg _)
        _ = _ := by field_simp
    have cons : ∀ (g : ℕ → ℝ) (h : ℕ), h < H → (g 0 :: (List.range (H - 1)).map fun i => g (i + 1)).getD h 0 = g h := by
      intro g h hh
      cases h with
      | zero => rfl
      | succ h =>
        rw [List.getD_cons_succ, getD_range_map _ _ _ _ (by omega)]
    have hnn : 0 ≤ ∑ n ∈ range N, Spec.misfit (fun j n => (rows.getD n []).getD j 0) width f H w c a b n ^ 2 := sum_nonneg fun _ _ => sq_nonneg _
    have hcong : ∀ (d : ℝ) (a1 a2 b1 b2 : ℕ → ℝ) (n : ℕ), (∀ h < H, a1 h = a2 h) → (∀ h < H, b1 h = b2 h) → harmonicSeries f H d a1 b1 n = harmonicSeries f H d a2 b2 n := by
      intro d a1 a2 b1 b2 n h1 h2
      unfold harmonicSeries
      congr 1
      exact sum_congr rfl fun h hh => by rw [h1 h (mem_range.mp hh), h2 h (mem_range.mp hh)]
    constructor
    · by_cases ha : a 0 = 0
      · rw [ha]; simpa using hnn
      · have := main 0 (-a 0) ((List.range (H - 1)).map fun i => (-a 0)⁻¹ * -a (i + 1)) ((List.range H).map fun h => (-a 0)⁻¹ * -b h) (Or.inl rfl)
          (neg_ne_zero.mpr ha) (by simp) (by
            intro n _
            rw [← hser]
            apply hcong
            · intro h hh
              show _ = (1 :: (List.range (H - 1)).map fun i => (-a 0)⁻¹ * -a (i + 1)).getD h 0
              have e := cons (fun h => (-a 0)⁻¹ * -a h) h hh
              rw [inv_mul_cancel₀ (neg_ne_zero.mpr ha)] at e
              exact e.symm
            · intro h hh
              show _ = ((List.range H).map fun h => (-a 0)⁻¹ * -b h).getD h 0
              rw [getD_range_map _ _ _ _ hh])
        rwa [neg_sq] at this
    · by_cases hb : b 0 = 0
      · rw [hb]; simpa using hnn
      · have := main 1 (-b 0) ((List.range (H - 1)).map fun i => (-b 0)⁻¹ * -b (i + 1)) ((List.range H).map fun h => (-b 0)⁻¹ * -a h) (Or.inr rfl)
          (neg_ne_zero.mpr hb) (by simp) (by
            intro n _
            rw [← hser]
            apply hcong
            · intro h hh
              show _ = ((List.range H).map fun h => (-b 0)⁻¹ * -a h).getD h 0
              rw [getD_range_map _ _ _ _ hh]
            · intro h hh
              show _ = (1 :: (List.range (H - 1)).map fun i => (-b 0)⁻¹ * -b (i + 1)).getD h 0
              have e := cons (fun h => (-b 0)⁻¹ * -b h) h hh
              rw [inv_mul_cancel₀ (neg_ne_zero.mpr hb)] at e
              exact e.symm)
        rwa [neg_sq] at this
  refine ⟨_, p, q, hcal, ?_, ?_, ?_, ?_, ?_, ?_⟩
  · rw [hWt, List.length_map, hul]
  · rw [hp, hq]
    simp only
    have e : P.getD 0 0 ^ 2 + Q.getD 0 0 ^ 2 = norm ^ 2 := by
      rw [hnsq, ← ho0, hPd, hQd]
      unfold sides
      split_ifs
      · simp
      · simp; ring
    rw [mul_pow, mul_pow, ← mul_add, e, div_pow, neg_sq, hp2]
    field_simp
  · rw [hWt, sum_map_mul, ← hpol]
    split_ifs with hlt
    · linarith
    · linarith [not_lt.mp hlt]
  · rw [hWt, hOff]
    have : (postProcess [N] [f] bits u width H x choice norm).resid = [(List.range N).map fun n =>
        (matVec bits u n - -v / norm - reconstructSine [N] [f] width H x choice norm 0 n) * pol] := by
      unfold postProcess
      simp only [List.length_singleton, List.range_one, List.map_cons, List.map_nil, segStart, List.take_zero, List.sum_nil, zero_add,
        List.getD_cons_zero, List.map_map, hpol]
      rfl
    rw [this]
    congr 1
    apply List.map_congr_left
    intro n hn
    have hn' := List.mem_range.mp hn
    rw [hmis n hn', hval n hn', hwt, hrecon n hn']
    have : harmonicSeries f H v (fun h => P.getD h 0) (fun h => Q.getD h 0) n = v + harmonicSeries f H 0 (fun h => P.getD h 0) (fun h => Q.getD h 0) n := by
      unfold harmonicSeries
      ring
    rw [this]
    ring
  · intro w c a b
    rw [hWt, hOff]
    obtain ⟨g1, g2⟩ := strong w c a b
    rw [← hsum] at g1 g2
    set G := ∑ n ∈ range N, Spec.misfit (fun j n => (rows.getD n []).getD j 0) width f H (fun j => (u.map fun v => v * pol).getD j 0) (-v / norm * pol) p q n ^ 2 with hG
    have hG0 : 0 ≤ G := sum_nonneg fun _ _ => sq_nonneg _
    have hle : G ≤ norm ^ 2 * G := le_mul_of_one_le_left hG0 hnorm1
    exact ⟨(mul_le_mul_of_nonneg_left hle (sq_nonneg _)).trans g1, (mul_le_mul_of_nonneg_left hle (sq_nonneg _)).trans g2⟩
  · refine ⟨norm ^ 2, hnorm1, ?_, ?_⟩
    · rcases hch with h | h
      · left
        have e : P.getD 0 0 = 1 := by rw [hPd, h]; rfl
        rw [hp]
        simp only
        rw [e, mul_one, div_pow, neg_sq, hp2]
        field_simp
      · right
        have e : Q.getD 0 0 = 1 := by rw [hQd, h]; rfl
        rw [hq]
        simp only
        rw [e, mul_one, div_pow, neg_sq, hp2]
        field_simp
    · intro w c a b
      rw [hWt, hOff]
      obtain ⟨g1, g2⟩ := strong w c a b
      rw [← hsum] at g1 g2
      constructor
      · rwa [mul_comm (norm ^ 2) (a 0 ^ 2), mul_assoc]
      · rwa [mul_comm (norm ^ 2) (b 0 ^ 2), mul_assoc]

theorem rank_of_indep (rows : List (List ℝ)) (width : ℕ)
    (hind : ∀ (w : ℕ → ℝ) (c : ℝ), (∀ n < rows.length, ∑ j ∈ range width, w j * (rows.getD n []).getD j 0 = c) → (∀ j < width, w j = 0) ∧ c = 0) :
    width + 1 ≤ rankOf rows.length (((List.range width).map fun (j : ℕ) => fun (n : ℕ) => (rows.getD n []).getD j 0) ++ [fun _ => 1]) := by
  have := rank_full rows.length ((List.range width).map fun (j : ℕ) => fun (n : ℕ) => (rows.getD n []).getD j 0) (by
    intro u d _ hd
    have := hind (fun j => u.getD j 0) d (fun n hn => by
      have := hd n hn
      rwa [matVec_range] at this)
    refine ⟨fun j hj => this.1 j (by simpa using hj), this.2⟩)
  simpa using this

/-- **C101 (within 3 dB of the best weights).** Whatever the data, if the bit columns and a constant are independent, the call at a known
frequency succeeds and the returned error waveform has at most twice the power of the misfit left by any other weights, offset and harmonics
with a fundamental of unit amplitude. -/
theorem C101_near_optimal (solve : Lstsq) (hs : IsLstsq solve) (est : List ℝ) (segs : List (List (List ℝ))) (f : ℝ) (hf0 : f ≠ 0)
    (hf : f ≤ 1 / 2) (force : Option Bool) (hforce : force ≠ some true) (given : Option (List ℝ)) (H : ℕ) (hH : 0 < H) (lr reltol : ℝ) (maxIter : ℕ)
    (rows : List (List ℝ)) (width : ℕ) (nominal : List ℝ) (hprep : prepareInput segs given = .ok ([rows], width, nominal))
    (hind : ∀ (w : ℕ → ℝ) (c : ℝ), (∀ n < rows.length, ∑ j ∈ range width, w j * (rows.getD n []).getD j 0 = c) → (∀ j < width, w j = 0) ∧ c = 0) :
    ∃ (r : CalResult) (p q : ℕ → ℝ), calibrate solve est segs (.scalar f) force given H lr reltol maxIter = .ok r ∧ p 0 ^ 2 + q 0 ^ 2 = 1 ∧
      r.resid = [(List.range rows.length).map fun n => Spec.misfit (fun j n => (rows.getD n []).getD j 0) width f H (fun j => r.weight.getD j 0) r.offset p q n] ∧
      ∀ (w : ℕ → ℝ) (c : ℝ) (a b : ℕ → ℝ), a 0 ^ 2 + b 0 ^ 2 = 1 →
        ((r.resid.getD 0 []).map fun v => v ^ 2).sum ≤ 2 * ∑ n ∈ range rows.length, Spec.misfit (fun j n => (rows.getD n []).getD j 0) width f H w c a b n ^ 2 := by
  obtain ⟨r, p, q, h1, h2, h3, h4, h5, h6, _⟩ := calibrate_fit solve hs est segs f hf0 hf force hforce given H hH lr reltol maxIter rows width nominal hprep
    (rank_of_indep rows width hind)
  refine ⟨r, p, q, h1, h3, h5, fun w c a b hab => ?_⟩
  obtain ⟨h7, h8⟩ := h6 w c a b
  rw [h5, List.getD_cons_zero, List.map_map, list_sum_map_range]
  simp only [Function.comp]
  generalize ∑ n ∈ range rows.length, Spec.misfit (fun j n => (rows.getD n []).getD j 0) width f H (fun j => r.weight.getD j 0) r.offset p q n ^ 2 = G at h7 h8 ⊢
  have : G = (a 0 ^ 2 + b 0 ^ 2) * G := by rw [hab, one_mul]
  rw [this]
  linarith

private theorem sq_le_abs_of (x : ℝ) (hx : |x| ≤ 1) : x ^ 2 ≤ |x| := by
  rw [← sq_abs]
  nlinarith [abs_nonneg x]

private theorem tilt_bound (φ l m D : ℝ) (hl : |l| ≤ 1) (hm : |m| ≤ 1) (hlm : l ^ 2 + m ^ 2 = 1) (k4 : |m| * |Real.sin φ| ≤ D) (k5 : |m| * |Real.cos φ| ≤ D) :
    1 - |l| ≤ 2 * D := by
  have hcs := Real.sin_sq_add_cos_sq φ
  have t1 := sq_le_abs_of m hm
  have t3 := sq_le_abs_of l hl
  have u1 := sq_le_abs_of _ (Real.abs_sin_le_one φ)
  have u2 := sq_le_abs_of _ (Real.abs_cos_le_one φ)
  have t2 : |m| * 1 ≤ |m| * (|Real.sin φ| + |Real.cos φ|) := mul_le_mul_of_nonneg_left (by linarith) (abs_nonneg m)
  linarith

/-- **C101 (noise).** Let the record pin the converter in quadrature to phase `φ`. Then the call succeeds and there is a constant `K` of the
record such that, whatever the true weights, offset and harmonics with fundamental `A cos(x - φ)`, an error of root mean square `ν` moves the
returned weights and offset from the true ones (at the scale `± 1 / A`) by at most `K ν / A` relative to full scale, and the reported error waveform is
at most `√2 ν / A` in root mean square. -/
theorem C101_noise (solve : Lstsq) (hs : IsLstsq solve) (est : List ℝ) (segs : List (List (List ℝ))) (f : ℝ) (hf0 : f ≠ 0)
    (hf : f ≤ 1 / 2) (force : Option Bool) (hforce : force ≠ some true) (given : Option (List ℝ)) (H : ℕ) (hH : 0 < H) (lr reltol : ℝ) (maxIter : ℕ)
    (rows : List (List ℝ)) (width : ℕ) (nominal : List ℝ) (hprep : prepareInput segs given = .ok ([rows], width, nominal)) (hN : 0 < rows.length)
    (φ : ℝ) (hpin : Spec.Pinned rows.length (fun j n => (rows.getD n []).getD j 0) width f H φ) :
    ∃ (r : CalResult) (K : ℝ), calibrate solve est segs (.scalar f) force given H lr reltol maxIter = .ok r ∧ r.weight.length = width ∧ 0 ≤ r.weight.sum ∧ 0 < K ∧
      ∀ (w : ℕ → ℝ) (c : ℝ) (a b : ℕ → ℝ) (A ν : ℝ), 0 < A → a 0 = A * Real.cos φ → b 0 = A * Real.sin φ → 0 ≤ ν →
        (∑ n ∈ range rows.length, Spec.misfit (fun j n => (rows.getD n []).getD j 0) width f H w c a b n ^ 2) / rows.length ≤ ν ^ 2 →
        ∃ s : ℝ, (s = 1 / A ∨ s = -(1 / A)) ∧ (∀ j < width, |r.weight.getD j 0 - s * w j| ≤ K * (ν / A) * (1 + |w j| / A)) ∧
          |r.offset - s * c| ≤ K * (ν / A) * (1 + |c| / A) ∧ meanSq (r.resid.getD 0 []) ≤ 2 * (ν / A) ^ 2 := by
  obtain ⟨r, p, q, h1, h2, h3, h4, h5, h6, _⟩ := calibrate_fit solve hs est segs f hf0 hf force hforce given H hH lr reltol maxIter rows width nominal hprep
    (rank_of_indep rows width (by
      intro w c hw
      obtain ⟨z1, z2, _⟩ := hpin w c (fun _ => 0) (fun _ => 0) (by
        intro n hn
        unfold Spec.misfit
        rw [hw n hn]
        simp) (by simp)
      exact ⟨z1, z2⟩))
  set N := rows.length with hNd
  set bit : ℕ → ℕ → ℝ := fun j n => (rows.getD n []).getD j 0 with hbit
  obtain ⟨K, hK0, hK⟩ := pin_bound N bit width f H hH φ hpin
  have hNR : (0 : ℝ) < N := by exact_mod_cast hN
  have hsq : 0 < Real.sqrt N := Real.sqrt_pos.mpr hNR
  refine ⟨r, 6 * K * Real.sqrt N, h1, h2, h4, by positivity, ?_⟩
  intro w c a b A ν hA ha hb hν hrms
  obtain ⟨h7, h8⟩ := h6 w c a b
  set e := fun n => Spec.misfit bit width f H w c a b n with he
  set g := fun n => Spec.misfit bit width f H (fun j => r.weight.getD j 0) r.offset p q n with hg
  have hE : ∑ n ∈ range N, e n ^ 2 ≤ N * ν ^ 2 := by
    rw [div_le_iff₀ hNR] at hrms
    linarith
  have hG : A ^ 2 * ∑ n ∈ range N, g n ^ 2 ≤ 2 * ∑ n ∈ range N, e n ^ 2 := by
    have : a 0 ^ 2 + b 0 ^ 2 = A ^ 2 := by
      rw [ha, hb]
      have := Real.sin_sq_add_cos_sq φ
      linear_combination A ^ 2 * this
    rw [← this]
    linarith
  -- pointwise bounds
  have point : ∀ (z : ℕ → ℝ) (B : ℝ), 0 ≤ B → ∑ n ∈ range N, z n ^ 2 ≤ N * B ^ 2 → ∀ n < N, |z n| ≤ Real.sqrt N * B := by
    intro z B hB hz n hn
    have h9 : z n ^ 2 ≤ ∑ n ∈ range N, z n ^ 2 := single_le_sum (f := fun n => z n ^ 2) (fun _ _ => sq_nonneg _) (mem_range.mpr hn)
    apply abs_le_of_sq_le_sq _ (by positivity)
    rw [mul_pow, Real.sq_sqrt hNR.le]
    linarith
  have hepoint := point e ν hν hE
  have hgsum : ∑ n ∈ range N, g n ^ 2 ≤ N * (2 * (ν / A) ^ 2) := by
    have : A ^ 2 * ∑ n ∈ range N, g n ^ 2 ≤ A ^ 2 * (N * (2 * (ν / A) ^ 2)) := by
      rw [show A ^ 2 * (N * (2 * (ν / A) ^ 2)) = 2 * (N * ν ^ 2) by field_simp]
      linarith
    exact le_of_mul_le_mul_left this (by positivity)
  have hνA : 0 ≤ ν / A := by positivity
  have hgpoint := point g (2 * (ν / A)) (by positivity) (by
    refine le_trans hgsum (mul_le_mul_of_nonneg_left ?_ hNR.le)
    rw [mul_pow]
    linarith [sq_nonneg (ν / A)])
  -- the component along the true converter
  set l := p 0 * Real.cos φ + q 0 * Real.sin φ with hl
  set m := q 0 * Real.cos φ - p 0 * Real.sin φ with hm
  have hcs := Real.sin_sq_add_cos_sq φ
  have hlm : l ^ 2 + m ^ 2 = 1 := by
    rw [hl, hm]
    linear_combination (p 0 ^ 2 + q 0 ^ 2) * hcs + h3
  have hl1 : |l| ≤ 1 := by
    apply abs_le_of_sq_le_sq _ zero_le_one
    linarith [sq_nonneg m]
  have hm1 : |m| ≤ 1 := by
    apply abs_le_of_sq_le_sq _ zero_le_one
    linarith [sq_nonneg l]
  set S := 3 * Real.sqrt N * (ν / A) with hS
  have hS0 : 0 ≤ S := by positivity
  obtain ⟨k1, k2, k3⟩ := hK (fun j => r.weight.getD j 0 - l / A * w j) (r.offset - l / A * c) (fun h => p h - l / A * a h) (fun h => q h - l / A * b h) S hS0 (by
      intro n hn
      rw [misfit_add]
      have e1 := hgpoint n hn
      have e2 := hepoint n hn
      refine le_trans (abs_sub _ _) ?_
      rw [abs_mul, abs_div, abs_of_pos hA]
      have e3 : |l| / A * |e n| ≤ Real.sqrt N * (ν / A) := by
        calc |l| / A * |e n| ≤ 1 / A * (Real.sqrt N * ν) := mul_le_mul (div_le_div_of_nonneg_right hl1 hA.le) e2 (abs_nonneg _) (by positivity)
          _ = _ := by ring
      have e4 : |g n| + |l| / A * |e n| ≤ S := by
        rw [hS]
        linarith
      exact e4) (by
      show (p 0 - l / A * a 0) * Real.cos φ + (q 0 - l / A * b 0) * Real.sin φ = 0
      rw [ha, hb]
      have : (p 0 - l / A * (A * Real.cos φ)) * Real.cos φ + (q 0 - l / A * (A * Real.sin φ)) * Real.sin φ = l - l * (Real.sin φ ^ 2 + Real.cos φ ^ 2) := by
        rw [hl]
        field_simp
        ring
      rw [this, hcs]
      ring)
  obtain ⟨k4, k5⟩ := k3 0 hH
  have ep : p 0 - l / A * a 0 = -m * Real.sin φ := by
    rw [ha, show l / A * (A * Real.cos φ) = l * Real.cos φ by field_simp, hl, hm]
    linear_combination (-p 0) * hcs
  have eq : q 0 - l / A * b 0 = m * Real.cos φ := by
    rw [hb, show l / A * (A * Real.sin φ) = l * Real.sin φ by field_simp, hl, hm]
    linear_combination (-q 0) * hcs
  have hmb : 1 - |l| ≤ 2 * (K * S) := by
    rw [ep, abs_mul, abs_neg] at k4
    rw [eq, abs_mul] at k5
    exact tilt_bound φ l m (K * S) hl1 hm1 hlm k4 k5
  have fin : ∀ (s x y : ℝ), (0 ≤ l ∧ s = 1 / A ∨ l < 0 ∧ s = -(1 / A)) → |x - l / A * y| ≤ K * S →
      |x - s * y| ≤ 6 * K * Real.sqrt N * (ν / A) * (1 + |y| / A) := by
    intro s x y hsl hxy
    have d1 : |l / A - s| = (1 - |l|) / A := by
      rcases hsl with ⟨h0, rfl⟩ | ⟨h0, rfl⟩
      · rw [abs_of_nonneg h0, ← sub_div, abs_div, abs_of_pos hA, abs_of_nonpos (by rw [abs_of_nonneg h0] at hl1; linarith)]
        ring
      · rw [abs_of_neg h0, sub_neg_eq_add, ← add_div, abs_div, abs_of_pos hA, abs_of_nonneg (by rw [abs_of_neg h0] at hl1; linarith)]
        ring
    have d2 : |x - s * y| ≤ |x - l / A * y| + |l / A - s| * |y| := by
      rw [← abs_mul, show x - s * y = (x - l / A * y) + (l / A - s) * y by ring]
      exact abs_add_le _ _
    rw [d1] at d2
    have d3 : (1 - |l|) / A * |y| ≤ 2 * (K * S) * (|y| / A) := by
      rw [show (1 - |l|) / A * |y| = (1 - |l|) * (|y| / A) by ring]
      exact mul_le_mul_of_nonneg_right hmb (by positivity)
    have d4 : 6 * K * Real.sqrt N * (ν / A) * (1 + |y| / A) = 2 * (K * S) + 2 * (K * S) * (|y| / A) := by rw [hS]; ring
    have d5 : 0 ≤ K * S := by positivity
    rw [d4]
    linarith
  have hms : meanSq (r.resid.getD 0 []) ≤ 2 * (ν / A) ^ 2 := by
    rw [h5, List.getD_cons_zero]
    unfold meanSq
    rw [List.map_map, list_sum_map_range, List.length_map, List.length_range, div_le_iff₀ hNR]
    simp only [Function.comp]
    linarith
  rcases lt_or_ge l 0 with h0 | h0
  · exact ⟨-(1 / A), Or.inr rfl, fun j hj => fin _ _ _ (Or.inr ⟨h0, rfl⟩) (k1 j hj), fin _ _ _ (Or.inr ⟨h0, rfl⟩) k2, hms⟩
  · exact ⟨1 / A, Or.inl rfl, fun j hj => fin _ _ _ (Or.inl ⟨h0, rfl⟩) (k1 j hj), fin _ _ _ (Or.inl ⟨h0, rfl⟩) k2, hms⟩

/-- **C101 (relation to the noise-free case).** A record on which the true converter is the only fit (the hypothesis of C40) pins it in
quadrature to its own phase. -/
theorem C101_unique_is_pinned (rows : List (List ℝ)) (width : ℕ) (f : ℝ) (H : ℕ) (hH : 0 < H) (w : List ℝ) (c : ℝ) (a b : ℕ → ℝ) (A φ : ℝ) (hA : 0 < A)
    (ha : a 0 = A * Real.cos φ) (hb : b 0 = A * Real.sin φ)
    (honly : OnlyFit rows.length ((List.range width).map fun (j : ℕ) => fun (n : ℕ) => (rows.getD n []).getD j 0) f H w c a b) :
    Spec.Pinned rows.length (fun j n => (rows.getD n []).getD j 0) width f H φ := by
  intro w' c' a' b' hz hq
  obtain ⟨t, h1, h2, h3⟩ := honly ((List.range width).map w') c' a' b' (by simp) (by
    intro n hn
    have := hz n hn
    rw [matVec_range]
    unfold Spec.misfit at this
    unfold harmonicSeries
    rw [sub_eq_zero] at this
    rw [← this]
    apply sum_congr rfl
    intro j hj
    rw [getD_range_map _ _ _ _ (mem_range.mp hj)])
  obtain ⟨e1, e2⟩ := h3 0 hH
  have ht : t = 0 := by
    rw [e1, e2, ha, hb] at hq
    have hcs := Real.sin_sq_add_cos_sq φ
    have : t * A = 0 := by linear_combination hq - t * A * hcs
    exact (mul_eq_zero.mp this).resolve_right hA.ne'
  refine ⟨fun j hj => ?_, by rw [h2, ht, zero_mul], fun h hh => by rw [(h3 h hh).1, (h3 h hh).2, ht, zero_mul, zero_mul]; exact ⟨rfl, rfl⟩⟩
  have := congrArg (fun l => l.getD j 0) h1
  rw [getD_range_map _ _ _ _ hj, getD_map_list, ht, zero_mul] at this
  exact this

/-! ## A two-bit record with decision errors -/

/-- Two-bit codes 3, 2, 0, 1, 3, 1, 0, 2 of a cosine at a quarter of the sample rate: the mid-scale samples land on either side. -/
def decisionRows : List (List ℝ) := [[1, 1], [1, 0], [0, 0], [0, 1], [1, 1], [0, 1], [0, 0], [1, 0]]

theorem decision_prep : prepareInput [decisionRows] none = .ok ([decisionRows], 2, [2, 1]) := by
  have : orientSegment decisionRows = decisionRows := by
    unfold orientSegment decisionRows
    simp
  unfold decisionRows at this ⊢
  unfold prepareInput
  simp [stackSegments, this, nominalWeights, List.range_succ]

theorem decision_misfit (w : ℕ → ℝ) (c : ℝ) (a b : ℕ → ℝ) (n : ℕ) :
    Spec.misfit (fun j n => (decisionRows.getD n []).getD j 0) 2 (1 / 4) 1 w c a b n =
      w 0 * (decisionRows.getD n []).getD 0 0 + w 1 * (decisionRows.getD n []).getD 1 0 -
        (c + (a 0 * (if n % 4 = 0 then 1 else if n % 4 = 2 then -1 else 0) + b 0 * (if n % 4 = 1 then 1 else if n % 4 = 3 then -1 else 0))) := by
  unfold Spec.misfit
  rw [sum_range_succ, sum_range_one, sum_range_one, quarter_cos, quarter_sin]

theorem decision_pinned : Spec.Pinned decisionRows.length (fun j n => (decisionRows.getD n []).getD j 0) 2 (1 / 4) 1 0 := by
  intro w c a b hz hq
  rw [Real.cos_zero, Real.sin_zero] at hq
  have hl : decisionRows.length = 8 := rfl
  have g1 := hz 1 (by rw [hl]; norm_num)
  have g2 := hz 2 (by rw [hl]; norm_num)
  have g3 := hz 3 (by rw [hl]; norm_num)
  have g7 := hz 7 (by rw [hl]; norm_num)
  rw [decision_misfit] at g1 g2 g3 g7
  norm_num [decisionRows] at g1 g2 g3 g7
  have ha : a 0 = 0 := by linarith
  have hc : c = 0 := by linarith
  have hb : b 0 = 0 := by linarith
  refine ⟨fun j hj => ?_, hc, fun h hh => ?_⟩
  · interval_cases j
    · linarith
    · linarith
  · obtain rfl : h = 0 := by omega
    exact ⟨ha, hb⟩

/-- The weights 2 and 1 with amplitude 3/2: the error has root mean square below 1/2. -/
example (solve : Lstsq) (hs : IsLstsq solve) : ∃ (r : CalResult) (K s : ℝ), calibrate solve [] [decisionRows] (.scalar (1 / 4)) none none 1 (1 / 2) 0 100 = .ok r ∧
    s ^ 2 = 4 / 9 ∧ |r.weight.getD 0 0 - s * 2| ≤ K * (1 / 3) * (7 / 3) ∧ |r.weight.getD 1 0 - s| ≤ K * (1 / 3) * (5 / 3) ∧
    meanSq (r.resid.getD 0 []) ≤ 2 / 9 := by
  obtain ⟨r, K, h1, h2, h3, h4, h5⟩ := C101_noise solve hs [] [decisionRows] (1 / 4) (by norm_num) (by norm_num) none (by simp) none 1 one_pos (1 / 2) 0 100
    decisionRows 2 [2, 1] decision_prep (by simp [decisionRows]) 0 decision_pinned
  obtain ⟨s, e1, e2, e3, e4⟩ := h5 (fun j => if j = 0 then 2 else 1) (3 / 2) (fun _ => 3 / 2) (fun _ => 0) (3 / 2) (1 / 2) (by norm_num) (by simp) (by simp) (by norm_num)
    (by
      have hl : decisionRows.length = 8 := rfl
      rw [hl]
      simp only [sum_range_succ, sum_range_zero, decision_misfit]
      norm_num [decisionRows])
  refine ⟨r, K, s, h1, ?_, ?_, ?_, ?_⟩
  · rcases e1 with rfl | rfl <;> norm_num
  · have := e2 0 (by norm_num)
    norm_num at this ⊢
    exact this
  · have := e2 1 (by norm_num)
    norm_num at this ⊢
    exact this
  · norm_num at e4 ⊢
    exact e4

/-- On the same record no converter beats the reported weights by more than a factor of two in residual power; the converter with weights 4/3
and 2/3 bounds it by 8/9. -/
example (solve : Lstsq) (hs : IsLstsq solve) : ∃ r : CalResult, calibrate solve [] [decisionRows] (.scalar (1 / 4)) none none 1 (1 / 2) 0 100 = .ok r ∧
    ((r.resid.getD 0 []).map fun v => v ^ 2).sum ≤ 8 / 9 := by
  obtain ⟨r, p, q, h1, _, _, h4⟩ := C101_near_optimal solve hs [] [decisionRows] (1 / 4) (by norm_num) (by norm_num) none (by simp) none 1 one_pos (1 / 2) 0 100
    decisionRows 2 [2, 1] decision_prep (by
      intro w c hw
      obtain ⟨z1, z2, _⟩ := decision_pinned w c (fun _ => 0) (fun _ => 0) (by
        intro n hn
        unfold Spec.misfit
        rw [hw n hn]
        simp) (by simp)
      exact ⟨z1, z2⟩)
  refine ⟨r, h1, (h4 (fun j => if j = 0 then 4 / 3 else 2 / 3) 1 (fun _ => 1) (fun _ => 0) (by norm_num)).trans ?_⟩
  have hl : decisionRows.length = 8 := rfl
  rw [hl]
  simp only [sum_range_succ, sum_range_zero, decision_misfit]
  norm_num [decisionRows]

/-- The record of C40's example, whose phase is an eighth of a turn. -/
example : Spec.Pinned quarterRows.length (fun j n => (quarterRows.getD n []).getD j 0) 1 (1 / 4) 1 (Real.pi / 4) := by
  have h2 : Real.sqrt 2 * Real.sqrt 2 = 2 := Real.mul_self_sqrt (by norm_num)
  refine C101_unique_is_pinned quarterRows 1 (1 / 4) 1 one_pos [1] (1 / 2) (fun _ => 1 / 2) (fun _ => 1 / 2) (Real.sqrt 2 / 2) (Real.pi / 4) (by positivity) ?_ ?_
    quarter_only
  · rw [Real.cos_pi_div_four]; linarith
  · rw [Real.sin_pi_div_four]; linarith

end Verif
