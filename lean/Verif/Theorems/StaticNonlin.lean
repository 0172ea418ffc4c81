import Verif.Model.StaticNonlin
import Verif.Theorems.SineFit
import Verif.Theorems.Calibration
import Verif.Proofs.Lstsq
import Mathlib.LinearAlgebra.Lagrange

/-!
# C77: static nonlinearity from a sine record
-/

namespace Verif

open Model Finset

/-! ## Specification -/

namespace Spec

/-- Value at `v` of the polynomial with coefficients `c 0, …, c d`. -/
noncomputable def poly (c : ℕ → ℝ) (d : ℕ) (v : ℝ) : ℝ := ∑ i ∈ range (d + 1), c i * v ^ i

/-- The first `N` values of `u` contain more than `d` different numbers. -/
def ManyValues (N : ℕ) (u : ℕ → ℝ) (d : ℕ) : Prop := ∃ S : Finset ℝ, d < S.card ∧ ∀ v ∈ S, ∃ t < N, u t = v

end Spec

/-! ## Helpers -/

theorem polyval_eq (c : List ℝ) (v : ℝ) : polyval c v = ∑ j ∈ range c.length, c.getD j 0 * v ^ (c.length - 1 - j) := by
  have key : ∀ (c : List ℝ) (acc : ℝ), c.foldl (fun acc a => acc * v + a) acc
      = acc * v ^ c.length + ∑ j ∈ range c.length, c.getD j 0 * v ^ (c.length - 1 - j) := by
    intro c
    induction c with
    | nil => intro acc; simp
    | cons a c ih =>
      intro acc
      rw [List.foldl_cons, ih, List.length_cons, Finset.sum_range_succ', add_mul]
      have e : ∀ j, (a :: c).getD (j + 1) 0 * v ^ (c.length + 1 - 1 - (j + 1)) = c.getD j 0 * v ^ (c.length - 1 - j) := by
        intro j
        rw [List.getD_cons_succ, show c.length + 1 - 1 - (j + 1) = c.length - 1 - j by omega]
      rw [Finset.sum_congr rfl fun j _ => e j, List.getD_cons_zero, Nat.add_sub_cancel, Nat.sub_zero, pow_succ]
      ring
  unfold polyval
  rw [key]
  simp

/-- Equal values at more than `d` points force equal coefficients. -/
theorem poly_unique (N d : ℕ) (u : ℕ → ℝ) (a b : ℕ → ℝ) (hu : Spec.ManyValues N u d) (h : ∀ t < N, Spec.poly a d (u t) = Spec.poly b d (u t)) :
    ∀ i ≤ d, a i = b i := by
  classical
  obtain ⟨S, hS, hv⟩ := hu
  let P : Polynomial ℝ := ∑ i ∈ range (d + 1), Polynomial.C (a i - b i) * Polynomial.X ^ i
  have hev : ∀ v, P.eval v = Spec.poly a d v - Spec.poly b d v := by
    intro v
    simp only [P, Polynomial.eval_finset_sum, Polynomial.eval_mul, Polynomial.eval_C, Polynomial.eval_pow, Polynomial.eval_X, Spec.poly, sub_mul,
      Finset.sum_sub_distrib]
  have hdeg : P.degree < S.card := by
    refine lt_of_le_of_lt (Polynomial.degree_sum_le _ _) ?_
    rw [Finset.sup_lt_iff (WithBot.bot_lt_coe _)]
    intro i hi
    refine lt_of_le_of_lt (Polynomial.degree_C_mul_X_pow_le _ _) ?_
    have := mem_range.mp hi
    exact_mod_cast (by omega : i < S.card)
  have hP : P = 0 := by
    apply Polynomial.eq_zero_of_degree_lt_of_eval_finset_eq_zero S hdeg
    intro v hvS
    obtain ⟨t, ht, rfl⟩ := hv v hvS
    rw [hev, h t ht, sub_self]
  intro i hi
  have hc : P.coeff i = a i - b i := by
    simp only [P, Polynomial.finset_sum_coeff, Polynomial.coeff_C_mul, Polynomial.coeff_X_pow]
    rw [Finset.sum_eq_single i]
    · simp
    · intro j _ hj; rw [if_neg (Ne.symm hj), mul_zero]
    · intro hn; exact absurd (mem_range.mpr (by omega)) hn
  rw [hP, Polynomial.coeff_zero] at hc
  linarith

theorem sum_vander (d : ℕ) (f : ℕ → ℝ) (v : ℝ) : ∑ j ∈ range (d + 1), f j * v ^ (d - j) = Spec.poly (fun i => f (d - i)) d v := by
  unfold Spec.poly
  rw [← Finset.sum_range_reflect]
  apply sum_congr rfl
  intro i hi
  have := mem_range.mp hi
  simp only [Nat.add_sub_cancel]
  rw [show d - (d - i) = i by omega]

theorem poly_scale (c : ℕ → ℝ) (d : ℕ) (v s : ℝ) : Spec.poly c d (v / s) = Spec.poly (fun i => c i / s ^ i) d v := by
  unfold Spec.poly
  apply sum_congr rfl
  intro i _
  rw [div_pow]
  ring

theorem poly_add_const (c : ℕ → ℝ) (d : ℕ) (v m : ℝ) : Spec.poly (fun i => c i + if i = 0 then m else 0) d v = Spec.poly c d v + m := by
  unfold Spec.poly
  rw [Finset.sum_range_succ', Finset.sum_range_succ']
  simp
  ring

theorem polyfit_spec (solve : Lstsq) (hs : IsLstsq solve) (N : ℕ) (x y : ℕ → ℝ) (d : ℕ) (hx : ∃ t < N, x t ≠ 0) :
    (polyfit solve N x y d).length = d + 1 ∧
    ∀ q : ℕ → ℝ, ∑ t ∈ range N, (y t - Spec.poly (fun i => (polyfit solve N x y d).getD (d - i) 0) d (x t)) ^ 2
      ≤ ∑ t ∈ range N, (y t - Spec.poly q d (x t)) ^ 2 := by
  obtain ⟨t0, ht0, hx0⟩ := hx
  refine ⟨by simp [polyfit], fun q => ?_⟩
  set A := (vander x d).map fun col => fun t => col t / colNorm N col with hA
  have hlen : A.length = d + 1 := by simp [hA, vander]
  have hcol : ∀ j < d + 1, (vander x d).getD j 0 = fun t => x t ^ (d - j) := by
    intro j hj
    unfold vander
    exact getD_range_map (d + 1) _ j 0 hj
  have hAcol : ∀ j < d + 1, A.getD j 0 = fun t => x t ^ (d - j) / colNorm N ((vander x d).getD j 0) := by
    intro j hj
    rw [hA, getD_map_cols _ _ _ _ (by simp [vander]; omega), hcol j hj]
  have hn : ∀ j < d + 1, 0 < colNorm N ((vander x d).getD j 0) := by
    intro j hj
    rw [hcol j hj]
    unfold colNorm
    apply Real.sqrt_pos.mpr
    refine lt_of_lt_of_le ?_ (Finset.single_le_sum (f := fun t => (x t ^ (d - j)) ^ 2) (fun t _ => sq_nonneg _) (mem_range.mpr ht0))
    positivity
  have hmv : ∀ (z : List ℝ) (t : ℕ), matVec A z t
      = Spec.poly (fun i => z.getD (d - i) 0 / colNorm N ((vander x d).getD (d - i) 0)) d (x t) := by
    intro z t
    unfold matVec
    rw [hlen, ← sum_vander d (fun j => z.getD j 0 / colNorm N ((vander x d).getD j 0))]
    apply sum_congr rfl
    intro j hj
    rw [hAcol j (mem_range.mp hj)]
    ring
  have h := lstsq_min solve hs N A y ((List.range (d + 1)).map fun j => q (d - j) * colNorm N ((vander x d).getD j 0))
  simp only [hmv] at h
  have e1 : ∀ t, Spec.poly (fun i => (polyfit solve N x y d).getD (d - i) 0) d (x t)
      = Spec.poly (fun i => (solve N A y).getD (d - i) 0 / colNorm N ((vander x d).getD (d - i) 0)) d (x t) := by
    intro t
    unfold Spec.poly
    apply sum_congr rfl
    intro i _
    unfold polyfit
    simp only
    rw [getD_range_map (d + 1) _ (d - i) 0 (by omega)]
  have e2 : ∀ t, Spec.poly (fun i => ((List.range (d + 1)).map fun j => q (d - j) * colNorm N ((vander x d).getD j 0)).getD (d - i) 0
      / colNorm N ((vander x d).getD (d - i) 0)) d (x t) = Spec.poly q d (x t) := by
    intro t
    unfold Spec.poly
    apply sum_congr rfl
    intro i hi
    have := mem_range.mp hi
    simp only
    rw [getD_range_map (d + 1) _ (d - i) 0 (by omega), show d - (d - i) = i by omega, mul_div_assoc, div_self (hn (d - i) (by omega)).ne', mul_one]
  simp only [e1]
  simp only [e2] at h
  exact h

/-! ## Theorems -/

/-- What the part after the sine fit returns. -/
theorem core_spec (solve : Lstsq) (hs : IsLstsq solve) (N : ℕ) (y fitted : ℕ → ℝ) (d : ℕ) (hd : 2 ≤ d) (r : StaticNonlin)
    (h : staticNonlinCore solve N y fitted d = .ok r) :
    r.fitted = fitted ∧ ∃ c : ℕ → ℝ, r.k2 = fdiv (c 2) (c 1) ∧ r.k3 = (if 3 ≤ d then fdiv (c 3) (c 1) else none) ∧
      r.transferY = r.transferX.map (fun v => Spec.poly c d (v - colMean N fitted)) ∧
      ∀ q : ℕ → ℝ, ∑ t ∈ range N, (y t - Spec.poly c d (fitted t - colMean N fitted)) ^ 2
        ≤ ∑ t ∈ range N, (y t - Spec.poly q d (fitted t - colMean N fitted)) ^ 2 := by
  unfold staticNonlinCore at h
  simp only at h
  by_cases hx : colPeak N (fun t => fitted t - colMean N fitted) < 1 / 10 ^ 10
  · rw [if_pos hx] at h; cases h
  · rw [if_neg hx] at h
    push Not at hx
    injection h with h
    set m := colMean N fitted
    set x := fun t => fitted t - m with hxd
    set M := colPeak N x with hM
    have hM0 : 0 < M := lt_of_lt_of_le (by positivity) hx
    have hne : ∃ t < N, x t / M ≠ 0 := by
      rcases (colPeak_spec N x).2.2 with h0 | ⟨t, ht, h0⟩
      · exact absurd h0 (ne_of_gt hM0)
      · refine ⟨t, ht, div_ne_zero (fun hz => ?_) hM0.ne'⟩
        rw [hz, abs_zero] at h0
        exact hM0.ne h0
    obtain ⟨hlen, hopt⟩ := polyfit_spec solve hs N (fun t => x t / M) (fun t => y t - colMean N y) d hne
    set p := polyfit solve N (fun t => x t / M) (fun t => y t - colMean N y) d
    subst h
    refine ⟨rfl, fun i => p.getD (d - i) 0 / M ^ i + if i = 0 then colMean N y else 0, ?_, ?_, ?_, ?_⟩
    · simp
    · simp
    · simp only
      apply List.map_congr_left
      intro v _
      rw [polyval_eq, hlen, Nat.add_sub_cancel, sum_vander d (fun j => p.getD j 0), poly_scale, poly_add_const]
    · intro q
      have := hopt (fun i => (q i + if i = 0 then -colMean N y else 0) * M ^ i)
      refine le_trans (le_of_eq ?_) (le_trans this (le_of_eq ?_))
      · apply sum_congr rfl
        intro t _
        rw [poly_add_const, poly_scale]
        ring
      · apply sum_congr rfl
        intro t _
        rw [poly_scale]
        have e : (fun i => (q i + if i = 0 then -colMean N y else 0) * M ^ i / M ^ i) = fun i => q i + if i = 0 then -colMean N y else 0 := by
          funext i
          rw [mul_div_assoc, div_self (pow_ne_zero _ hM0.ne'), mul_one]
        rw [e, poly_add_const]
        ring

theorem fitStatic_ok (solve : Lstsq) (N : ℕ) (y : ℕ → ℝ) (order : ℤ) (r : StaticNonlin) (h : fitStaticNonlin solve N y order = .ok r) :
    2 ≤ order ∧ order + 2 ≤ N ∧ ∃ fit, fitCore solve N y none 1 (1 / 10 ^ 9) = .ok fit ∧ staticNonlinCore solve N y fit.fitted order.toNat = .ok r := by
  unfold fitStaticNonlin at h
  split_ifs at h with h1 h2
  cases hf : fitCore solve N y none 1 (1 / 10 ^ 9) with
  | error e => rw [hf] at h; cases h
  | ok fit => rw [hf] at h; exact ⟨by omega, by omega, fit, rfl, h⟩

/-- **C77 (errors).** The call fails only with `ValueError`, and exactly for an order below 2, a record shorter than order + 2, or a fitted sine whose
swing around its mean is below `1e-10`. -/
theorem C77_errors (solve : Lstsq) (N : ℕ) (y : ℕ → ℝ) (order : ℤ) (e : PyErr) :
    fitStaticNonlin solve N y order = .error e ↔ e = .valueError ∧ (order < 2 ∨ (N : ℤ) < order + 2 ∨
      ∃ fit, fitCore solve N y none 1 (1 / 10 ^ 9) = .ok fit ∧ ∀ t < N, |fit.fitted t - colMean N fit.fitted| < 1 / 10 ^ 10) := by
  by_cases h1 : order < 2
  · unfold fitStaticNonlin
    rw [if_pos h1]
    simp [h1, eq_comm]
  by_cases h2 : (N : ℤ) < order + 2
  · unfold fitStaticNonlin
    rw [if_neg h1, if_pos h2]
    simp [h2, eq_comm]
  have hN : 2 ≤ N := by omega
  obtain ⟨fit, hf⟩ : ∃ fit, fitCore solve N y none 1 (1 / 10 ^ 9) = .ok fit := by
    unfold fitCore estimateFreq
    rw [if_neg (by omega)]
    simp only
    split_ifs <;> exact ⟨_, rfl⟩
  have hp := colPeak_spec N (fun t => fit.fitted t - colMean N fit.fitted)
  have hiff : colPeak N (fun t => fit.fitted t - colMean N fit.fitted) < 1 / 10 ^ 10 ↔ ∀ t < N, |fit.fitted t - colMean N fit.fitted| < 1 / 10 ^ 10 := by
    constructor
    · intro h t ht
      exact lt_of_le_of_lt (hp.1 t ht) h
    · intro h
      rcases hp.2.2 with h0 | ⟨t, ht, h0⟩
      · rw [h0]; positivity
      · rw [← h0]; exact h t ht
  unfold fitStaticNonlin
  rw [if_neg h1, if_neg h2, hf]
  simp only [h1, h2, false_or, Except.ok.injEq, exists_eq_left']
  rw [← hiff]
  unfold staticNonlinCore
  simp only
  by_cases h : colPeak N (fun t => fit.fitted t - colMean N fit.fitted) < 1 / 10 ^ 10
  · rw [if_pos h]
    constructor
    · intro h'; injection h' with h'; exact ⟨h'.symm, h⟩
    · rintro ⟨rfl, -⟩; rfl
  · rw [if_neg h]
    constructor
    · intro h'; cases h'
    · rintro ⟨-, h'⟩; exact absurd h' h

/-- **C77 (best polynomial).** For every accepted record the reported numbers belong to the polynomial of the requested order that is closest, in the
least-squares sense, to the record as a function of the fitted sine around its mean: `k2` and `k3` are its second and third coefficients over the first, and
the returned curve is that polynomial. For order 2 `k3` is NaN. -/
theorem C77_best_polynomial (solve : Lstsq) (hs : IsLstsq solve) (N : ℕ) (y : ℕ → ℝ) (order : ℤ) (r : StaticNonlin)
    (h : fitStaticNonlin solve N y order = .ok r) :
    (∃ fit, fitCore solve N y none 1 (1 / 10 ^ 9) = .ok fit ∧ r.fitted = fit.fitted) ∧
    ∃ c : ℕ → ℝ, r.k2 = fdiv (c 2) (c 1) ∧ r.k3 = (if 3 ≤ order then fdiv (c 3) (c 1) else none) ∧
      r.transferY = r.transferX.map (fun v => Spec.poly c order.toNat (v - colMean N r.fitted)) ∧
      ∀ q : ℕ → ℝ, ∑ t ∈ range N, (y t - Spec.poly c order.toNat (r.fitted t - colMean N r.fitted)) ^ 2
        ≤ ∑ t ∈ range N, (y t - Spec.poly q order.toNat (r.fitted t - colMean N r.fitted)) ^ 2 := by
  obtain ⟨h1, h2, fit, hf, hc⟩ := fitStatic_ok solve N y order r h
  obtain ⟨e, c, k2, k3, ty, opt⟩ := core_spec solve hs N y fit.fitted order.toNat (by omega) r hc
  refine ⟨⟨fit, hf, e⟩, c, k2, ?_, ?_, ?_⟩
  · rw [k3]
    by_cases h3 : 3 ≤ order
    · rw [if_pos h3, if_pos (by omega)]
    · rw [if_neg h3, if_neg (by omega)]
  · rw [e]; exact ty
  · rw [e]; exact opt

theorem core_exact (solve : Lstsq) (hs : IsLstsq solve) (N : ℕ) (y fitted : ℕ → ℝ) (d : ℕ) (hd : 2 ≤ d) (r : StaticNonlin)
    (h : staticNonlinCore solve N y fitted d = .ok r) (a : ℕ → ℝ) (ha : a 1 ≠ 0)
    (hy : ∀ t < N, y t = Spec.poly a d (fitted t - colMean N fitted)) (hm : Spec.ManyValues N (fun t => fitted t - colMean N fitted) d) :
    r.k2 = some (a 2 / a 1) ∧ r.k3 = (if 3 ≤ d then some (a 3 / a 1) else none) ∧
    r.transferY = r.transferX.map (fun v => Spec.poly a d (v - colMean N fitted)) := by
  obtain ⟨-, c, k2, k3, ty, opt⟩ := core_spec solve hs N y fitted d hd r h
  have h0 : ∑ t ∈ range N, (y t - Spec.poly c d (fitted t - colMean N fitted)) ^ 2 ≤ 0 := by
    refine (opt a).trans (le_of_eq ?_)
    apply sum_eq_zero
    intro t ht
    rw [← hy t (mem_range.mp ht)]
    ring
  have hz := (sum_eq_zero_iff_of_nonneg fun t _ => sq_nonneg _).mp (le_antisymm h0 (sum_nonneg fun t _ => sq_nonneg _))
  have hca : ∀ i ≤ d, c i = a i := by
    apply poly_unique N d _ c a hm
    intro t ht
    have := hz t (mem_range.mpr ht)
    have : y t - Spec.poly c d (fitted t - colMean N fitted) = 0 := by simpa using this
    rw [← hy t ht]
    linarith
  have e1 := hca 1 (by omega)
  have e2 := hca 2 (by omega)
  refine ⟨?_, ?_, ?_⟩
  · rw [k2, e1, e2]; unfold fdiv; rw [if_neg ha]
  · rw [k3]
    by_cases h3 : 3 ≤ d
    · rw [if_pos h3, if_pos h3, e1, hca 3 (by omega)]; unfold fdiv; rw [if_neg ha]
    · rw [if_neg h3, if_neg h3]
  · rw [ty]
    apply List.map_congr_left
    intro v _
    unfold Spec.poly
    apply sum_congr rfl
    intro i hi
    rw [hca i (by have := mem_range.mp hi; omega)]

/-- **C77 (transfer curve).** The curve has 1000 points, equally spaced from the smallest to the largest sample of the fitted sine. -/
theorem C77_transfer_range (solve : Lstsq) (N : ℕ) (y : ℕ → ℝ) (order : ℤ) (r : StaticNonlin) (h : fitStaticNonlin solve N y order = .ok r) :
    r.transferX.length = 1000 ∧ r.transferY.length = 1000 ∧
    (∃ t < N, r.transferX.getD 0 0 = r.fitted t) ∧ (∃ t < N, r.transferX.getD 999 0 = r.fitted t) ∧
    (∀ t < N, r.transferX.getD 0 0 ≤ r.fitted t ∧ r.fitted t ≤ r.transferX.getD 999 0) ∧
    ∀ i < 998, r.transferX.getD (i + 2) 0 - r.transferX.getD (i + 1) 0 = r.transferX.getD (i + 1) 0 - r.transferX.getD i 0 := by
  obtain ⟨h1, h2, fit, hf, hc⟩ := fitStatic_ok solve N y order r h
  have hN : 0 < N := by omega
  have hP : transferPoints = 1000 := by unfold transferPoints; rfl
  unfold staticNonlinCore at hc
  simp only at hc
  by_cases hx0 : (colPeak N fun t => fit.fitted t - colMean N fit.fitted) < 1 / 10 ^ 10
  · rw [if_pos hx0] at hc
    cases hc
  rw [if_neg hx0] at hc
  injection hc with hc
  have hx : ∀ i < 1000, r.transferX.getD i 0 = recMin N fit.fitted + (i : ℝ) * ((recMax N fit.fitted - recMin N fit.fitted) / 999) := by
    intro i hi
    rw [← hc]
    simp only
    rw [List.getD_eq_getElem?_getD, List.getElem?_map, List.getElem?_range (by omega), hP]
    norm_num
  have hfit : r.fitted = fit.fitted := by rw [← hc]
  have hmem : ∀ v ∈ fit.fitted 0 :: (List.range N).map fit.fitted, ∃ t < N, v = fit.fitted t := by
    intro v hv
    rcases List.mem_cons.mp hv with rfl | hv
    · exact ⟨0, hN, rfl⟩
    · obtain ⟨t, ht, rfl⟩ := List.mem_map.mp hv
      exact ⟨t, List.mem_range.mp ht, rfl⟩
  have e0 : r.transferX.getD 0 0 = recMin N fit.fitted := by rw [hx 0 (by norm_num)]; simp
  have e1 : r.transferX.getD 999 0 = recMax N fit.fitted := by
    rw [hx 999 (by norm_num)]
    push_cast
    ring
  refine ⟨by rw [← hc]; simp [hP], by rw [← hc]; simp [hP], ?_, ?_, ?_, ?_⟩
  · rw [e0, hfit]
    exact hmem _ (minOf_mem _ _)
  · rw [e1, hfit]
    exact hmem _ (maxOf_mem _ _)
  · intro t ht
    rw [e0, e1, hfit]
    have hm : fit.fitted t ∈ fit.fitted 0 :: (List.range N).map fit.fitted :=
      List.mem_cons_of_mem _ (List.mem_map_of_mem (List.mem_range.mpr ht))
    exact ⟨minOf_le _ _ _ hm, le_maxOf _ _ _ hm⟩
  · intro i hi
    rw [hx _ (by omega), hx _ (by omega), hx _ (by omega)]
    push_cast
    ring

/-- **C77 (exact curve).** If the record is a polynomial of the fitted sine (around its mean) of at most the requested order, with non-zero slope at the mean,
and the fitted sine takes more values than the order, then `k2` and `k3` are exactly the second and third coefficients over the slope, and the returned
curve is exactly that polynomial. -/
theorem C77_exact_curve (solve : Lstsq) (hs : IsLstsq solve) (N : ℕ) (y : ℕ → ℝ) (order : ℤ) (r : StaticNonlin)
    (h : fitStaticNonlin solve N y order = .ok r) (a : ℕ → ℝ) (ha : a 1 ≠ 0)
    (hy : ∀ t < N, y t = Spec.poly a order.toNat (r.fitted t - colMean N r.fitted))
    (hm : Spec.ManyValues N (fun t => r.fitted t - colMean N r.fitted) order.toNat) :
    r.k2 = some (a 2 / a 1) ∧ r.k3 = (if 3 ≤ order then some (a 3 / a 1) else none) ∧
    r.transferY = r.transferX.map (fun v => Spec.poly a order.toNat (v - colMean N r.fitted)) := by
  obtain ⟨h1, -, fit, hf, hc⟩ := fitStatic_ok solve N y order r h
  have e : r.fitted = fit.fitted := (core_spec solve hs N y fit.fitted order.toNat (by omega) r hc).1
  rw [e] at hy hm ⊢
  obtain ⟨k2, k3, ty⟩ := core_exact solve hs N y fit.fitted order.toNat (by omega) r hc a ha hy hm
  refine ⟨k2, ?_, ty⟩
  rw [k3]
  by_cases h3 : 3 ≤ order
  · rw [if_pos h3, if_pos (by omega)]
  · rw [if_neg h3, if_neg (by omega)]

/-- **C77 (compression bias).** If the true curve is `y = y0 + x + k2 x² + k3 x³` in the true zero-mean input `x` and the sine fit found the input with gain
`g` and some offset, the numbers reported are `k2 / g` and `k3 / g²`, not `k2` and `k3`. (For an ideal fit of a sine of amplitude `A` the gain is
`1 + 3/4 k3 A²`, see `C77_ideal_fit_gain`.) -/
theorem C77_compression_bias (solve : Lstsq) (hs : IsLstsq solve) (N : ℕ) (y x fitted : ℕ → ℝ) (y0 k2 k3 g C : ℝ) (hx0 : ∑ t ∈ range N, x t = 0)
    (hy : ∀ t < N, y t = y0 + x t + k2 * x t ^ 2 + k3 * x t ^ 3) (hfit : ∀ t < N, fitted t = g * x t + C) (hm : Spec.ManyValues N x 3)
    (hbig : ∃ t < N, 1 / 10 ^ 10 ≤ |g * x t|) :
    ∃ r, staticNonlinCore solve N y fitted 3 = .ok r ∧ r.k2 = some (k2 / g) ∧ r.k3 = some (k3 / g ^ 2) := by
  obtain ⟨t0, ht0, hb⟩ := hbig
  have hN : (N : ℝ) ≠ 0 := by exact_mod_cast (by omega : N ≠ 0)
  have hg : g ≠ 0 := by
    rintro rfl
    rw [zero_mul, abs_zero] at hb
    linarith [show (0 : ℝ) < 1 / 10 ^ 10 by positivity]
  have hmean : colMean N fitted = C := by
    unfold colMean
    rw [sum_congr rfl fun t ht => hfit t (mem_range.mp ht), sum_add_distrib, ← mul_sum, hx0, sum_const, card_range, nsmul_eq_mul]
    field_simp
    ring
  have hu : ∀ t < N, fitted t - colMean N fitted = g * x t := fun t ht => by rw [hmean, hfit t ht]; ring
  have hm' : Spec.ManyValues N (fun t => fitted t - colMean N fitted) 3 := by
    classical
    obtain ⟨S, hS, hv⟩ := hm
    refine ⟨S.image (g * ·), by rwa [Finset.card_image_of_injective _ (mul_right_injective₀ hg)], ?_⟩
    intro v hv'
    obtain ⟨w, hw, rfl⟩ := Finset.mem_image.mp hv'
    obtain ⟨t, ht, rfl⟩ := hv w hw
    exact ⟨t, ht, hu t ht⟩
  obtain ⟨r, hr⟩ : ∃ r, staticNonlinCore solve N y fitted 3 = .ok r := by
    unfold staticNonlinCore
    simp only
    rw [if_neg]
    · exact ⟨_, rfl⟩
    · push Not
      have := (colPeak_spec N (fun t => fitted t - colMean N fitted)).1 t0 ht0
      rw [hu t0 ht0] at this
      exact hb.trans this
  have := core_exact solve hs N y fitted 3 (by norm_num) r hr
    (fun i => if i = 0 then y0 else if i = 1 then 1 / g else if i = 2 then k2 / g ^ 2 else k3 / g ^ 3) (by simpa using hg) (by
      intro t ht
      rw [hy t ht, hu t ht]
      unfold Spec.poly
      simp only [Finset.sum_range_succ, Finset.sum_range_zero]
      simp
      field_simp) hm'
  refine ⟨r, hr, ?_, ?_⟩
  · rw [this.1]
    simp
    field_simp
  · rw [this.2.1]
    simp
    field_simp

/-- The fundamental of `x + k2 x² + k3 x³` for `x = A cos φ` is `(1 + 3/4 k3 A²) x`; the rest is an offset and the second and third harmonics. -/
theorem C77_ideal_fit_gain (A k2 k3 φ : ℝ) :
    A * Real.cos φ + k2 * (A * Real.cos φ) ^ 2 + k3 * (A * Real.cos φ) ^ 3
      = (1 + 3 / 4 * k3 * A ^ 2) * (A * Real.cos φ) + k2 * A ^ 2 / 2 + k2 * A ^ 2 / 2 * Real.cos (2 * φ) + k3 * A ^ 3 / 4 * Real.cos (3 * φ) := by
  rw [Real.cos_two_mul, Real.cos_three_mul]
  ring

/-- **C77 (pure sine).** A noise-free coherent sine (a whole number of periods) with more values than the order has no measured nonlinearity: `k2 = 0`,
`k3 = 0` (NaN for order 2), and the fitted sine is the record. -/
theorem C77_pure_sine (solve : Lstsq) (hs : IsLstsq solve) (n k : ℕ) (order : ℤ) (h2 : 2 ≤ order) (hno : order + 2 ≤ n) (hn : 5 ≤ n) (hbig : n ≤ 10 ^ 9)
    (hk : 0 < k) (hlast : k < n / 2) (A θ C : ℝ) (hA : 0 < A) (ht0 : -Real.pi < θ) (ht1 : θ ≤ Real.pi) (y : ℕ → ℝ)
    (hy : ∀ t < n, y t = sineAt A ((k : ℝ) / n) θ C t) (hm : Spec.ManyValues n y order.toNat) (hbigA : ∃ t < n, 1 / 10 ^ 10 ≤ |y t - colMean n y|) :
    ∃ r, fitStaticNonlin solve n y order = .ok r ∧ r.k2 = some 0 ∧ r.k3 = (if 3 ≤ order then some 0 else none) ∧ ∀ t < n, r.fitted t = y t := by
  obtain ⟨fit, hf, -, -, -, -, hfy, -⟩ := C58_coherent_recovery solve hs n k hn hbig hk hlast A θ C hA ht0 ht1 1 (1 / 10 ^ 9) y hy
  rw [show ((1 : ℕ) : ℤ) = 1 from rfl] at hf
  have hmean : colMean n fit.fitted = colMean n y := by
    unfold colMean
    congr 1
    apply sum_congr rfl
    intro t ht
    exact (hfy t (mem_range.mp ht)).1
  cases hr : fitStaticNonlin solve n y order with
  | error e =>
    exfalso
    rcases ((C77_errors solve n y order e).mp hr).2 with h | h | ⟨fit', hf', h⟩
    · omega
    · omega
    · rw [hf] at hf'
      injection hf' with hf'
      subst hf'
      obtain ⟨t, ht, hb⟩ := hbigA
      have := h t ht
      rw [(hfy t ht).1, hmean] at this
      linarith
  | ok r =>
    obtain ⟨⟨fit', hf', hrf⟩, -⟩ := C77_best_polynomial solve hs n y order r hr
    rw [hf] at hf'
    injection hf' with hf'
    subst hf'
    have hrm : colMean n r.fitted = colMean n y := by rw [hrf, hmean]
    have := C77_exact_curve solve hs n y order r hr (fun i => if i = 0 then colMean n y else if i = 1 then 1 else 0) (by simp) (by
      intro t ht
      rw [hrm, hrf, (hfy t ht).1]
      unfold Spec.poly
      obtain ⟨m, hmo⟩ := Nat.exists_eq_add_of_le (show 1 ≤ order.toNat by omega)
      rw [hmo, show 1 + m + 1 = m + 1 + 1 by omega, Finset.sum_range_succ', Finset.sum_range_succ', Finset.sum_eq_zero]
      · simp
      · intro i _
        simp only
        rw [if_neg (by omega), if_neg (by omega), zero_mul]) (by
      classical
      obtain ⟨S, hS, hv⟩ := hm
      refine ⟨S.image (fun v => v - colMean n y), by rwa [Finset.card_image_of_injective _ sub_left_injective], ?_⟩
      intro v hv'
      obtain ⟨w, hw, rfl⟩ := Finset.mem_image.mp hv'
      obtain ⟨t, ht, rfl⟩ := hv w hw
      exact ⟨t, ht, by simp only; rw [hrm, hrf, (hfy t ht).1]⟩)
    refine ⟨r, rfl, ?_, ?_, fun t ht => by rw [hrf, (hfy t ht).1]⟩
    · rw [this.1]; simp
    · rw [this.2.1]; simp

/-! ## Concrete cases -/

/-- Four input levels, `k2 = 1/10`, `k3 = -1/10`, fitted gain `9/10`. -/
example (solve : Lstsq) (hs : IsLstsq solve) :
    ∃ r, staticNonlinCore solve 4 (fun t => let x := ([-2, -1, 1, 2].getD t 0 : ℝ); 5 + x + 1 / 10 * x ^ 2 + -(1 / 10) * x ^ 3)
      (fun t => 9 / 10 * ([-2, -1, 1, 2].getD t 0 : ℝ) + 5) 3 = .ok r ∧ r.k2 = some (1 / 10 / (9 / 10)) ∧ r.k3 = some (-(1 / 10) / (9 / 10) ^ 2) := by
  refine C77_compression_bias solve hs 4 _ (fun t => ([-2, -1, 1, 2].getD t 0 : ℝ)) _ 5 (1 / 10) (-(1 / 10)) (9 / 10) 5 ?_ (fun t _ => rfl) (fun t _ => rfl)
    ⟨{-2, -1, 1, 2}, ?_, ?_⟩ ⟨0, by norm_num, ?_⟩
  · simp [Finset.sum_range_succ]
  · have : ({-2, -1, 1, 2} : Finset ℝ).card = 4 := by
      rw [Finset.card_insert_of_notMem, Finset.card_insert_of_notMem, Finset.card_insert_of_notMem, Finset.card_singleton] <;> norm_num
    omega
  · intro v hv
    simp only [Finset.mem_insert, Finset.mem_singleton] at hv
    rcases hv with rfl | rfl | rfl | rfl
    · exact ⟨0, by norm_num, rfl⟩
    · exact ⟨1, by norm_num, rfl⟩
    · exact ⟨2, by norm_num, rfl⟩
    · exact ⟨3, by norm_num, rfl⟩
  · simp only [List.getD_cons_zero]
    rw [abs_of_neg (by norm_num)]
    norm_num

/-- One period of a cosine in twelve samples, order 3. -/
example (solve : Lstsq) (hs : IsLstsq solve) :
    ∃ r, fitStaticNonlin solve 12 (sineAt 1 ((1 : ℕ) / (12 : ℕ)) 0 0) 3 = .ok r ∧ r.k2 = some 0 ∧ r.k3 = some 0 := by
  have v : ∀ t, sineAt 1 (((1 : ℕ) : ℝ) / (12 : ℕ)) 0 0 t = Real.cos (t * (Real.pi / 6)) := by
    intro t
    unfold sineAt
    rw [one_mul, add_zero, add_zero]
    congr 1
    push_cast
    ring
  have v0 : sineAt 1 (((1 : ℕ) : ℝ) / (12 : ℕ)) 0 0 0 = 1 := by rw [v]; simp
  have v2 : sineAt 1 (((1 : ℕ) : ℝ) / (12 : ℕ)) 0 0 2 = 1 / 2 := by
    rw [v, show ((2 : ℕ) : ℝ) * (Real.pi / 6) = Real.pi / 3 by push_cast; ring, Real.cos_pi_div_three]
  have v3 : sineAt 1 (((1 : ℕ) : ℝ) / (12 : ℕ)) 0 0 3 = 0 := by
    rw [v, show ((3 : ℕ) : ℝ) * (Real.pi / 6) = Real.pi / 2 by push_cast; ring, Real.cos_pi_div_two]
  have v6 : sineAt 1 (((1 : ℕ) : ℝ) / (12 : ℕ)) 0 0 6 = -1 := by
    rw [v, show ((6 : ℕ) : ℝ) * (Real.pi / 6) = Real.pi by push_cast; ring, Real.cos_pi]
  obtain ⟨r, h1, h2, h3, -⟩ := C77_pure_sine solve hs 12 1 3 (by norm_num) (by norm_num) (by norm_num) (by norm_num) (by norm_num) (by norm_num) 1 0 0
    (by norm_num) (by linarith [Real.pi_pos]) Real.pi_pos.le _ (fun t _ => rfl)
    ⟨{1, 1 / 2, 0, -1}, by
      have : ({1, 1 / 2, 0, -1} : Finset ℝ).card = 4 := by
        rw [Finset.card_insert_of_notMem, Finset.card_insert_of_notMem, Finset.card_insert_of_notMem, Finset.card_singleton] <;> norm_num
      rw [this]; decide, by
      intro w hw
      simp only [Finset.mem_insert, Finset.mem_singleton] at hw
      rcases hw with rfl | rfl | rfl | rfl
      · exact ⟨0, by norm_num, v0⟩
      · exact ⟨2, by norm_num, v2⟩
      · exact ⟨3, by norm_num, v3⟩
      · exact ⟨6, by norm_num, v6⟩⟩
    (by
      set m := colMean 12 (sineAt 1 (((1 : ℕ) : ℝ) / (12 : ℕ)) 0 0)
      by_cases hm : 0 ≤ m
      · refine ⟨6, by norm_num, ?_⟩
        rw [v6, abs_of_neg (by linarith)]
        have : (1 : ℝ) / 10 ^ 10 ≤ 1 := by norm_num
        linarith
      · refine ⟨0, by norm_num, ?_⟩
        push Not at hm
        rw [v0, abs_of_pos (by linarith)]
        have : (1 : ℝ) / 10 ^ 10 ≤ 1 := by norm_num
        linarith)
  exact ⟨r, h1, h2, by simpa using h3⟩

end Verif
