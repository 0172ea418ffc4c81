import Verif.Model.MatlabNonlin
import Verif.Theorems.StaticNonlin
import Verif.Theorems.MatlabFit
import Verif.Theorems.Mismatch

/-!
# C126: static nonlinearity and MATLAB's `fitstaticnl.m`
-/

namespace Verif

open Model Finset

/-! ## The polynomial fit -/

private theorem best_unique (N d : ℕ) (u z : ℕ → ℝ) (c q : ℕ → ℝ) (hu : Spec.ManyValues N u d)
    (hc : ∀ p : ℕ → ℝ, ∑ t ∈ range N, (z t - Spec.poly c d (u t)) ^ 2 ≤ ∑ t ∈ range N, (z t - Spec.poly p d (u t)) ^ 2)
    (hq : ∀ p : ℕ → ℝ, ∑ t ∈ range N, (z t - Spec.poly q d (u t)) ^ 2 ≤ ∑ t ∈ range N, (z t - Spec.poly p d (u t)) ^ 2) : ∀ i ≤ d, c i = q i := by
  apply poly_unique N d u c q hu
  have hmid : ∀ v, Spec.poly (fun i => (c i + q i) / 2) d v = (Spec.poly c d v + Spec.poly q d v) / 2 := by
    intro v
    unfold Spec.poly
    rw [← sum_add_distrib, sum_div]
    apply sum_congr rfl
    intro i _
    ring
  have h1 := hc (fun i => (c i + q i) / 2)
  have h2 := hq c
  have e : ∑ t ∈ range N, (z t - Spec.poly (fun i => (c i + q i) / 2) d (u t)) ^ 2 =
      (∑ t ∈ range N, (z t - Spec.poly c d (u t)) ^ 2) / 2 + (∑ t ∈ range N, (z t - Spec.poly q d (u t)) ^ 2) / 2 -
        (∑ t ∈ range N, (Spec.poly c d (u t) - Spec.poly q d (u t)) ^ 2) / 4 := by
    rw [sum_div, sum_div, sum_div, ← sum_add_distrib, ← sum_sub_distrib]
    apply sum_congr rfl
    intro t _
    rw [hmid]
    ring
  have h3 : ∑ t ∈ range N, (Spec.poly c d (u t) - Spec.poly q d (u t)) ^ 2 = 0 := by
    apply le_antisymm _ (sum_nonneg fun t _ => sq_nonneg _)
    rw [e] at h1
    linarith
  intro t ht
  have := (sum_eq_zero_iff_of_nonneg fun t _ => sq_nonneg _).mp h3 t (mem_range.mpr ht)
  have := pow_eq_zero_iff (n := 2) (by norm_num) |>.mp this
  linarith

private theorem mlPolyfit_spec (solve : Lstsq) (hs : IsLstsq solve) (N : ℕ) (x y : ℕ → ℝ) (d : ℕ) :
    (mlPolyfit solve N x y d).length = d + 1 ∧
    ∀ q : ℕ → ℝ, ∑ t ∈ range N, (y t - Spec.poly (fun i => (mlPolyfit solve N x y d).getD (d - i) 0) d (x t)) ^ 2
      ≤ ∑ t ∈ range N, (y t - Spec.poly q d (x t)) ^ 2 := by
  have hlen : (vander x d).length = d + 1 := by simp [vander]
  have hcol : ∀ j < d + 1, (vander x d).getD j 0 = fun t => x t ^ (d - j) := by
    intro j hj
    unfold vander
    exact getD_range_map (d + 1) _ j 0 hj
  have hmv : ∀ (z : List ℝ) (t : ℕ), matVec (vander x d) z t = Spec.poly (fun i => z.getD (d - i) 0) d (x t) := by
    intro z t
    unfold matVec
    rw [hlen, ← sum_vander d (fun j => z.getD j 0)]
    apply sum_congr rfl
    intro j hj
    rw [hcol j (mem_range.mp hj)]
  unfold mlPolyfit
  refine ⟨by rw [hs.len, hlen], fun q => ?_⟩
  have h := lstsq_min solve hs N (vander x d) y ((List.range (d + 1)).map fun j => q (d - j))
  simp only [hmv] at h
  refine le_trans h (le_of_eq ?_)
  apply sum_congr rfl
  intro t _
  congr 2
  unfold Spec.poly
  apply sum_congr rfl
  intro i hi
  have := mem_range.mp hi
  show ((List.range (d + 1)).map fun j => q (d - j)).getD (d - i) 0 * x t ^ i = q i * x t ^ i
  rw [getD_range_map (d + 1) _ (d - i) 0 (by omega), show d - (d - i) = i by omega]

/-- **C126 (same polynomial fit).** Whatever the two least-squares routines, MATLAB's `polyfit` on plain powers and NumPy's on normalized ones return the same coefficients
when the abscissae take more different values than the order. -/
theorem C126_polyfit (solve solve' : Lstsq) (hs : IsLstsq solve) (hs' : IsLstsq solve') (N d : ℕ) (hd : 0 < d) (x y : ℕ → ℝ) (hm : Spec.ManyValues N x d) :
    mlPolyfit solve' N x y d = polyfit solve N x y d := by
  have hx : ∃ t < N, x t ≠ 0 := by
    obtain ⟨S, hS, hv⟩ := hm
    by_contra hcon
    push Not at hcon
    have : S ⊆ {0} := by
      intro v hvS
      obtain ⟨t, ht, rfl⟩ := hv v hvS
      rw [hcon t ht]
      simp
    have := card_le_card this
    rw [card_singleton] at this
    omega
  obtain ⟨l1, o1⟩ := mlPolyfit_spec solve' hs' N x y d
  obtain ⟨l2, o2⟩ := polyfit_spec solve hs N x y d hx
  have h := best_unique N d x y _ _ hm o1 o2
  apply List.ext_getElem (by omega)
  intro i h1 h2
  have := h (d - i) (by omega)
  rw [show d - (d - i) = i by omega, List.getD_eq_getElem _ _ h1, List.getD_eq_getElem _ _ h2] at this
  exact this

/-- **C126 (same analysis).** For the same fitted sine, taking more different values than the order, the two programs give the same `k2`, `k3` and curve, and refuse the
same records. -/
theorem C126_core (solve solve' : Lstsq) (hs : IsLstsq solve) (hs' : IsLstsq solve') (N : ℕ) (y fitted : ℕ → ℝ) (d : ℕ) (hd : 2 ≤ d)
    (hm : Spec.ManyValues N (fun t => fitted t - colMean N fitted) d) :
    (∃ r, staticNonlinCore solve N y fitted d = .ok r ∧ mlStaticCore solve' N y fitted d = some r) ∨
      (staticNonlinCore solve N y fitted d = .error .valueError ∧ mlStaticCore solve' N y fitted d = none) := by
  unfold staticNonlinCore mlStaticCore
  simp only
  by_cases hx : colPeak N (fun t => fitted t - colMean N fitted) < 1 / 10 ^ 10
  · right
    rw [if_pos hx, if_pos hx]
    exact ⟨rfl, rfl⟩
  · left
    rw [if_neg hx, if_neg hx]
    push Not at hx
    have h0 : 0 < colPeak N (fun t => fitted t - colMean N fitted) := lt_of_lt_of_le (by positivity) hx
    have hm' : Spec.ManyValues N (fun t => (fitted t - colMean N fitted) / colPeak N (fun t => fitted t - colMean N fitted)) d := by
      classical
      obtain ⟨S, hS, hv⟩ := hm
      refine ⟨S.image fun v => v / colPeak N (fun t => fitted t - colMean N fitted), ?_, ?_⟩
      · rw [card_image_of_injective _ fun a b h => by simpa [div_left_inj' h0.ne'] using h]
        exact hS
      · intro v hvS
        obtain ⟨w, hw, rfl⟩ := mem_image.mp hvS
        obtain ⟨t, ht, rfl⟩ := hv w hw
        exact ⟨t, ht, rfl⟩
    have hl := (mlPolyfit_spec solve' hs' N (fun t => (fitted t - colMean N fitted) / colPeak N (fun t => fitted t - colMean N fitted)) (fun t => y t - colMean N y) d).1
    rw [hl, C126_polyfit solve solve' hs hs' N d (by omega) _ _ hm', show d + 1 - 2 = d - 1 by omega, show d + 1 - 3 = d - 2 by omega, show d + 1 - 4 = d - 3 by omega]
    exact ⟨_, rfl, rfl⟩

/-! ## Records with harmonics -/

private theorem orth_cos (n k h : ℕ) (hn : n ≠ 0) (h1 : 1 ≤ h) (hp : ¬ n ∣ (h + 1) * k) (hm : ¬ n ∣ (h - 1) * k) (c : ℝ) :
    ∑ t ∈ range n, Real.cos (2 * Real.pi * (((h * k : ℕ) : ℤ) * t / n) + c) * fitCos ((k : ℝ) / n) t = 0 := by
  have e1 := sum_cos_zero n hn ((((h + 1) * k : ℕ)) : ℤ) (by exact_mod_cast hp) c
  have e2 := sum_cos_zero n hn ((((h - 1) * k : ℕ)) : ℤ) (by exact_mod_cast hm) c
  have : ∀ t ∈ range n, Real.cos (2 * Real.pi * (((h * k : ℕ) : ℤ) * t / n) + c) * fitCos ((k : ℝ) / n) t =
      (Real.cos (2 * Real.pi * (((((h + 1) * k : ℕ)) : ℤ) * t / n) + c) + Real.cos (2 * Real.pi * (((((h - 1) * k : ℕ)) : ℤ) * t / n) + c)) / 2 := by
    intro t _
    unfold fitCos
    have a1 : 2 * Real.pi * (((((h + 1) * k : ℕ)) : ℤ) * t / n) + c = (2 * Real.pi * (((h * k : ℕ) : ℤ) * t / n) + c) + 2 * Real.pi * ((k : ℝ) / n) * t := by
      push_cast
      ring
    have a2 : 2 * Real.pi * (((((h - 1) * k : ℕ)) : ℤ) * t / n) + c = (2 * Real.pi * (((h * k : ℕ) : ℤ) * t / n) + c) - 2 * Real.pi * ((k : ℝ) / n) * t := by
      push_cast [Nat.cast_sub h1]
      ring
    rw [a1, a2, Real.cos_add (2 * Real.pi * (((h * k : ℕ) : ℤ) * t / n) + c), Real.cos_sub (2 * Real.pi * (((h * k : ℕ) : ℤ) * t / n) + c)]
    ring
  rw [sum_congr rfl this, ← sum_div, sum_add_distrib, e1, e2]
  norm_num

private theorem orth_sin (n k h : ℕ) (hn : n ≠ 0) (h1 : 1 ≤ h) (hp : ¬ n ∣ (h + 1) * k) (hm : ¬ n ∣ (h - 1) * k) (c : ℝ) :
    ∑ t ∈ range n, Real.cos (2 * Real.pi * (((h * k : ℕ) : ℤ) * t / n) + c) * fitSin ((k : ℝ) / n) t = 0 := by
  have e1 := sum_cos_zero n hn ((((h + 1) * k : ℕ)) : ℤ) (by exact_mod_cast hp) (c - Real.pi / 2)
  have e2 := sum_cos_zero n hn ((((h - 1) * k : ℕ)) : ℤ) (by exact_mod_cast hm) (c - Real.pi / 2)
  have : ∀ t ∈ range n, Real.cos (2 * Real.pi * (((h * k : ℕ) : ℤ) * t / n) + c) * fitSin ((k : ℝ) / n) t =
      (Real.cos (2 * Real.pi * (((((h + 1) * k : ℕ)) : ℤ) * t / n) + (c - Real.pi / 2)) -
        Real.cos (2 * Real.pi * (((((h - 1) * k : ℕ)) : ℤ) * t / n) + (c - Real.pi / 2))) / 2 := by
    intro t _
    unfold fitSin
    have a1 : 2 * Real.pi * (((((h + 1) * k : ℕ)) : ℤ) * t / n) + (c - Real.pi / 2) =
        ((2 * Real.pi * (((h * k : ℕ) : ℤ) * t / n) + c) + 2 * Real.pi * ((k : ℝ) / n) * t) - Real.pi / 2 := by
      push_cast
      ring
    have a2 : 2 * Real.pi * (((((h - 1) * k : ℕ)) : ℤ) * t / n) + (c - Real.pi / 2) =
        ((2 * Real.pi * (((h * k : ℕ) : ℤ) * t / n) + c) - 2 * Real.pi * ((k : ℝ) / n) * t) - Real.pi / 2 := by
      push_cast [Nat.cast_sub h1]
      ring
    rw [a1, a2, Real.cos_sub_pi_div_two, Real.cos_sub_pi_div_two, Real.sin_add, Real.sin_sub]
    ring
  rw [sum_congr rfl this, ← sum_div, sum_sub_distrib, e1, e2]
  norm_num

/-- The three-parameter fit at the true frequency passes over second and third harmonics that do not fold onto the tone or DC. -/
private theorem first_distorted (solve : Lstsq) (hs : IsLstsq solve) (n k : ℕ) (h3 : ¬ n ∣ 3 * k) (h4 : ¬ n ∣ 4 * k) (A θ C p q : ℝ)
    (y : ℕ → ℝ) (hy : ∀ t < n, y t = A * Real.cos (2 * Real.pi * (k / n) * t + θ) + C + p * Real.cos (2 * (2 * Real.pi * (k / n) * t + θ))
      + q * Real.cos (3 * (2 * Real.pi * (k / n) * t + θ))) :
    ∀ t < n, matVec [fitCos ((k : ℝ) / n), fitSin ((k : ℝ) / n), fun _ => 1] (solve n [fitCos ((k : ℝ) / n), fitSin ((k : ℝ) / n), fun _ => 1] y) t =
      A * Real.cos (2 * Real.pi * (k / n) * t + θ) + C := by
  intro t0 ht0
  have hn : n ≠ 0 := by omega
  have h2 : ¬ n ∣ 2 * k := fun h => h4 (by rw [show 4 * k = 2 * (2 * k) by ring]; exact h.mul_left 2)
  have h1 : ¬ n ∣ 1 * k := fun h => h3 (by rw [show 3 * k = 3 * (1 * k) by ring]; exact h.mul_left 3)
  have key := lstsq_projection solve hs n [fitCos ((k : ℝ) / n), fitSin ((k : ℝ) / n), fun _ => 1] y
    (fun t => p * Real.cos (2 * (2 * Real.pi * (k / n) * t + θ)) + q * Real.cos (3 * (2 * Real.pi * (k / n) * t + θ)))
    [A * Real.cos θ, -(A * Real.sin θ), C] rfl (by
      intro t ht
      rw [fit_cols3, hy t ht, Real.cos_add (2 * Real.pi * (k / n) * t) θ]
      simp [fitCos, fitSin]
      ring) (by
      have c2 : ∀ t : ℕ, 2 * (2 * Real.pi * (k / n) * t + θ) = 2 * Real.pi * (((2 * k : ℕ) : ℤ) * t / n) + 2 * θ := by
        intro t
        push_cast
        ring
      have c3 : ∀ t : ℕ, 3 * (2 * Real.pi * (k / n) * t + θ) = 2 * Real.pi * (((3 * k : ℕ) : ℤ) * t / n) + 3 * θ := by
        intro t
        push_cast
        ring
      intro j hj
      simp only [c2, c3, add_mul, sum_add_distrib, mul_assoc p, mul_assoc q, ← mul_sum]
      match j, hj with
      | 0, _ =>
        simp only [List.getD_cons_zero]
        rw [orth_cos n k 2 hn (by norm_num) h3 h1, orth_cos n k 3 hn (by norm_num) h4 h2]
        ring
      | 1, _ =>
        simp only [List.getD_cons_succ, List.getD_cons_zero]
        rw [orth_sin n k 2 hn (by norm_num) h3 h1, orth_sin n k 3 hn (by norm_num) h4 h2]
        ring
      | 2, _ =>
        simp only [List.getD_cons_succ, List.getD_cons_zero, mul_one]
        rw [sum_cos_zero n hn _ (by exact_mod_cast h2), sum_cos_zero n hn _ (by exact_mod_cast h3)]
        ring
      | j + 3, hj => simp at hj) t0 ht0
  rw [key, fit_cols3, Real.cos_add (2 * Real.pi * (k / n) * t0) θ]
  simp [fitCos, fitSin]
  ring

/-- **C126 (given frequency).** Apply a curve `y = y0 + x + k2 x² + k3 x³` to a coherent sine `x` of amplitude `A` whose second and third harmonics do not fold onto the tone
or DC. MATLAB, told the frequency, finds exactly the fundamental and reports `k2 / g` and `k3 / g²` with `g = 1 + 3/4 k3 A²`. -/
theorem C126_given_frequency (solve : Lstsq) (hs : IsLstsq solve) (n k : ℕ) (hn : 5 ≤ n) (hk : 0 < k) (hkn : 2 * k < n) (h3 : ¬ n ∣ 3 * k) (h4 : ¬ n ∣ 4 * k)
    (A θ y0 k2 k3 : ℝ) (x y : ℕ → ℝ) (hx : ∀ t < n, x t = A * Real.cos (2 * Real.pi * (k / n) * t + θ)) (hy : ∀ t < n, y t = y0 + x t + k2 * x t ^ 2 + k3 * x t ^ 3)
    (hm : Spec.ManyValues n x 3) (hbig : ∃ t < n, 1 / 10 ^ 10 ≤ |(1 + 3 / 4 * k3 * A ^ 2) * x t|) :
    ∃ r, mlStaticNl solve n y 3 ((k : ℝ) / n) = some r ∧ r.k2 = some (k2 / (1 + 3 / 4 * k3 * A ^ 2)) ∧ r.k3 = some (k3 / (1 + 3 / 4 * k3 * A ^ 2) ^ 2) ∧
      ∀ t < n, r.fitted t = (1 + 3 / 4 * k3 * A ^ 2) * x t + (y0 + k2 * A ^ 2 / 2) := by
  have hnR : (0 : ℝ) < n := by exact_mod_cast (by omega : 0 < n)
  have hf0 : 0 < (k : ℝ) / n := by positivity
  have hf1 : (k : ℝ) / n < 1 / 2 := by
    rw [div_lt_iff₀ hnR]
    have : ((2 * k : ℕ) : ℝ) < n := by exact_mod_cast hkn
    push_cast at this
    linarith
  obtain ⟨r, m, hr, hmm, -, -, -, -, -, hfit, -⟩ := C124_given_frequency solve solve hs hs n (by omega) y ((k : ℝ) / n) 1 hf0 hf1
  have hfirst := first_distorted solve hs n k h3 h4 ((1 + 3 / 4 * k3 * A ^ 2) * A) θ (y0 + k2 * A ^ 2 / 2) (k2 * A ^ 2 / 2) (k3 * A ^ 3 / 4) y (by
    intro t ht
    have := C77_ideal_fit_gain A k2 k3 (2 * Real.pi * (k / n) * t + θ)
    rw [hy t ht, hx t ht]
    linear_combination this)
  have hfitted : ∀ t < n, m.fitted t = (1 + 3 / 4 * k3 * A ^ 2) * x t + (y0 + k2 * A ^ 2 / 2) := by
    intro t ht
    have e : m.fitted t = matVec [fitCos ((k : ℝ) / n), fitSin ((k : ℝ) / n), fun _ => 1] (solve n [fitCos ((k : ℝ) / n), fitSin ((k : ℝ) / n), fun _ => 1] y) t := by
      have hm' : mlSinfitDefault solve n y ((k : ℝ) / n) = some (mlFitResult (mlFitFirst solve n y ((k : ℝ) / n))) := by
        unfold mlSinfitDefault mlSinfit
        rw [if_neg (by omega), if_neg (by norm_num; exact ⟨hf0.le, hf1.le⟩), if_neg hf0.ne']
        simp [hf0.ne']
      rw [hm'] at hmm
      injection hmm with hmm
      rw [← hmm, fit_cols3]
      rfl
    rw [e, hfirst t ht, hx t ht]
    ring
  have hx0 : ∑ t ∈ range n, x t = 0 := by
    have h1 : ¬ ((n : ℕ) : ℤ) ∣ ((k : ℕ) : ℤ) := by
      intro h
      exact h3 ((by exact_mod_cast h : n ∣ k).mul_left 3)
    have := sum_cos_zero n (by omega) (k : ℤ) h1 θ
    rw [sum_congr rfl fun t ht => hx t (mem_range.mp ht), ← mul_sum]
    rw [sum_congr rfl fun t _ => by rw [show 2 * Real.pi * ((k : ℝ) / n) * t + θ = 2 * Real.pi * (((k : ℤ) : ℝ) * t / n) + θ by push_cast; ring], this, mul_zero]
  obtain ⟨q, hq, e2, e3⟩ := C77_compression_bias solve hs n y x m.fitted y0 k2 k3 (1 + 3 / 4 * k3 * A ^ 2) (y0 + k2 * A ^ 2 / 2) hx0 hy hfitted hm hbig
  have hg : (1 + 3 / 4 * k3 * A ^ 2) ≠ 0 := by
    intro h
    obtain ⟨t, _, h'⟩ := hbig
    rw [h, zero_mul, abs_zero] at h'
    norm_num at h'
  have hmean : colMean n m.fitted = y0 + k2 * A ^ 2 / 2 := by
    unfold colMean
    rw [sum_congr rfl fun t ht => hfitted t (mem_range.mp ht), sum_add_distrib, ← mul_sum, hx0, sum_const, card_range, nsmul_eq_mul]
    field_simp
    ring
  have hm3 : Spec.ManyValues n (fun t => m.fitted t - colMean n m.fitted) 3 := by
    classical
    obtain ⟨S, hS, hv⟩ := hm
    refine ⟨S.image fun v => (1 + 3 / 4 * k3 * A ^ 2) * v, ?_, ?_⟩
    · rw [card_image_of_injective _ fun a b h => mul_left_cancel₀ hg h]
      exact hS
    · intro v hvS
      obtain ⟨w, hw, rfl⟩ := mem_image.mp hvS
      obtain ⟨t, ht, rfl⟩ := hv w hw
      exact ⟨t, ht, by show m.fitted t - colMean n m.fitted = _; rw [hfitted t ht, hmean]; ring⟩
  have hfq : q.fitted = m.fitted := (core_spec solve hs n y m.fitted 3 (by norm_num) q hq).1
  refine ⟨q, ?_, e2, e3, by rw [hfq]; exact hfitted⟩
  unfold mlStaticNl
  rw [if_neg (by norm_num), if_neg (by push Not; exact ⟨hf0.le, hf1⟩), if_neg (by push_cast; omega), hmm, Option.bind_some]
  rcases C126_core solve solve hs hs n y m.fitted 3 (by norm_num) hm3 with ⟨q', h1', h2'⟩ | ⟨h1', _⟩
  · rw [hq] at h1'
    injection h1' with h1'
    rw [h1']
    exact h2'
  · rw [hq] at h1'
    cases h1'

/-- Values of a 12-sample period. -/
private theorem twelve : Real.cos (2 * Real.pi * ((1 : ℕ) / (12 : ℕ)) * (0 : ℕ) + 0) = 1 ∧ Real.cos (2 * Real.pi * ((1 : ℕ) / (12 : ℕ)) * (2 : ℕ) + 0) = 1 / 2 ∧
    Real.cos (2 * Real.pi * ((1 : ℕ) / (12 : ℕ)) * (3 : ℕ) + 0) = 0 ∧ Real.cos (2 * Real.pi * ((1 : ℕ) / (12 : ℕ)) * (6 : ℕ) + 0) = -1 := by
  refine ⟨by simp, ?_, ?_, ?_⟩
  · rw [show 2 * Real.pi * (((1 : ℕ) : ℝ) / (12 : ℕ)) * (2 : ℕ) + 0 = Real.pi / 3 by push_cast; ring, Real.cos_pi_div_three]
  · rw [show 2 * Real.pi * (((1 : ℕ) : ℝ) / (12 : ℕ)) * (3 : ℕ) + 0 = Real.pi / 2 by push_cast; ring, Real.cos_pi_div_two]
  · rw [show 2 * Real.pi * (((1 : ℕ) : ℝ) / (12 : ℕ)) * (6 : ℕ) + 0 = Real.pi by push_cast; ring, Real.cos_pi]

private theorem twelve_many : Spec.ManyValues 12 (fun t => 2 * Real.cos (2 * Real.pi * ((1 : ℕ) / (12 : ℕ)) * t + 0)) 3 := by
  obtain ⟨a, b, c, d⟩ := twelve
  refine ⟨{2, 1, 0, -2}, by norm_num [card_insert_of_notMem], ?_⟩
  intro v hv
  simp only [mem_insert, mem_singleton] at hv
  rcases hv with rfl | rfl | rfl | rfl
  · exact ⟨0, by norm_num, by simp only [a]; norm_num⟩
  · exact ⟨2, by norm_num, by simp only [b]; norm_num⟩
  · exact ⟨3, by norm_num, by simp only [c]; norm_num⟩
  · exact ⟨6, by norm_num, by simp only [d]; norm_num⟩

/-- One period of amplitude 2 in 12 samples through `y = x + x²/10 + x³/100`: the reported numbers are `1/10` and `1/100` over the gain `1.03` and its square. -/
example (solve : Lstsq) (hs : IsLstsq solve) (y : ℕ → ℝ) (hy : ∀ t < 12, y t = 0 + 2 * Real.cos (2 * Real.pi * ((1 : ℕ) / (12 : ℕ)) * t + 0)
      + 1 / 10 * (2 * Real.cos (2 * Real.pi * ((1 : ℕ) / (12 : ℕ)) * t + 0)) ^ 2 + 1 / 100 * (2 * Real.cos (2 * Real.pi * ((1 : ℕ) / (12 : ℕ)) * t + 0)) ^ 3) :
    ∃ r, mlStaticNl solve 12 y 3 (((1 : ℕ) : ℝ) / (12 : ℕ)) = some r ∧ r.k2 = some (10 / 103) := by
  obtain ⟨r, h1, h2, -⟩ := C126_given_frequency solve hs 12 1 (by norm_num) (by norm_num) (by norm_num) (by norm_num) (by norm_num) 2 0 0 (1 / 10) (1 / 100)
    (fun t => 2 * Real.cos (2 * Real.pi * ((1 : ℕ) / (12 : ℕ)) * t + 0)) y (fun t _ => rfl) hy twelve_many ⟨0, by norm_num, by simp only [twelve.1]; norm_num [abs_of_pos]⟩
  exact ⟨r, h1, by rw [h2]; norm_num⟩

/-- **C126 (pure sine).** On a noise-free coherent sine, not in the last bin and with more values than the order, both programs report no nonlinearity. -/
theorem C126_pure_sine (solve solve' : Lstsq) (hs : IsLstsq solve) (hs' : IsLstsq solve') (n k : ℕ) (order : ℤ) (h2 : 2 ≤ order) (hno : order + 2 ≤ n) (hn : 5 ≤ n)
    (hbig : n ≤ 10 ^ 9) (hk : 0 < k) (hlast : k + 1 < n / 2) (A θ C : ℝ) (hA : 0 < A) (ht0 : -Real.pi < θ) (ht1 : θ < Real.pi) (y : ℕ → ℝ)
    (hy : ∀ t < n, y t = sineAt A ((k : ℝ) / n) θ C t) (hm : Spec.ManyValues n y order.toNat) (hbigA : ∃ t < n, 1 / 10 ^ 10 ≤ |y t - colMean n y|) :
    ∃ r m, fitStaticNonlin solve n y order = .ok r ∧ mlStaticNl solve' n y order 0 = some m ∧ r.k2 = some 0 ∧ m.k2 = some 0 ∧ m.k3 = r.k3 ∧
      ∀ t < n, r.fitted t = y t ∧ m.fitted t = y t := by
  obtain ⟨r, hr, r2, r3, rf⟩ := C77_pure_sine solve hs n k order h2 hno hn hbig hk (by omega) A θ C hA ht0 ht1.le y hy hm hbigA
  obtain ⟨r0, s, -, hsin, -, -, -, -, -, -, -, -, -, hfit⟩ := C124_coherent solve solve' hs hs' n k hn hbig hk hlast A θ C hA ht0 ht1 1 (1 / 10 ^ 9) y hy
  have hsf : ∀ t < n, s.fitted t = y t := fun t ht => (hfit t ht).1
  have hmean : colMean n s.fitted = colMean n y := by
    unfold colMean
    rw [sum_congr rfl fun t ht => hsf t (mem_range.mp ht)]
  have hms : Spec.ManyValues n (fun t => s.fitted t - colMean n s.fitted) order.toNat := by
    classical
    obtain ⟨S, hS, hv⟩ := hm
    refine ⟨S.image fun v => v - colMean n y, ?_, ?_⟩
    · rw [card_image_of_injective _ fun a b h => by simpa using h]
      exact hS
    · intro v hvS
      obtain ⟨w, hw, rfl⟩ := mem_image.mp hvS
      obtain ⟨t, ht, rfl⟩ := hv w hw
      exact ⟨t, ht, by show s.fitted t - colMean n s.fitted = _; rw [hsf t ht, hmean]⟩
  have hpk : ¬ colPeak n (fun t => s.fitted t - colMean n s.fitted) < 1 / 10 ^ 10 := by
    obtain ⟨t, ht, hb⟩ := hbigA
    have := (colPeak_spec n (fun t => s.fitted t - colMean n s.fitted)).1 t ht
    rw [hsf t ht] at this
    rw [← hmean] at hb
    exact not_lt.mpr (hb.trans this)
  rcases C126_core solve' solve' hs' hs' n y s.fitted order.toNat (by omega) hms with ⟨m, h1', h2'⟩ | ⟨h1', _⟩
  · have hml : mlStaticNl solve' n y order 0 = some m := by
      unfold mlStaticNl
      rw [if_neg (by omega), if_neg (by norm_num), if_neg (by omega), hsin, Option.bind_some, h2']
    have hy1 : ∀ t < n, y t = Spec.poly (fun i => if i = 0 then colMean n y else if i = 1 then 1 else 0) order.toNat (s.fitted t - colMean n s.fitted) := by
      intro t ht
      rw [hsf t ht, hmean]
      unfold Spec.poly
      obtain ⟨d, hd⟩ : ∃ d, order.toNat = d + 1 := ⟨order.toNat - 1, by omega⟩
      rw [hd, sum_range_succ', sum_range_succ']
      simp
    obtain ⟨q2, q3, -⟩ := core_exact solve' hs' n y s.fitted order.toNat (by omega) m h1' _ (by simp) hy1 hms
    refine ⟨r, m, hr, hml, r2, by rw [q2]; simp, ?_, fun t ht => ⟨rf t ht, ?_⟩⟩
    · rw [q3, r3]
      by_cases h3 : 3 ≤ order
      · rw [if_pos h3, if_pos (by omega)]
        simp
      · rw [if_neg h3, if_neg (by omega)]
    · rw [(core_spec solve' hs' n y s.fitted order.toNat (by omega) m h1').1]
      exact hsf t ht
  · unfold staticNonlinCore at h1'
    simp only at h1'
    rw [if_neg hpk] at h1'
    cases h1'

/-! ## What refinement does to a distorted sine -/

private theorem quarter (t : ℕ) : Real.cos (2 * (2 * Real.pi * (((2 : ℕ) : ℝ) / (16 : ℕ)) * ((t + 4 : ℕ) : ℝ) + 0)) * fitSin (((2 : ℕ) : ℝ) / (16 : ℕ)) (t + 4) =
    -(Real.cos (2 * (2 * Real.pi * (((2 : ℕ) : ℝ) / (16 : ℕ)) * (t : ℝ) + 0)) * fitSin (((2 : ℕ) : ℝ) / (16 : ℕ)) t) := by
  unfold fitSin
  push_cast
  rw [show 2 * (2 * Real.pi * (2 / 16) * ((t : ℝ) + 4) + 0) = 2 * (2 * Real.pi * (2 / 16) * (t : ℝ) + 0) + 2 * Real.pi by ring, Real.cos_add_two_pi,
    show 2 * Real.pi * (2 / 16) * ((t : ℝ) + 4) = 2 * Real.pi * (2 / 16) * (t : ℝ) + Real.pi by ring, Real.sin_add_pi]
  ring

private theorem lever : ∑ t ∈ range 16, (t : ℝ) * (Real.cos (2 * (2 * Real.pi * (((2 : ℕ) : ℝ) / (16 : ℕ)) * (t : ℝ) + 0)) * fitSin (((2 : ℕ) : ℝ) / (16 : ℕ)) t) = 8 := by
  generalize hF : (fun t : ℕ => Real.cos (2 * (2 * Real.pi * (((2 : ℕ) : ℝ) / (16 : ℕ)) * (t : ℝ) + 0)) * fitSin (((2 : ℕ) : ℝ) / (16 : ℕ)) t) = F
  have hq : ∀ t, F (t + 4) = -F t := by
    intro t
    rw [← hF]
    exact quarter t
  have f0 : F 0 = 0 := by rw [← hF]; simp [fitSin]
  have f1 : F 1 = 0 := by
    rw [← hF]
    show Real.cos _ * _ = 0
    rw [show 2 * (2 * Real.pi * (((2 : ℕ) : ℝ) / (16 : ℕ)) * ((1 : ℕ) : ℝ) + 0) = Real.pi / 2 by push_cast; ring, Real.cos_pi_div_two, zero_mul]
  have f2 : F 2 = -1 := by
    rw [← hF]
    show Real.cos _ * Real.sin _ = -1
    rw [show 2 * (2 * Real.pi * (((2 : ℕ) : ℝ) / (16 : ℕ)) * ((2 : ℕ) : ℝ) + 0) = Real.pi by push_cast; ring, Real.cos_pi,
      show 2 * Real.pi * (((2 : ℕ) : ℝ) / (16 : ℕ)) * ((2 : ℕ) : ℝ) = Real.pi / 2 by push_cast; ring, Real.sin_pi_div_two]
    norm_num
  have f3 : F 3 = 0 := by
    rw [← hF]
    show Real.cos _ * _ = 0
    rw [show 2 * (2 * Real.pi * (((2 : ℕ) : ℝ) / (16 : ℕ)) * ((3 : ℕ) : ℝ) + 0) = Real.pi / 2 + Real.pi by push_cast; ring, Real.cos_add_pi, Real.cos_pi_div_two, neg_zero, zero_mul]
  have : ∑ t ∈ range 16, (t : ℝ) * F t = 8 := by
    have g4 := hq 0
    have g5 := hq 1
    have g6 := hq 2
    have g7 := hq 3
    have g8 := hq 4
    have g9 := hq 5
    have g10 := hq 6
    have g11 := hq 7
    have g12 := hq 8
    have g13 := hq 9
    have g14 := hq 10
    have g15 := hq 11
    norm_num at g4 g5 g6 g7 g8 g9 g10 g11 g12 g13 g14 g15
    simp only [sum_range_succ, sum_range_zero]
    rw [g15, g14, g13, g12, g11, g10, g9, g8, g7, g6, g5, g4, f0, f1, f2, f3]
    norm_num
  rw [← this, ← hF]

private theorem dft_split (n : ℕ) (u v : ℕ → ℝ) (j : ℕ) : dft n (fun t => ((u t + v t : ℝ) : ℂ)) j = dft n (fun t => (u t : ℂ)) j + dft n (fun t => (v t : ℂ)) j := by
  unfold dft
  rw [← sum_add_distrib]
  apply sum_congr rfl
  intro t _
  push_cast
  ring

/-- Spectrum of the distorted record. -/
private theorem spec_two (A C p : ℝ) (hp : 0 < p) (hpA : p < A) (y : ℕ → ℝ)
    (hy : ∀ t < 16, y t = A * Real.cos (2 * Real.pi * (2 / 16) * t) + C + p * Real.cos (2 * (2 * Real.pi * (2 / 16) * t))) :
    ∀ j < 16 / 2, fitSpec 16 y j = if j = 2 then A * (16 : ℕ) / 2 else if j = 4 then p * (16 : ℕ) / 2 else 0 := by
  intro j hj
  by_cases hj0 : j = 0
  · unfold fitSpec
    rw [if_pos hj0, if_neg (by omega), if_neg (by omega)]
  have hA : 0 < A := hp.trans hpA
  have h1 := spec_sine 16 2 (by norm_num) (by norm_num) A 0 C hA (sineAt A (((2 : ℕ) : ℝ) / (16 : ℕ)) 0 C) (fun t _ => rfl) j hj
  have h2 := spec_sine 16 4 (by norm_num) (by norm_num) p 0 0 hp (sineAt p (((4 : ℕ) : ℝ) / (16 : ℕ)) 0 0) (fun t _ => rfl) j hj
  have hsplit : dft 16 (fun t => (y t : ℂ)) j = dft 16 (fun t => (sineAt A (((2 : ℕ) : ℝ) / (16 : ℕ)) 0 C t : ℂ)) j + dft 16 (fun t => (sineAt p (((4 : ℕ) : ℝ) / (16 : ℕ)) 0 0 t : ℂ)) j := by
    rw [← dft_split]
    unfold dft
    apply sum_congr rfl
    intro t ht
    show ((y t : ℝ) : ℂ) * _ = ((sineAt A (((2 : ℕ) : ℝ) / (16 : ℕ)) 0 C t + sineAt p (((4 : ℕ) : ℝ) / (16 : ℕ)) 0 0 t : ℝ) : ℂ) * _
    rw [hy t (mem_range.mp ht)]
    unfold sineAt
    rw [show 2 * Real.pi * (((4 : ℕ) : ℝ) / (16 : ℕ)) * (t : ℝ) + 0 = 2 * (2 * Real.pi * (2 / 16) * t) by push_cast; ring,
      show 2 * Real.pi * (((2 : ℕ) : ℝ) / (16 : ℕ)) * (t : ℝ) + 0 = 2 * Real.pi * (2 / 16) * t by push_cast; ring, add_zero]
  unfold fitSpec at h1 h2 ⊢
  rw [if_neg hj0] at h1 h2 ⊢
  rw [hsplit]
  by_cases hj2 : j = 2
  · rw [if_pos hj2] at h1 ⊢
    rw [if_neg (by omega), norm_eq_zero] at h2
    rw [h2, add_zero, h1]
  · rw [if_neg hj2, norm_eq_zero] at h1
    rw [h1, zero_add, h2, if_neg hj2]

/-- **C126 (refinement moves).** Two periods in 16 samples with a second harmonic below the fundamental: the automatic start is the exact frequency, but the one refinement
Python makes by default moves away from it. (MATLAB with the frequency given stays, `C126_given_frequency`.) -/
theorem C126_python_moves (solve : Lstsq) (hs : IsLstsq solve) (A C p : ℝ) (hp : 0 < p) (hpA : p < A) (tol : ℝ) (y : ℕ → ℝ)
    (hy : ∀ t < 16, y t = A * Real.cos (2 * Real.pi * (2 / 16) * t) + C + p * Real.cos (2 * (2 * Real.pi * (2 / 16) * t))) :
    ∃ r, fitCore solve 16 y none 1 tol = .ok r ∧ r.initialFrequency = 1 / 8 ∧ r.frequency ≠ 1 / 8 := by
  have hA : 0 < A := hp.trans hpA
  have hsp := spec_two A C p hp hpA y hy
  -- the start
  have hstart : estimateFreq 16 y = .ok (((2 : ℕ) : ℝ) / (16 : ℕ)) := by
    obtain ⟨hm, hmax⟩ := argmax_range (16 / 2) (by norm_num) (fitSpec 16 y)
    have hkk : argmax ((List.range (16 / 2)).map (fitSpec 16 y)) = 2 := by
      by_contra hne
      have := hmax 2 (by norm_num)
      rw [hsp 2 (by norm_num), hsp _ hm, if_pos rfl, if_neg hne] at this
      push_cast at this
      split_ifs at this <;> linarith
    unfold estimateFreq
    rw [if_neg (by norm_num)]
    simp only
    rw [hkk, if_pos (by norm_num), hsp (2 - 1) (by norm_num), hsp (2 + 1) (by norm_num), hsp 2 (by norm_num)]
    simp
  -- the first fit
  obtain ⟨f, hf⟩ : ∃ f : ℝ, f = ((2 : ℕ) : ℝ) / (16 : ℕ) := ⟨_, rfl⟩
  have hf8 : f = 1 / 8 := by rw [hf]; norm_num
  have hy' : ∀ t < 16, y t = A * Real.cos (2 * Real.pi * (((2 : ℕ) : ℝ) / (16 : ℕ)) * t + 0) + C + p * Real.cos (2 * (2 * Real.pi * (((2 : ℕ) : ℝ) / (16 : ℕ)) * t + 0))
      + 0 * Real.cos (3 * (2 * Real.pi * (((2 : ℕ) : ℝ) / (16 : ℕ)) * t + 0)) := by
    intro t ht
    rw [hy t ht]
    push_cast
    simp
  have hfirst := first_distorted solve hs 16 2 (by norm_num) (by norm_num) A 0 C p 0 y hy'
  rw [← hf] at hfirst
  obtain ⟨e1, e2, e3⟩ := sine_indep3 f (by rw [hf8]; norm_num) (by rw [hf8]; norm_num)
    ((solve 16 [fitCos f, fitSin f, fun _ => 1] y).getD 0 0 - A) ((solve 16 [fitCos f, fitSin f, fun _ => 1] y).getD 1 0) ((solve 16 [fitCos f, fitSin f, fun _ => 1] y).getD 2 0 - C) 0 (by
      intro j hj
      have := hfirst (0 + j) (by omega)
      rw [fit_cols3, add_zero] at this
      have hc : fitCos f (0 + j) = Real.cos (2 * Real.pi * f * ((0 + j : ℕ) : ℝ)) := rfl
      rw [← hc] at this
      linear_combination this)
  -- the refinement
  have hcore : fitCore solve 16 y none 1 tol = .ok (fitResult 16 y f 1 (fitLoop solve 16 y tol 1 (fitFirst solve 16 y
      { freq := f, a := 0, b := 0, c := 0, converged := decide ((1 : ℤ) = 0), nIterations := 0, lastDelta := 0 }))) := by
    unfold fitCore
    simp only
    rw [hstart, ← hf]
    rfl
  refine ⟨_, hcore, hf8, ?_⟩
  generalize hs0 : ({ freq := f, a := 0, b := 0, c := 0, converged := decide ((1 : ℤ) = 0), nIterations := 0, lastDelta := 0 } : FitState) = s0
  have g1 : (fitFirst solve 16 y s0).freq = f := by rw [← hs0]; rfl
  have g2 : (fitFirst solve 16 y s0).a = A := by rw [← hs0]; show (solve 16 [fitCos f, fitSin f, fun _ => 1] y).getD 0 0 = A; linarith
  have g3 : (fitFirst solve 16 y s0).b = 0 := by rw [← hs0]; show (solve 16 [fitCos f, fitSin f, fun _ => 1] y).getD 1 0 = 0; linarith
  generalize fitFirst solve 16 y s0 = s at g1 g2 g3
  have hfreq : (fitResult 16 y f 1 (fitLoop solve 16 y tol 1 s)).frequency = (fitRefine solve 16 y s).freq := by
    unfold fitLoop
    simp only
    split_ifs
    · rfl
    · rfl
  rw [hfreq]
  unfold fitRefine
  simp only
  rw [g1, g2, g3]
  intro hclip
  set corr := fun (t : ℕ) => (t : ℝ) * (-A * fitSin f t + 0 * fitCos f t) with hcorr
  set X := solve 16 [fitCos f, fitSin f, fun _ => 1, corr] y with hX
  have hd0 : X.getD 3 0 = 0 := by
    have : X.getD 3 0 / (2 * Real.pi) = 0 := by
      unfold clip at hclip
      rw [hf8] at hclip
      generalize X.getD 3 0 / (2 * Real.pi) = δ at hclip
      rcases min_choice (max (1 / 8 + δ) (1 / 10 ^ 10 : ℝ)) (1 / 2 - 1 / 10 ^ 10) with h | h
      · rw [h] at hclip
        rcases max_choice (1 / 8 + δ) (1 / 10 ^ 10 : ℝ) with h' | h'
        · rw [h'] at hclip
          linarith
        · rw [h'] at hclip
          norm_num at hclip
      · rw [h] at hclip
        norm_num at hclip
    have hpi := Real.pi_pos
    rcases div_eq_zero_iff.mp this with h | h
    · exact h
    · exact absurd h (by positivity)
  have hcol := fun j hj => lstsq_col solve hs 16 [fitCos f, fitSin f, fun _ => 1, corr] y j hj
  rw [← hX] at hcol
  have hres : ∀ t < 16, y t - matVec [fitCos f, fitSin f, fun _ => 1, corr] X t = ((A - X.getD 0 0) * fitCos f t - X.getD 1 0 * fitSin f t + (C - X.getD 2 0)) +
      p * Real.cos (2 * (2 * Real.pi * (((2 : ℕ) : ℝ) / (16 : ℕ)) * t + 0)) := by
    intro t ht
    rw [fit_cols4, hd0, hy' t ht, ← hf, add_zero]
    unfold fitCos
    ring
  set w := fun (t : ℕ) => (A - X.getD 0 0) * fitCos f t - X.getD 1 0 * fitSin f t + (C - X.getD 2 0) with hw
  have ph : ∀ t : ℕ, 2 * (2 * Real.pi * (((2 : ℕ) : ℝ) / (16 : ℕ)) * t + 0) = 2 * Real.pi * (((2 * 2 : ℕ) : ℤ) * t / (16 : ℕ)) + 0 := by
    intro t
    push_cast
    ring
  have hsum : ∀ g : ℕ → ℝ, ∑ t ∈ range 16, (y t - matVec [fitCos f, fitSin f, fun _ => 1, corr] X t) * g t =
      ∑ t ∈ range 16, w t * g t + p * ∑ t ∈ range 16, Real.cos (2 * (2 * Real.pi * (((2 : ℕ) : ℝ) / (16 : ℕ)) * t + 0)) * g t := by
    intro g
    rw [mul_sum, ← sum_add_distrib]
    apply sum_congr rfl
    intro t ht
    rw [hres t (mem_range.mp ht)]
    ring
  have w1 : ∑ t ∈ range 16, w t * fitCos f t = 0 := by
    have h := hcol 0 (by simp)
    have ho := orth_cos 16 2 2 (by norm_num) (by norm_num) (by norm_num) (by norm_num) 0
    simp only [List.getD_cons_zero] at h
    simp only [← ph] at ho
    rw [← hf] at ho
    rw [hsum, ← hf, ho, mul_zero, add_zero] at h
    exact h
  have w2 : ∑ t ∈ range 16, w t * fitSin f t = 0 := by
    have h := hcol 1 (by simp)
    have ho := orth_sin 16 2 2 (by norm_num) (by norm_num) (by norm_num) (by norm_num) 0
    simp only [List.getD_cons_zero, List.getD_cons_succ] at h
    simp only [← ph] at ho
    rw [← hf] at ho
    rw [hsum, ← hf, ho, mul_zero, add_zero] at h
    exact h
  have w3 : ∑ t ∈ range 16, w t * 1 = 0 := by
    have h := hcol 2 (by simp)
    have ho := sum_cos_zero 16 (by norm_num) ((2 * 2 : ℕ) : ℤ) (by norm_num) 0
    simp only [List.getD_cons_zero, List.getD_cons_succ] at h
    simp only [← ph] at ho
    rw [hsum] at h
    simp only [mul_one] at h ⊢
    rw [ho, mul_zero, add_zero] at h
    exact h
  have hw0 : ∑ t ∈ range 16, w t ^ 2 = 0 := by
    have : ∑ t ∈ range 16, w t ^ 2 = (A - X.getD 0 0) * ∑ t ∈ range 16, w t * fitCos f t - X.getD 1 0 * ∑ t ∈ range 16, w t * fitSin f t + (C - X.getD 2 0) * ∑ t ∈ range 16, w t * 1 := by
      rw [mul_sum, mul_sum, mul_sum, ← sum_sub_distrib, ← sum_add_distrib]
      apply sum_congr rfl
      intro t _
      rw [hw]
      ring
    rw [this, w1, w2, w3]
    ring
  have hwt : ∀ t ∈ range 16, w t = 0 := by
    intro t ht
    exact pow_eq_zero_iff (n := 2) (by norm_num) |>.mp ((sum_eq_zero_iff_of_nonneg fun t _ => sq_nonneg _).mp hw0 t ht)
  have h := hcol 3 (by simp)
  simp only [List.getD_cons_zero, List.getD_cons_succ] at h
  rw [hsum, sum_eq_zero (fun t ht => by rw [hwt t ht, zero_mul]), zero_add] at h
  have hl : ∑ t ∈ range 16, Real.cos (2 * (2 * Real.pi * (((2 : ℕ) : ℝ) / (16 : ℕ)) * t + 0)) * corr t = -A * 8 := by
    rw [← lever, mul_sum]
    apply sum_congr rfl
    intro t _
    rw [hcorr, hf]
    ring
  rw [hl] at h
  have : 0 < p * A := mul_pos hp hA
  linarith

/-- The hypotheses of `C126_python_moves` met by amplitude 2 and a second harmonic of 1. -/
example (solve : Lstsq) (hs : IsLstsq solve) :
    ∃ r, fitCore solve 16 (fun t => 2 * Real.cos (2 * Real.pi * (2 / 16) * t) + 0 + 1 * Real.cos (2 * (2 * Real.pi * (2 / 16) * t))) none 1 (1 / 10 ^ 9) = .ok r ∧
      r.initialFrequency = 1 / 8 ∧ r.frequency ≠ 1 / 8 :=
  C126_python_moves solve hs 2 0 1 (by norm_num) (by norm_num) (1 / 10 ^ 9) _ fun t _ => rfl

/-- The hypotheses of `C126_pure_sine` met by one period of 12 samples, order 3. -/
example (solve solve' : Lstsq) (hs : IsLstsq solve) (hs' : IsLstsq solve') :
    ∃ r m, fitStaticNonlin solve 12 (sineAt 2 (((1 : ℕ) : ℝ) / (12 : ℕ)) 0 0) 3 = .ok r ∧ mlStaticNl solve' 12 (sineAt 2 (((1 : ℕ) : ℝ) / (12 : ℕ)) 0 0) 3 0 = some m ∧ m.k3 = r.k3 := by
  have hmean : colMean 12 (sineAt 2 (((1 : ℕ) : ℝ) / (12 : ℕ)) 0 0) = 0 := by
    have := sum_cos_zero 12 (by norm_num) 1 (by norm_num) 0
    have e : ∑ t ∈ range 12, sineAt 2 (((1 : ℕ) : ℝ) / (12 : ℕ)) 0 0 t = 2 * ∑ t ∈ range 12, Real.cos (2 * Real.pi * (((1 : ℤ) : ℝ) * t / (12 : ℕ)) + 0) := by
      rw [mul_sum]
      apply sum_congr rfl
      intro t _
      unfold sineAt
      push_cast
      rw [show 2 * Real.pi * (1 / 12) * (t : ℝ) + 0 = 2 * Real.pi * (1 * (t : ℝ) / 12) + 0 by ring]
      ring
    unfold colMean
    rw [e, this]
    norm_num
  have hm : Spec.ManyValues 12 (sineAt 2 (((1 : ℕ) : ℝ) / (12 : ℕ)) 0 0) (3 : ℤ).toNat := by
    obtain ⟨S, h1, h2⟩ := twelve_many
    refine ⟨S, h1, fun v hv => ?_⟩
    obtain ⟨t, ht, e⟩ := h2 v hv
    exact ⟨t, ht, by rw [← e]; unfold sineAt; ring⟩
  obtain ⟨r, m, h1, h2, -, -, h3, -⟩ := C126_pure_sine solve solve' hs hs' 12 1 3 (by norm_num) (by norm_num) (by norm_num) (by norm_num) (by norm_num) (by norm_num) 2 0 0 (by norm_num)
    (by linarith [Real.pi_pos]) Real.pi_pos _ (fun t _ => rfl) hm ⟨0, by norm_num, by rw [hmean]; unfold sineAt; rw [twelve.1]; norm_num [abs_of_pos]⟩
  exact ⟨r, m, h1, h2, h3⟩

end Verif
