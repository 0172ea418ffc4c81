import Verif.Proofs.LstsqStable
import Verif.Theorems.SineFit
import Mathlib.Analysis.SpecialFunctions.Trigonometric.Bounds

/-!
# One pass of the sine fit near the true parameters
-/

namespace Verif

open Model Finset

/-! ## Expansion of cosine and sine -/

theorem sin_sub_self_le (h : ℝ) : |Real.sin h - h| ≤ h ^ 2 := by
  wlog h0 : 0 ≤ h generalizing h with H
  · have := H (-h) (by linarith)
    rw [Real.sin_neg, neg_sq, show -Real.sin h - -h = -(Real.sin h - h) by ring, abs_neg] at this
    exact this
  have h1 := Real.sin_le h0
  rw [abs_of_nonpos (by linarith)]
  rcases le_or_gt h 1 with hle | hgt
  · rcases eq_or_lt_of_le h0 with rfl | hpos
    · simp
    · have := Real.sin_gt_sub_cube hpos
      nlinarith [mul_nonneg h0 h0, mul_nonneg (mul_nonneg h0 h0) (by linarith : (0 : ℝ) ≤ 1 - h)]
  · rcases le_or_gt h 2 with hle2 | hgt2
    · have := Real.sin_nonneg_of_nonneg_of_le_pi h0 (by linarith [Real.two_le_pi])
      nlinarith
    · have := Real.neg_one_le_sin h
      nlinarith

theorem cos_expand (u h : ℝ) : |Real.cos (u + h) - (Real.cos u - h * Real.sin u)| ≤ 2 * h ^ 2 := by
  rw [Real.cos_add, show Real.cos u * Real.cos h - Real.sin u * Real.sin h - (Real.cos u - h * Real.sin u) =
    Real.cos u * (Real.cos h - 1) - Real.sin u * (Real.sin h - h) by ring]
  have h1 : |Real.cos h - 1| ≤ h ^ 2 / 2 := by
    rw [abs_of_nonpos (by linarith [Real.cos_le_one h])]
    linarith [Real.one_sub_sq_div_two_le_cos (x := h)]
  have h2 := sin_sub_self_le h
  calc _ ≤ |Real.cos u * (Real.cos h - 1)| + |Real.sin u * (Real.sin h - h)| := abs_sub _ _
    _ = |Real.cos u| * |Real.cos h - 1| + |Real.sin u| * |Real.sin h - h| := by rw [abs_mul, abs_mul]
    _ ≤ 1 * (h ^ 2 / 2) + 1 * h ^ 2 := add_le_add (mul_le_mul (Real.abs_cos_le_one u) h1 (abs_nonneg _) zero_le_one)
        (mul_le_mul (Real.abs_sin_le_one u) h2 (abs_nonneg _) zero_le_one)
    _ ≤ 2 * h ^ 2 := by nlinarith [sq_nonneg h]

theorem sin_expand (u h : ℝ) : |Real.sin (u + h) - (Real.sin u + h * Real.cos u)| ≤ 2 * h ^ 2 := by
  have := cos_expand (u - Real.pi / 2) h
  rwa [show u - Real.pi / 2 + h = u + h - Real.pi / 2 by ring, Real.cos_sub_pi_div_two, Real.cos_sub_pi_div_two, Real.sin_sub_pi_div_two,
    show Real.sin u - h * -Real.cos u = Real.sin u + h * Real.cos u by ring] at this

private theorem angle (f g : ℝ) (t : ℕ) : 2 * Real.pi * f * t = 2 * Real.pi * g * t + 2 * Real.pi * (f - g) * t := by ring

private theorem step_le (n : ℕ) (d : ℝ) (t : ℕ) (ht : t < n) : |2 * Real.pi * d * t| ≤ 2 * Real.pi * n * |d| := by
  have h1 : (t : ℝ) ≤ n := by exact_mod_cast ht.le
  rw [abs_mul, abs_mul, abs_of_pos (by positivity : (0 : ℝ) < 2 * Real.pi), abs_of_nonneg (Nat.cast_nonneg (α := ℝ) t)]
  have := mul_le_mul_of_nonneg_left h1 (by positivity : 0 ≤ 2 * Real.pi * |d|)
  linarith

theorem fit_cos_near (n : ℕ) (f g : ℝ) (t : ℕ) (ht : t < n) : |fitCos f t - fitCos g t| ≤ 2 * Real.pi * n * |f - g| := by
  unfold fitCos
  refine le_trans (Real.abs_cos_sub_cos_le _ _) ?_
  rw [show 2 * Real.pi * f * t - 2 * Real.pi * g * t = 2 * Real.pi * (f - g) * t by ring]
  exact step_le n _ t ht

theorem fit_sin_near (n : ℕ) (f g : ℝ) (t : ℕ) (ht : t < n) : |fitSin f t - fitSin g t| ≤ 2 * Real.pi * n * |f - g| := by
  unfold fitSin
  refine le_trans (Real.abs_sin_sub_sin_le _ _) ?_
  rw [show 2 * Real.pi * f * t - 2 * Real.pi * g * t = 2 * Real.pi * (f - g) * t by ring]
  exact step_le n _ t ht

/-- The sine at frequency `f` seen from frequency `g`: first order in `f - g`, with a quadratic remainder. -/
private theorem tone_expand (n : ℕ) (a b f g : ℝ) (t : ℕ) (ht : t < n) :
    |a * fitCos f t + b * fitSin f t - (a * fitCos g t + b * fitSin g t + 2 * Real.pi * (f - g) * ((t : ℝ) * (-a * fitSin g t + b * fitCos g t)))| ≤
      (|a| + |b|) * (2 * (2 * Real.pi * n * |f - g|) ^ 2) := by
  have hc := cos_expand (2 * Real.pi * g * t) (2 * Real.pi * (f - g) * t)
  have hs := sin_expand (2 * Real.pi * g * t) (2 * Real.pi * (f - g) * t)
  rw [← angle f g t] at hc hs
  have hstep := step_le n (f - g) t ht
  have hsq : (2 * Real.pi * (f - g) * t) ^ 2 ≤ (2 * Real.pi * n * |f - g|) ^ 2 := by
    rw [← sq_abs (2 * Real.pi * (f - g) * t)]
    exact pow_le_pow_left₀ (abs_nonneg _) hstep 2
  unfold fitCos fitSin
  set h := 2 * Real.pi * (f - g) * t with hh
  have e : a * Real.cos (2 * Real.pi * f * t) + b * Real.sin (2 * Real.pi * f * t) -
      (a * Real.cos (2 * Real.pi * g * t) + b * Real.sin (2 * Real.pi * g * t) +
        2 * Real.pi * (f - g) * ((t : ℝ) * (-a * Real.sin (2 * Real.pi * g * t) + b * Real.cos (2 * Real.pi * g * t)))) =
      a * (Real.cos (2 * Real.pi * f * t) - (Real.cos (2 * Real.pi * g * t) - h * Real.sin (2 * Real.pi * g * t))) +
      b * (Real.sin (2 * Real.pi * f * t) - (Real.sin (2 * Real.pi * g * t) + h * Real.cos (2 * Real.pi * g * t))) := by
    rw [hh]
    ring
  rw [e]
  refine le_trans (abs_add_le _ _) ?_
  rw [abs_mul, abs_mul, add_mul]
  exact add_le_add (mul_le_mul_of_nonneg_left (by linarith) (abs_nonneg _)) (mul_le_mul_of_nonneg_left (by linarith) (abs_nonneg _))

/-! ## The two kinds of pass -/

/-- Distance of the loop variables from the parameters of `A cos(2π f t + θ) + C`. -/
noncomputable def fitErr (A f θ C : ℝ) (s : FitState) : ℝ :=
  |s.freq - f| + |s.a - A * Real.cos θ| + |s.b - -(A * Real.sin θ)| + |s.c - C|

/-- Pass 0 from a frequency near the true one. -/
theorem first_near (solve : Lstsq) (hs : IsLstsq solve) (n : ℕ) (hn : 5 ≤ n) (A f θ C : ℝ) (h0 : 0 < f) (h1 : f < 1 / 2) :
    ∃ r B S : ℝ, 0 < r ∧ 0 < B ∧ 0 < S ∧ ∀ (y : ℕ → ℝ) (ν : ℝ), (∀ t < n, |y t - sineAt A f θ C t| ≤ ν) → ∀ s : FitState, |s.freq - f| ≤ r →
      fitErr A f θ C (fitFirst solve n y s) ≤ B * |s.freq - f| + S * ν := by
  set a := A * Real.cos θ with ha
  set b := -(A * Real.sin θ) with hb
  set R : ℕ → ℕ → ℝ := fun j => [fitCos f, fitSin f, fun _ => 1].getD j 0 with hR
  obtain ⟨K, hK0, hK⟩ := coeff_bound n 3 R (by
    intro v hv
    obtain ⟨z1, z2, z3⟩ := sine_indep3 f h0 h1 (v 0) (v 1) (v 2) 0 (by
      intro t ht
      have := hv t (by omega)
      simp only [sum_range_succ, sum_range_zero, hR, List.getD_cons_zero, List.getD_cons_succ] at this
      rw [zero_add]
      linarith)
    intro j hj
    interval_cases j
    · exact z1
    · exact z2
    · exact z3)
  have hnR : (0 : ℝ) < n := by exact_mod_cast (by omega : 0 < n)
  have hpi := Real.pi_pos
  have hsq : 0 < Real.sqrt n := Real.sqrt_pos.mpr hnR
  set W := |a| + |b| with hW
  have hW0 : 0 ≤ W := by positivity
  refine ⟨1 / (8 * Real.pi * n * K), 1 + 12 * K * Real.sqrt n * (W * (2 * Real.pi * n)), 12 * K * Real.sqrt n, by positivity, by positivity, by positivity, ?_⟩
  intro y ν hy s hsr
  have hst := lstsq_stable solve hs n 3 (by omega) (by norm_num) R K hK0 hK [fitCos s.freq, fitSin s.freq, fun _ => 1] rfl (4 * Real.pi * n * |s.freq - f|)
    (by
      intro t ht
      have c1 := fit_cos_near n s.freq f t ht
      have c2 := fit_sin_near n s.freq f t ht
      simp only [sum_range_succ, sum_range_zero, hR, List.getD_cons_zero, List.getD_cons_succ, sub_self, abs_zero]
      linarith)
    (by
      calc K * (4 * Real.pi * n * |s.freq - f|) ≤ K * (4 * Real.pi * n * (1 / (8 * Real.pi * n * K))) := by
            apply mul_le_mul_of_nonneg_left _ hK0.le
            exact mul_le_mul_of_nonneg_left hsr (by positivity)
        _ = 1 / 2 := by
            field_simp
            norm_num)
    y [a, b, C] (W * (2 * Real.pi * n * |s.freq - f|) + ν)
    (by
      intro t ht
      rw [fit_cols3]
      simp only [List.getD_cons_zero, List.getD_cons_succ]
      have h2 := hy t ht
      rw [sine_split, ← ha, ← hb] at h2
      have c1 := fit_cos_near n f s.freq t ht
      have c2 := fit_sin_near n f s.freq t ht
      rw [abs_sub_comm f s.freq] at c1 c2
      have e : y t - (a * fitCos s.freq t + b * fitSin s.freq t + C) =
          (y t - (a * fitCos f t + b * fitSin f t + C)) + (a * (fitCos f t - fitCos s.freq t) + b * (fitSin f t - fitSin s.freq t)) := by ring
      rw [e]
      refine le_trans (abs_add_le _ _) ?_
      have h3 : |a * (fitCos f t - fitCos s.freq t) + b * (fitSin f t - fitSin s.freq t)| ≤ W * (2 * Real.pi * n * |s.freq - f|) := by
        refine le_trans (abs_add_le _ _) ?_
        rw [abs_mul a, abs_mul b, hW, add_mul]
        exact add_le_add (mul_le_mul_of_nonneg_left c1 (abs_nonneg _)) (mul_le_mul_of_nonneg_left c2 (abs_nonneg _))
      linarith)
  have z0 := hst 0 (by norm_num)
  have z1 := hst 1 (by norm_num)
  have z2 := hst 2 (by norm_num)
  simp only [List.getD_cons_zero, List.getD_cons_succ] at z0 z1 z2
  unfold fitErr fitFirst
  simp only
  rw [← ha, ← hb]
  have : (1 + 12 * K * Real.sqrt n * (W * (2 * Real.pi * n))) * |s.freq - f| + 12 * K * Real.sqrt n * ν =
      |s.freq - f| + 3 * (4 * K * Real.sqrt n * (W * (2 * Real.pi * n * |s.freq - f|) + ν)) := by ring
  rw [this]
  linarith

private theorem clip_near (x f lo hi : ℝ) (h0 : lo ≤ f) (h1 : f ≤ hi) : |clip x lo hi - f| ≤ |x - f| := by
  unfold clip
  rw [abs_le]
  constructor
  · have : f - |x - f| ≤ x := by linarith [neg_abs_le (x - f)]
    have h2 : f - |x - f| ≤ min (max x lo) hi := le_min (le_trans this (le_max_left _ _)) (by linarith [abs_nonneg (x - f)])
    linarith
  · have : x ≤ f + |x - f| := by linarith [le_abs_self (x - f)]
    have h2 : min (max x lo) hi ≤ f + |x - f| := le_trans (min_le_left _ _) (max_le this (by linarith [abs_nonneg (x - f)]))
    linarith

/-- A refinement pass from near the true parameters: the new distance is quadratic in the old one, plus a multiple of the disturbance. -/
theorem refine_near (solve : Lstsq) (hs : IsLstsq solve) (n : ℕ) (hn : 5 ≤ n) (A f θ C : ℝ) (hA : 0 < A) (h0 : 1 / 10 ^ 10 ≤ f) (h1 : f ≤ 1 / 2 - 1 / 10 ^ 10) :
    ∃ r P S : ℝ, 0 < r ∧ 0 < P ∧ 0 < S ∧ ∀ (y : ℕ → ℝ) (ν : ℝ), (∀ t < n, |y t - sineAt A f θ C t| ≤ ν) → ∀ s : FitState, fitErr A f θ C s ≤ r →
      fitErr A f θ C (fitRefine solve n y s) ≤ P * fitErr A f θ C s ^ 2 + S * ν ∧
      |(fitRefine solve n y s).lastDelta| ≤ fitErr A f θ C s + (P * fitErr A f θ C s ^ 2 + S * ν) := by
  have h0' : 0 < f := lt_of_lt_of_le (by norm_num) h0
  have h1' : f < 1 / 2 := lt_of_le_of_lt h1 (by norm_num)
  set a := A * Real.cos θ with ha
  set b := -(A * Real.sin θ) with hb
  have hab : a ≠ 0 ∨ b ≠ 0 := by
    by_contra hcon
    push Not at hcon
    rw [ha, hb] at hcon
    have h2 := Real.sin_sq_add_cos_sq θ
    have e1 : Real.cos θ = 0 := (mul_eq_zero.mp hcon.1).resolve_left hA.ne'
    have e2 : Real.sin θ = 0 := (mul_eq_zero.mp (neg_eq_zero.mp hcon.2)).resolve_left hA.ne'
    rw [e1, e2] at h2
    norm_num at h2
  set R : ℕ → ℕ → ℝ := fun j => [fitCos f, fitSin f, fun _ => 1, fun (t : ℕ) => (t : ℝ) * (-a * fitSin f t + b * fitCos f t)].getD j 0 with hR
  obtain ⟨K, hK0, hK⟩ := coeff_bound n 4 R (by
    intro v hv
    obtain ⟨z1, z2, z3, z4⟩ := sine_indep4 f h0' h1' a b (v 0) (v 1) (v 2) (v 3) hab (by
      intro t ht
      have := hv t (by omega)
      simp only [sum_range_succ, sum_range_zero, hR, List.getD_cons_zero, List.getD_cons_succ] at this
      linarith)
    intro j hj
    interval_cases j
    · exact z1
    · exact z2
    · exact z3
    · exact z4)
  have hnR : (0 : ℝ) < n := by exact_mod_cast (by omega : 0 < n)
  have hpi := Real.pi_pos
  have hsq : 0 < Real.sqrt n := Real.sqrt_pos.mpr hnR
  set W := |a| + |b| with hW
  have hW0 : 0 ≤ W := by positivity
  set L := 4 * Real.pi * n + n * (1 + W * (2 * Real.pi * n)) with hL
  have hL0 : 0 < L := by positivity
  set Q := W * (2 * (2 * Real.pi * n) ^ 2) + 2 * Real.pi * n with hQ
  have hQ0 : 0 < Q := by positivity
  refine ⟨1 / (2 * L * K), 16 * K * Real.sqrt n * Q, 16 * K * Real.sqrt n, by positivity, by positivity, by positivity, ?_⟩
  intro y ν hy s hsr
  set e := fitErr A f θ C s with he
  have hE : e = |s.freq - f| + |s.a - a| + |s.b - b| + |s.c - C| := rfl
  have hd : |s.freq - f| ≤ e := by rw [hE]; linarith [abs_nonneg (s.a - a), abs_nonneg (s.b - b), abs_nonneg (s.c - C)]
  have hab2 : |s.a - a| + |s.b - b| ≤ e := by rw [hE]; linarith [abs_nonneg (s.freq - f), abs_nonneg (s.c - C)]
  have he0 : 0 ≤ e := le_trans (abs_nonneg _) hd
  set corr := fun (t : ℕ) => (t : ℝ) * (-s.a * fitSin s.freq t + s.b * fitCos s.freq t) with hcorr
  have trig1 : ∀ t, |fitCos s.freq t| ≤ 1 := fun t => Real.abs_cos_le_one _
  have trig2 : ∀ t, |fitSin s.freq t| ≤ 1 := fun t => Real.abs_sin_le_one _
  -- change of the frequency direction with the coefficients alone
  have hcoef : ∀ t < n, |(t : ℝ) * (-s.a * fitSin s.freq t + s.b * fitCos s.freq t) - (t : ℝ) * (-a * fitSin s.freq t + b * fitCos s.freq t)| ≤ n * e := by
    intro t ht
    have ht' : (t : ℝ) ≤ n := by exact_mod_cast ht.le
    have hmain : |(b - s.b) * -fitCos s.freq t + (a - s.a) * fitSin s.freq t| ≤ e := by
      refine le_trans (abs_add_le _ _) ?_
      rw [abs_mul, abs_mul, abs_neg, abs_sub_comm b, abs_sub_comm a]
      have := mul_le_mul_of_nonneg_left (trig1 t) (abs_nonneg (s.b - b))
      have := mul_le_mul_of_nonneg_left (trig2 t) (abs_nonneg (s.a - a))
      linarith
    rw [show (t : ℝ) * (-s.a * fitSin s.freq t + s.b * fitCos s.freq t) - (t : ℝ) * (-a * fitSin s.freq t + b * fitCos s.freq t) =
      t * ((b - s.b) * -fitCos s.freq t + (a - s.a) * fitSin s.freq t) by ring, abs_mul, abs_of_nonneg (Nat.cast_nonneg (α := ℝ) t)]
    exact mul_le_mul ht' hmain (abs_nonneg _) hnR.le
  have hst := lstsq_stable solve hs n 4 (by omega) (by norm_num) R K hK0 hK [fitCos s.freq, fitSin s.freq, fun _ => 1, corr] rfl (L * e)
    (by
      intro t ht
      have ht' : (t : ℝ) ≤ n := by exact_mod_cast ht.le
      have c1 := fit_cos_near n s.freq f t ht
      have c2 := fit_sin_near n s.freq f t ht
      have c3 := hcoef t ht
      have c4 : |(t : ℝ) * (-a * fitSin s.freq t + b * fitCos s.freq t) - (t : ℝ) * (-a * fitSin f t + b * fitCos f t)| ≤ n * (W * (2 * Real.pi * n * |s.freq - f|)) := by
        rw [show (t : ℝ) * (-a * fitSin s.freq t + b * fitCos s.freq t) - (t : ℝ) * (-a * fitSin f t + b * fitCos f t) =
          t * (-a * (fitSin s.freq t - fitSin f t) + b * (fitCos s.freq t - fitCos f t)) by ring, abs_mul, abs_of_nonneg (Nat.cast_nonneg (α := ℝ) t)]
        refine mul_le_mul ht' ?_ (abs_nonneg _) hnR.le
        refine le_trans (abs_add_le _ _) ?_
        rw [abs_mul (-a), abs_mul b, abs_neg, hW, add_mul]
        exact add_le_add (mul_le_mul_of_nonneg_left c2 (abs_nonneg _)) (mul_le_mul_of_nonneg_left c1 (abs_nonneg _))
      have c5 : |corr t - (t : ℝ) * (-a * fitSin f t + b * fitCos f t)| ≤ n * e + n * (W * (2 * Real.pi * n * |s.freq - f|)) := by
        refine le_trans (abs_sub_le _ ((t : ℝ) * (-a * fitSin s.freq t + b * fitCos s.freq t)) _) ?_
        exact add_le_add c3 c4
      simp only [sum_range_succ, sum_range_zero, hR, List.getD_cons_zero, List.getD_cons_succ, sub_self, abs_zero]
      have d1 : 2 * Real.pi * n * |s.freq - f| ≤ 2 * Real.pi * n * e := mul_le_mul_of_nonneg_left hd (by positivity)
      have d2 : n * (W * (2 * Real.pi * n * |s.freq - f|)) ≤ n * (W * (2 * Real.pi * n * e)) :=
        mul_le_mul_of_nonneg_left (mul_le_mul_of_nonneg_left d1 hW0) hnR.le
      have d3 : L * e = 2 * (2 * Real.pi * n * e) + (n * e + n * (W * (2 * Real.pi * n * e))) := by rw [hL]; ring
      rw [d3]
      linarith)
    (by
      calc K * (L * e) ≤ K * (L * (1 / (2 * L * K))) := mul_le_mul_of_nonneg_left (mul_le_mul_of_nonneg_left hsr hL0.le) hK0.le
        _ = 1 / 2 := by field_simp)
    y [a, b, C, 2 * Real.pi * (f - s.freq)] (Q * e ^ 2 + ν)
    (by
      intro t ht
      rw [fit_cols4]
      simp only [List.getD_cons_zero, List.getD_cons_succ]
      have h2 := hy t ht
      rw [sine_split, ← ha, ← hb] at h2
      have h3 := tone_expand n a b f s.freq t ht
      have h4 := hcoef t ht
      rw [abs_sub_comm f s.freq] at h3
      have e1 : y t - (a * fitCos s.freq t + b * fitSin s.freq t + C + 2 * Real.pi * (f - s.freq) * corr t) =
          (y t - (a * fitCos f t + b * fitSin f t + C)) +
          ((a * fitCos f t + b * fitSin f t - (a * fitCos s.freq t + b * fitSin s.freq t + 2 * Real.pi * (f - s.freq) * ((t : ℝ) * (-a * fitSin s.freq t + b * fitCos s.freq t)))) -
          2 * Real.pi * (f - s.freq) * (corr t - (t : ℝ) * (-a * fitSin s.freq t + b * fitCos s.freq t))) := by ring
      rw [e1]
      refine le_trans (abs_add_le _ _) ?_
      have h5 : |2 * Real.pi * (f - s.freq) * (corr t - (t : ℝ) * (-a * fitSin s.freq t + b * fitCos s.freq t))| ≤ 2 * Real.pi * n * e ^ 2 := by
        rw [abs_mul, abs_mul, abs_of_pos (by positivity : (0 : ℝ) < 2 * Real.pi), abs_sub_comm f]
        have := mul_le_mul (mul_le_mul_of_nonneg_left hd (by positivity : (0 : ℝ) ≤ 2 * Real.pi)) h4 (abs_nonneg _) (by positivity)
        calc _ ≤ 2 * Real.pi * e * (n * e) := this
          _ = 2 * Real.pi * n * e ^ 2 := by ring
      have h6 : W * (2 * (2 * Real.pi * n * |s.freq - f|) ^ 2) ≤ W * (2 * (2 * Real.pi * n) ^ 2) * e ^ 2 := by
        have : |s.freq - f| ^ 2 ≤ e ^ 2 := pow_le_pow_left₀ (abs_nonneg _) hd 2
        calc W * (2 * (2 * Real.pi * n * |s.freq - f|) ^ 2) = W * (2 * (2 * Real.pi * n) ^ 2) * |s.freq - f| ^ 2 := by ring
          _ ≤ _ := mul_le_mul_of_nonneg_left this (by positivity)
      have h7 := abs_sub (a * fitCos f t + b * fitSin f t - (a * fitCos s.freq t + b * fitSin s.freq t + 2 * Real.pi * (f - s.freq) * ((t : ℝ) * (-a * fitSin s.freq t + b * fitCos s.freq t))))
        (2 * Real.pi * (f - s.freq) * (corr t - (t : ℝ) * (-a * fitSin s.freq t + b * fitCos s.freq t)))
      have h8 : Q * e ^ 2 = W * (2 * (2 * Real.pi * n) ^ 2) * e ^ 2 + 2 * Real.pi * n * e ^ 2 := by rw [hQ]; ring
      rw [h8]
      linarith)
  have z0 := hst 0 (by norm_num)
  have z1 := hst 1 (by norm_num)
  have z2 := hst 2 (by norm_num)
  have z3 := hst 3 (by norm_num)
  simp only [List.getD_cons_zero, List.getD_cons_succ] at z0 z1 z2 z3
  set x := solve n [fitCos s.freq, fitSin s.freq, fun _ => 1, corr] y with hx
  set β := 4 * K * Real.sqrt n * (Q * e ^ 2 + ν) with hβ
  have hβ4 : 16 * K * Real.sqrt n * Q * e ^ 2 + 16 * K * Real.sqrt n * ν = 4 * β := by rw [hβ]; ring
  have hβ0 : 0 ≤ β := le_trans (abs_nonneg _) z0
  have hfreq : |x.getD 3 0 / (2 * Real.pi) - (f - s.freq)| ≤ β := by
    have : x.getD 3 0 / (2 * Real.pi) - (f - s.freq) = (x.getD 3 0 - 2 * Real.pi * (f - s.freq)) / (2 * Real.pi) := by field_simp
    rw [this, abs_div, abs_of_pos (by positivity : (0 : ℝ) < 2 * Real.pi), div_le_iff₀ (by positivity)]
    have : β * 1 ≤ β * (2 * Real.pi) := mul_le_mul_of_nonneg_left (by linarith [Real.two_le_pi]) hβ0
    linarith
  rw [hβ4]
  constructor
  · unfold fitErr fitRefine
    simp only
    rw [← hcorr, ← hx, ← ha, ← hb]
    have hc := clip_near (s.freq + x.getD 3 0 / (2 * Real.pi)) f (1 / 10 ^ 10) (1 / 2 - 1 / 10 ^ 10) h0 h1
    rw [show s.freq + x.getD 3 0 / (2 * Real.pi) - f = x.getD 3 0 / (2 * Real.pi) - (f - s.freq) by ring] at hc
    linarith
  · unfold fitRefine
    simp only
    rw [← hcorr, ← hx]
    have h2 := abs_sub_abs_le_abs_sub (x.getD 3 0 / (2 * Real.pi)) (f - s.freq)
    rw [abs_sub_comm f] at h2
    linarith

end Verif
