import Verif.Model.DelayLine
import Mathlib.Analysis.SpecialFunctions.Trigonometric.Bounds
import Mathlib.Analysis.SpecialFunctions.Trigonometric.Deriv
import Mathlib.Analysis.Calculus.Deriv.MeanValue
import Mathlib.Algebra.Ring.Periodic
import Mathlib.Data.Nat.ModEq
import Mathlib.Data.Int.GCD

/-!
# Helpers for the skew calibration loop
-/

namespace Verif

open Model Finset

/-! ## Sine -/

private theorem taylor_aux (x u : ℝ) (hu : 0 ≤ u) :
    Real.sin (x + u) - Real.sin x - u * Real.cos x ≤ u ^ 2 / 2 ∧ -(u ^ 2 / 2) ≤ Real.sin (x + u) - Real.sin x - u * Real.cos x := by
  have hd : ∀ (c : ℝ) (t : ℝ), HasDerivAt (fun t => t ^ 2 / 2 + c * (Real.sin (x + t) - Real.sin x - t * Real.cos x))
      (t + c * (Real.cos (x + t) - Real.cos x)) t := by
    intro c t
    have h1 : HasDerivAt (fun t => Real.sin (x + t)) (Real.cos (x + t)) t := by
      exact (Real.hasDerivAt_sin (x + t)).comp_const_add x t
    have h2 : HasDerivAt (fun t : ℝ => t ^ 2 / 2) t t := by
      have := (hasDerivAt_pow 2 t).div_const 2
      simpa using this
    have h3 : HasDerivAt (fun t : ℝ => t * Real.cos x) (Real.cos x) t := by
      simpa using (hasDerivAt_id t).mul_const (Real.cos x)
    exact h2.add (((h1.sub_const (Real.sin x)).sub h3).const_mul c)
  have hmono : ∀ c : ℝ, |c| = 1 → 0 ≤ u ^ 2 / 2 + c * (Real.sin (x + u) - Real.sin x - u * Real.cos x) := by
    intro c hc
    have hm : MonotoneOn (fun t => t ^ 2 / 2 + c * (Real.sin (x + t) - Real.sin x - t * Real.cos x)) (Set.Ici 0) := by
      refine monotoneOn_of_deriv_nonneg (convex_Ici 0) (fun t _ => (hd c t).continuousAt.continuousWithinAt)
        (fun t _ => (hd c t).differentiableAt.differentiableWithinAt) (fun t ht => ?_)
      rw [(hd c t).deriv]
      rw [interior_Ici] at ht
      have ht : 0 < t := ht
      have h := Real.abs_cos_sub_cos_le (x + t) x
      rw [add_sub_cancel_left, abs_of_pos ht] at h
      have h2 : |c * (Real.cos (x + t) - Real.cos x)| ≤ t := by rw [abs_mul, hc, one_mul]; exact h
      linarith [(abs_le.mp h2).1]
    have := hm (Set.mem_Ici.mpr le_rfl) (Set.mem_Ici.mpr hu) hu
    simpa using this
  have h1 := hmono 1 (by norm_num)
  have h2 := hmono (-1) (by norm_num)
  constructor <;> linarith

theorem sin_taylor (x u : ℝ) : |Real.sin (x + u) - Real.sin x - u * Real.cos x| ≤ u ^ 2 / 2 := by
  rcases le_total 0 u with h | h
  · exact abs_le.mpr ⟨(taylor_aux x u h).2, (taylor_aux x u h).1⟩
  · have h1 := taylor_aux (-x) (-u) (by linarith)
    rw [show -x + -u = -(x + u) by ring, Real.sin_neg, Real.sin_neg, Real.cos_neg, neg_sq] at h1
    exact abs_le.mpr ⟨by linarith [h1.1], by linarith [h1.2]⟩

/-- Sum of equally spaced sines. -/
theorem sum_sin_arith (θ h : ℝ) (n : ℕ) :
    (∑ k ∈ range n, Real.sin (θ + k * h)) * (2 * Real.sin (h / 2)) = Real.cos (θ - h / 2) - Real.cos (θ + n * h - h / 2) := by
  induction n with
  | zero => simp
  | succ n ih =>
    rw [sum_range_succ, add_mul, ih]
    have e1 : θ + n * h - h / 2 = (θ + n * h) - h / 2 := rfl
    have e2 : θ + ((n + 1 : ℕ) : ℝ) * h - h / 2 = (θ + n * h) + h / 2 := by push_cast; ring
    rw [e2, Real.cos_add, Real.cos_sub (θ + n * h)]
    ring

/-- The sum of `|sin|` over `Q` phases spaced by `π/Q`, for every start phase. -/
theorem sum_abs_sin (Q : ℕ) (hQ : Q ≠ 0) (θ : ℝ) :
    Real.cos (Real.pi / (2 * Q)) ≤ (∑ k ∈ range Q, |Real.sin (θ + k * (Real.pi / Q))|) * Real.sin (Real.pi / (2 * Q)) ∧
    (∑ k ∈ range Q, |Real.sin (θ + k * (Real.pi / Q))|) * Real.sin (Real.pi / (2 * Q)) ≤ 1 := by
  have hQ' : (0 : ℝ) < Q := by exact_mod_cast Nat.pos_of_ne_zero hQ
  have hp := Real.pi_pos
  set h := Real.pi / Q with hh
  have hhp : 0 < h := by positivity
  have hQh : Q * h = Real.pi := by rw [hh]; field_simp
  have hh2 : Real.pi / (2 * Q) = h / 2 := by rw [hh]; field_simp
  set T : ℝ → ℝ := fun θ => ∑ k ∈ range Q, |Real.sin (θ + k * h)| with hT
  have hper : Function.Periodic T h := by
    intro t
    have e : ∀ k : ℕ, |Real.sin (t + h + k * h)| = (fun k : ℕ => |Real.sin (t + k * h)|) (k + 1) := by
      intro k
      simp only
      congr 2
      push_cast
      ring
    have h1 : T (t + h) = ∑ k ∈ range Q, (fun k : ℕ => |Real.sin (t + k * h)|) (k + 1) := sum_congr rfl fun k _ => e k
    rw [h1]
    have h2 := sum_range_succ (fun k : ℕ => |Real.sin (t + k * h)|) Q
    rw [sum_range_succ'] at h2
    have h3 : (fun k : ℕ => |Real.sin (t + k * h)|) Q = (fun k : ℕ => |Real.sin (t + k * h)|) 0 := by
      simp only
      rw [hQh, Real.sin_add_pi, abs_neg]
      simp
    beta_reduce at h3
    rw [h3] at h2
    exact add_right_cancel h2
  obtain ⟨y, hy1, hy2⟩ := hper.exists_mem_Ico₀ hhp θ
  have hval : T y * (2 * Real.sin (h / 2)) = 2 * Real.cos (y - h / 2) := by
    have e : T y = ∑ k ∈ range Q, Real.sin (y + k * h) := by
      apply sum_congr rfl
      intro k hk
      rw [mem_range] at hk
      apply abs_of_nonneg
      have hk' : (k : ℝ) + 1 ≤ Q := by exact_mod_cast hk
      apply Real.sin_nonneg_of_nonneg_of_le_pi
      · have := hy1.1; positivity
      · have h1 := hy1.2
        nlinarith
    rw [e, sum_sin_arith, hQh, show y + Real.pi - h / 2 = (y - h / 2) + Real.pi by ring, Real.cos_add_pi]
    ring
  have hval' : T y * Real.sin (h / 2) = Real.cos (y - h / 2) := by linarith
  have hle : h ≤ Real.pi := by
    have : (1 : ℝ) ≤ Q := by exact_mod_cast Nat.one_le_iff_ne_zero.mpr hQ
    nlinarith
  show Real.cos (Real.pi / (2 * Q)) ≤ T θ * Real.sin (Real.pi / (2 * Q)) ∧ T θ * Real.sin (Real.pi / (2 * Q)) ≤ 1
  rw [hy2, hh2, hval']
  refine ⟨?_, Real.cos_le_one _⟩
  rw [← Real.cos_abs (y - h / 2)]
  apply Real.cos_le_cos_of_nonneg_of_le_pi (abs_nonneg _) (by linarith)
  rw [abs_le]
  constructor
  · linarith [hy1.1]
  · linarith [hy1.2]

/-- A sum over one period does not change when the index is multiplied by a number coprime to the period. -/
theorem sum_coprime_mul (Q b : ℕ) (hQ : Q ≠ 0) (hb : Nat.Coprime b Q) (f : ℕ → ℝ) (hf : ∀ k, f (k + Q) = f k) :
    ∑ k ∈ range Q, f (b * k) = ∑ k ∈ range Q, f k := by
  have hmod : ∀ k, f (k % Q) = f k := by
    have : Function.Periodic f Q := hf
    intro k
    exact this.map_mod_nat k
  have h1 : ∑ k ∈ range Q, f (b * k) = ∑ k ∈ range Q, f (b * k % Q) := sum_congr rfl fun k _ => (hmod _).symm
  rw [h1]
  have hinj : Set.InjOn (fun k => b * k % Q) (range Q : Finset ℕ) := by
    intro i hi j hj hij
    rw [mem_coe, mem_range] at hi hj
    have h2 : b * i ≡ b * j [MOD Q] := hij
    have h3 := Nat.ModEq.cancel_left_of_coprime (by rw [Nat.gcd_comm]; exact hb) h2
    have h4 : i % Q = j % Q := h3
    rwa [Nat.mod_eq_of_lt hi, Nat.mod_eq_of_lt hj] at h4
  have himg : (range Q).image (fun k => b * k % Q) = range Q := by
    apply eq_of_subset_of_card_le
    · intro x hx
      obtain ⟨k, _, rfl⟩ := mem_image.mp hx
      exact mem_range.mpr (Nat.mod_lt _ (Nat.pos_of_ne_zero hQ))
    · rw [card_image_of_injOn hinj]
  calc ∑ k ∈ range Q, f (b * k % Q) = ∑ x ∈ (range Q).image (fun k => b * k % Q), f x := (sum_image hinj).symm
    _ = _ := by rw [himg]

/-- A sum over `R` periods. -/
theorem sum_periods (Q R : ℕ) (f : ℕ → ℝ) (hf : ∀ k, f (k + Q) = f k) : ∑ k ∈ range (R * Q), f k = R * ∑ k ∈ range Q, f k := by
  induction R with
  | zero => simp
  | succ R ih =>
    rw [Nat.succ_mul, sum_range_add, ih]
    have hR : ∀ k, f (R * Q + k) = f k := by
      intro k
      have : Function.Periodic f Q := hf
      have := this.nat_mul R k
      rw [add_comm]
      simpa using this
    rw [sum_congr rfl fun k _ => hR k]
    push_cast
    ring

/-- The sum of `|sin|` over all but the last of `R * Q` coherent phases, relative to `C = R / sin (π / (2Q))`. -/
theorem phase_sum (Q R b : ℕ) (hQ : Q ≠ 0) (hR : R ≠ 0) (hb : Nat.Coprime b Q) (θ : ℝ) :
    |∑ k ∈ range (R * Q - 1), |Real.sin (θ + k * (b * (Real.pi / Q)))| - R / Real.sin (Real.pi / (2 * Q))| ≤
      (Real.pi ^ 2 / (8 * Q ^ 2)) * (R / Real.sin (Real.pi / (2 * Q))) + 1 ∧
    2 * (R * Q) / Real.pi ≤ R / Real.sin (Real.pi / (2 * Q)) := by
  have hQ' : (0 : ℝ) < Q := by exact_mod_cast Nat.pos_of_ne_zero hQ
  have hR' : (0 : ℝ) < R := by exact_mod_cast Nat.pos_of_ne_zero hR
  have hp := Real.pi_pos
  have hQ1 : (1 : ℝ) ≤ Q := by exact_mod_cast Nat.one_le_iff_ne_zero.mpr hQ
  have ha : 0 < Real.pi / (2 * Q) := by positivity
  have hal : Real.pi / (2 * Q) < Real.pi := by
    rw [div_lt_iff₀ (by positivity)]
    nlinarith
  have hs := Real.sin_pos_of_pos_of_lt_pi ha hal
  set σ := Real.sin (Real.pi / (2 * Q)) with hσ
  set f : ℕ → ℝ := fun k => |Real.sin (θ + k * (Real.pi / Q))| with hf
  have hfp : ∀ k, f (k + Q) = f k := by
    intro k
    simp only [hf]
    rw [show θ + ((k + Q : ℕ) : ℝ) * (Real.pi / Q) = θ + k * (Real.pi / Q) + Real.pi by push_cast; field_simp; ring, Real.sin_add_pi, abs_neg]
  have hgp : ∀ k, f (b * (k + Q)) = f (b * k) := by
    intro k
    have : Function.Periodic f Q := hfp
    have h2 := this.nat_mul b (b * k)
    rw [mul_add]
    simpa using h2
  have htot : ∑ k ∈ range (R * Q), |Real.sin (θ + k * (b * (Real.pi / Q)))| = R * ∑ k ∈ range Q, f k := by
    rw [← sum_coprime_mul Q b hQ hb f hfp, ← sum_periods Q R (fun k => f (b * k)) hgp]
    apply sum_congr rfl
    intro k _
    simp only [hf]
    congr 2
    push_cast
    ring
  have hlast : ∑ k ∈ range (R * Q), |Real.sin (θ + k * (b * (Real.pi / Q)))| =
      ∑ k ∈ range (R * Q - 1), |Real.sin (θ + k * (b * (Real.pi / Q)))| + |Real.sin (θ + ((R * Q - 1 : ℕ) : ℝ) * (b * (Real.pi / Q)))| := by
    have : 0 < R * Q := Nat.mul_pos (Nat.pos_of_ne_zero hR) (Nat.pos_of_ne_zero hQ)
    conv_lhs => rw [show R * Q = (R * Q - 1) + 1 by omega]
    rw [sum_range_succ]
  have hl1 := Real.abs_sin_le_one (θ + ((R * Q - 1 : ℕ) : ℝ) * (b * (Real.pi / Q)))
  have hl0 := abs_nonneg (Real.sin (θ + ((R * Q - 1 : ℕ) : ℝ) * (b * (Real.pi / Q))))
  obtain ⟨h1, h2⟩ := sum_abs_sin Q hQ θ
  have hcos : 1 - (Real.pi ^ 2 / (8 * Q ^ 2)) ≤ Real.cos (Real.pi / (2 * Q)) := by
    have := Real.one_sub_sq_div_two_le_cos (x := Real.pi / (2 * Q))
    calc 1 - Real.pi ^ 2 / (8 * (Q : ℝ) ^ 2) = 1 - (Real.pi / (2 * Q)) ^ 2 / 2 := by field_simp; ring
      _ ≤ _ := this
  have hC : (1 - Real.pi ^ 2 / (8 * (Q : ℝ) ^ 2)) * (R / σ) ≤ R * ∑ k ∈ range Q, f k := by
    rw [mul_div_assoc', div_le_iff₀ hs]
    have := mul_le_mul_of_nonneg_left (hcos.trans h1) hR'.le
    calc (1 - Real.pi ^ 2 / (8 * (Q : ℝ) ^ 2)) * R = R * (1 - Real.pi ^ 2 / (8 * (Q : ℝ) ^ 2)) := by ring
      _ ≤ R * ((∑ k ∈ range Q, f k) * σ) := this
      _ = _ := by ring
  have hC2 : R * ∑ k ∈ range Q, f k ≤ R / σ := by
    rw [le_div_iff₀ hs]
    have := mul_le_mul_of_nonneg_left h2 hR'.le
    calc R * (∑ k ∈ range Q, f k) * σ = R * ((∑ k ∈ range Q, f k) * σ) := by ring
      _ ≤ R * 1 := this
      _ = R := mul_one _
  rw [htot] at hlast
  constructor
  · have hπ : 0 ≤ Real.pi ^ 2 / (8 * (Q : ℝ) ^ 2) * (R / σ) := by positivity
    rw [abs_le]
    constructor <;> nlinarith
  · rw [div_le_div_iff₀ hp hs]
    have := Real.sin_le ha.le
    have h3 : σ * (2 * Q) ≤ Real.pi := by
      have := mul_le_mul_of_nonneg_right this (by positivity : (0 : ℝ) ≤ 2 * Q)
      calc σ * (2 * Q) ≤ Real.pi / (2 * Q) * (2 * Q) := this
        _ = Real.pi := by field_simp
    nlinarith

/-! ## Decision and convergence -/

/-- Telescoping the skew differences around the ring of channels. -/
theorem sum_ring (M : ℕ) (s : ℕ → ℝ) (m : ℕ) (hm : m < M) :
    ∑ j ∈ range m, (s ((j + 1) % M) - s j) = s m - s 0 ∧ ∑ j ∈ range M, (s ((j + 1) % M) - s j) = 0 := by
  have h : ∀ m, m < M → ∑ j ∈ range m, (s ((j + 1) % M) - s j) = s m - s 0 := by
    intro m hm
    rw [← sum_range_sub s m]
    apply sum_congr rfl
    intro j hj
    rw [mem_range] at hj
    rw [Nat.mod_eq_of_lt (by omega)]
  refine ⟨h m hm, ?_⟩
  obtain ⟨M', rfl⟩ : ∃ M', M = M' + 1 := ⟨M - 1, by omega⟩
  rw [sum_range_succ, h M' (by omega), Nat.mod_self]
  ring

/-- The decision statistic is the skew difference times `w cos x`, up to the error of the interval measurements. -/
theorem decision_error (M : ℕ) (s g : ℕ → ℝ) (a w c ρ : ℝ) (hg : ∀ j < M, |g j - (a + w * (s ((j + 1) % M) - s j) * c)| ≤ ρ) (m : ℕ) (hm : m < M) :
    |M * ∑ j ∈ range m, g j - m * ∑ j ∈ range M, g j - M * (w * c * (s m - s 0))| ≤ ρ * M ^ 2 / 2 := by
  obtain ⟨t1, t2⟩ := sum_ring M s m hm
  set r : ℕ → ℝ := fun j => g j - (a + w * (s ((j + 1) % M) - s j) * c) with hr
  have hgr : ∀ j, g j = a + w * c * (s ((j + 1) % M) - s j) + r j := by intro j; simp only [hr]; ring
  have hA : ∑ j ∈ range m, g j = m * a + w * c * (s m - s 0) + ∑ j ∈ range m, r j := by
    rw [sum_congr rfl fun j _ => hgr j, sum_add_distrib, sum_add_distrib, ← mul_sum, t1]
    simp
  have hS : ∑ j ∈ range M, g j = M * a + ∑ j ∈ range M, r j := by
    rw [sum_congr rfl fun j _ => hgr j, sum_add_distrib, sum_add_distrib, ← mul_sum, t2]
    simp
  have hsplit : ∑ j ∈ range M, r j = ∑ j ∈ range m, r j + ∑ j ∈ range (M - m), r (m + j) := by
    conv_lhs => rw [show M = m + (M - m) by omega]
    rw [sum_range_add]
  have b1 : |∑ j ∈ range m, r j| ≤ m * ρ := by
    calc |∑ j ∈ range m, r j| ≤ ∑ j ∈ range m, |r j| := abs_sum_le_sum_abs _ _
      _ ≤ ∑ _j ∈ range m, ρ := sum_le_sum fun j hj => hg j (by rw [mem_range] at hj; omega)
      _ = m * ρ := by simp
  have b2 : |∑ j ∈ range (M - m), r (m + j)| ≤ (M - m) * ρ := by
    calc |∑ j ∈ range (M - m), r (m + j)| ≤ ∑ j ∈ range (M - m), |r (m + j)| := abs_sum_le_sum_abs _ _
      _ ≤ ∑ _j ∈ range (M - m), ρ := sum_le_sum fun j hj => hg (m + j) (by rw [mem_range] at hj; omega)
      _ = (M - m) * ρ := by simp [Nat.cast_sub hm.le]
  rw [hA, hS, hsplit]
  set r1 := ∑ j ∈ range m, r j
  set r2 := ∑ j ∈ range (M - m), r (m + j)
  have hmM : (m : ℝ) ≤ M := by exact_mod_cast hm.le
  have hm0 : (0 : ℝ) ≤ m := by positivity
  have hρ : 0 ≤ ρ := (abs_nonneg _).trans (hg m hm)
  have e : (M : ℝ) * (m * a + w * c * (s m - s 0) + r1) - m * (M * a + (r1 + r2)) - M * (w * c * (s m - s 0)) = (M - m) * r1 - m * r2 := by ring
  rw [e]
  have c1 : |((M : ℝ) - m) * r1| ≤ (M - m) * (m * ρ) := by
    rw [abs_mul, abs_of_nonneg (by linarith : (0 : ℝ) ≤ (M : ℝ) - m)]
    exact mul_le_mul_of_nonneg_left b1 (by linarith)
  have c2 : |(m : ℝ) * r2| ≤ m * ((M - m) * ρ) := by
    rw [abs_mul, abs_of_nonneg hm0]
    exact mul_le_mul_of_nonneg_left b2 hm0
  have hq : 2 * ((M - m) * (m * ρ)) ≤ ρ * M ^ 2 / 2 := by nlinarith [mul_nonneg hρ (sq_nonneg ((M : ℝ) - 2 * m))]
  rw [abs_le] at c1 c2 ⊢
  constructor <;> linarith [c1.1, c1.2, c2.1, c2.2]

/-- A bound that shrinks by `g` per step down to `D∞` and then stays. -/
theorem bound_shrinks (P : ℕ → ℝ → Prop) (D0 D1 lmin κ β' g : ℝ) (hκ : 0 ≤ κ) (hD : 0 ≤ D1) (h01 : D1 ≤ D0) (hmono : ∀ t D D', D ≤ D' → P t D → P t D')
    (hstep : ∀ t D, D1 ≤ D → D ≤ D0 → P t D → P (t + 1) (max (D - lmin) (κ * D ^ 2 + β'))) (h0 : P 0 D0) (hg : 0 ≤ g) (hg1 : g ≤ lmin)
    (hg2 : κ * D0 ^ 2 + β' + g ≤ D0) (hg3 : κ * D1 ^ 2 + β' + g ≤ D1) (t : ℕ) : P t (max D1 (D0 - t * g)) := by
  induction t with
  | zero =>
    rw [Nat.cast_zero, zero_mul, sub_zero, max_eq_right h01]
    exact h0
  | succ t ih =>
    have h1 : D1 ≤ max D1 (D0 - t * g) := le_max_left _ _
    have h2 : max D1 (D0 - t * g) ≤ D0 := max_le h01 (by have : 0 ≤ (t : ℝ) * g := by positivity
                                                         linarith)
    set D := max D1 (D0 - t * g) with hDdef
    have h3 := hstep t D h1 h2 ih
    refine hmono _ _ _ ?_ h3
    have hconv : κ * D ^ 2 + β' + g ≤ D := by
      by_cases hlt : D1 < D0
      · have key : (D0 - D1) * (D - (κ * D ^ 2 + β' + g)) =
            (D0 - D) * (D1 - (κ * D1 ^ 2 + β' + g)) + (D - D1) * (D0 - (κ * D0 ^ 2 + β' + g)) + κ * ((D0 - D1) * (D0 - D) * (D - D1)) := by ring
        have : 0 ≤ (D0 - D1) * (D - (κ * D ^ 2 + β' + g)) := by
          rw [key]
          have a1 := mul_nonneg (sub_nonneg.mpr h2) (sub_nonneg.mpr hg3)
          have a2 := mul_nonneg (sub_nonneg.mpr h1) (sub_nonneg.mpr hg2)
          have a3 := mul_nonneg hκ (mul_nonneg (mul_nonneg (sub_nonneg.mpr h01) (sub_nonneg.mpr h2)) (sub_nonneg.mpr h1))
          linarith
        have := nonneg_of_mul_nonneg_right this (by linarith)
        linarith
      · have e : D = D0 := le_antisymm h2 (by linarith)
        rw [e]; exact hg2
    have hDg : D - g ≤ max D1 (D0 - ((t + 1 : ℕ) : ℝ) * g) := by
      push_cast
      rcases max_cases D1 (D0 - t * g) with ⟨h4, _⟩ | ⟨h4, _⟩
      · exact le_max_of_le_left (by rw [hDdef, h4]; linarith)
      · exact le_max_of_le_right (by rw [hDdef, h4]; linarith)
    exact max_le (by linarith) (by linarith)

end Verif
