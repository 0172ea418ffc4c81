import Verif.Theorems.ErrorByPhase
import Verif.Theorems.ErrorByValueInl
import Verif.Theorems.NoiseReport
import Verif.Theorems.CapMismatch

/-!
# C158: amplitude and phase noise put in are amplitude and phase noise read out
-/

namespace Verif

open Model Finset MeasureTheory ProbabilityTheory

/-! ## One record -/

section record
variable {n b : ℕ}

private theorem double_sums (hb : 0 < b) (hbn : 2 * b < n) (h4 : 4 * b ≠ n) (ψ : ℝ) :
    ∑ t ∈ range n, Real.cos (2 * (2 * Real.pi * ((b : ℝ) / n) * t + ψ)) = 0 ∧ ∑ t ∈ range n, Real.cos (2 * (2 * Real.pi * ((b : ℝ) / n) * t + ψ)) ^ 2 = n / 2 := by
  have e2 := sum_cos_zero n (by omega) ((2 * b : ℕ) : ℤ) (by
    intro h
    have h' : n ∣ 2 * b := by exact_mod_cast h
    have := Nat.le_of_dvd (by omega) h'
    omega) (2 * ψ)
  have e4 := sum_cos_zero n (by omega) ((4 * b : ℕ) : ℤ) (by
    intro h
    have h' : n ∣ 4 * b := by exact_mod_cast h
    obtain ⟨k, hk⟩ := h'
    have : k < 2 := by
      by_contra hc
      have : n * 2 ≤ n * k := Nat.mul_le_mul_left _ (by omega)
      omega
    interval_cases k <;> omega) (4 * ψ)
  constructor
  · rw [← e2]
    refine sum_congr rfl fun t _ => ?_
    congr 1
    push_cast
    ring
  · have : ∀ t ∈ range n, Real.cos (2 * (2 * Real.pi * ((b : ℝ) / n) * t + ψ)) ^ 2 = 1 / 2 + 1 / 2 * Real.cos (2 * Real.pi * (((4 * b : ℕ) : ℤ) * t / n) + 4 * ψ) := by
      intro t _
      rw [Real.cos_sq]
      have : 2 * (2 * (2 * Real.pi * ((b : ℝ) / n) * t + ψ)) = 2 * Real.pi * (((4 * b : ℕ) : ℤ) * t / n) + 4 * ψ := by push_cast; ring
      rw [this]
      ring
    rw [sum_congr rfl this, sum_add_distrib, ← mul_sum, e4]
    simp
    ring

/-- The straight fit of squares against `cos 2φ`. -/
private theorem square_fit (solve : Lstsq) (hs : IsLstsq solve) (y φ : ℕ → ℝ) (h1 : ∑ t ∈ range n, Real.cos (2 * φ t) = 0) (h2 : ∑ t ∈ range n, Real.cos (2 * φ t) ^ 2 = n / 2)
    (z : List ℝ) (hz : z = solve n [fun t => Real.cos (2 * φ t), fun _ => 1] y) :
    ∑ t ∈ range n, y t * Real.cos (2 * φ t) = n / 2 * z.getD 0 0 ∧ ∑ t ∈ range n, y t = n * z.getD 1 0 := by
  have hmv : ∀ (w : List ℝ) (t : ℕ), matVec [fun t => Real.cos (2 * φ t), fun _ => 1] w t = w.getD 0 0 * Real.cos (2 * φ t) + w.getD 1 0 := by
    intro w t
    unfold matVec
    simp [sum_range_succ]
  have o1 := lstsq_orthogonal solve hs n [fun t => Real.cos (2 * φ t), fun _ => 1] y [1, 0] rfl
  have o2 := lstsq_orthogonal solve hs n [fun t => Real.cos (2 * φ t), fun _ => 1] y [0, 1] rfl
  rw [← hz] at o1 o2
  simp only [hmv, List.getD_cons_zero, List.getD_cons_succ, one_mul, zero_mul, add_zero, zero_add, mul_one] at o1 o2
  constructor
  · have : ∀ t ∈ range n, (y t - (z.getD 0 0 * Real.cos (2 * φ t) + z.getD 1 0)) * Real.cos (2 * φ t)
        = y t * Real.cos (2 * φ t) - (z.getD 0 0 * Real.cos (2 * φ t) ^ 2 + z.getD 1 0 * Real.cos (2 * φ t)) := fun t _ => by ring
    rw [sum_congr rfl this, sum_sub_distrib, sum_add_distrib, ← mul_sum, ← mul_sum, h1, h2] at o1
    linarith
  · rw [sum_sub_distrib, sum_add_distrib, ← mul_sum, h1] at o2
    simp only [sum_const, card_range, nsmul_eq_mul] at o2
    linarith

/-- Distance of the two sums over the squares, before and after the fit. -/
private theorem square_distance (hnR : (0 : ℝ) < n) (θ z g : ℕ → ℝ) (δ A E G S a l m : ℝ) (hA : 0 < A) (hl : 0 < l) (hm : 0 < m)
    (hzz : ∑ t ∈ range n, z t ^ 2 = n * E) (hgg : ∑ t ∈ range n, g t ^ 2 = n * G) (hee : ∑ t ∈ range n, (z t - g t) ^ 2 = n * (E - G)) (hG0 : 0 ≤ G)
    (hsin : (A * |Real.sin δ|) ^ 2 ≤ 2 * G) (k1 : ∑ t ∈ range n, (z t - g t) ^ 2 * Real.cos (2 * (θ t + δ)) = n / 2 * a)
    (hS : S = 2 / n * ∑ t ∈ range n, z t ^ 2 * Real.cos (2 * θ t)) : |a - S| ≤ 2 / A * (l * E ^ 2 + 2 * G / l) + 2 * (m * E + G / m) + 2 * G := by
  -- distance of the two sums
  have hd : a - S = 2 / n * ∑ t ∈ range n, ((z t - g t) ^ 2 * (Real.cos (2 * (θ t + δ)) - Real.cos (2 * θ t)) + ((z t - g t) ^ 2 - z t ^ 2) * Real.cos (2 * θ t)) := by
    rw [sum_congr rfl fun t _ => show (z t - g t) ^ 2 * (Real.cos (2 * (θ t + δ)) - Real.cos (2 * θ t)) + ((z t - g t) ^ 2 - z t ^ 2) * Real.cos (2 * θ t)
      = (z t - g t) ^ 2 * Real.cos (2 * (θ t + δ)) - z t ^ 2 * Real.cos (2 * θ t) by ring, sum_sub_distrib, k1, hS]
    field_simp
  have hb1 : ∀ t, |(z t - g t) ^ 2 * (Real.cos (2 * (θ t + δ)) - Real.cos (2 * θ t)) + ((z t - g t) ^ 2 - z t ^ 2) * Real.cos (2 * θ t)|
      ≤ (z t - g t) ^ 2 * (2 * |Real.sin δ|) + (g t ^ 2 + (m * z t ^ 2 + g t ^ 2 / m)) := by
    intro t
    refine (abs_add_le _ _).trans (add_le_add ?_ ?_)
    · rw [abs_mul, abs_of_nonneg (sq_nonneg _)]
      refine mul_le_mul_of_nonneg_left ?_ (sq_nonneg _)
      rw [Real.cos_sub_cos, show (2 * (θ t + δ) - 2 * θ t) / 2 = δ by ring, abs_mul, abs_mul]
      have := Real.abs_sin_le_one ((2 * (θ t + δ) + 2 * θ t) / 2)
      rw [show |(-2 : ℝ)| = 2 by norm_num]
      nlinarith [abs_nonneg (Real.sin δ)]
    · rw [abs_mul]
      have h1 : |(z t - g t) ^ 2 - z t ^ 2| ≤ g t ^ 2 + (m * z t ^ 2 + g t ^ 2 / m) := by
        have h2 : (z t - g t) ^ 2 - z t ^ 2 = g t ^ 2 - 2 * z t * g t := by ring
        have h3 : |2 * z t * g t| ≤ m * z t ^ 2 + g t ^ 2 / m := by
          have e5 : m * z t ^ 2 + g t ^ 2 / m - 2 * z t * g t = (m * z t - g t) ^ 2 / m := by field_simp; ring
          have e6 : m * z t ^ 2 + g t ^ 2 / m + 2 * z t * g t = (m * z t + g t) ^ 2 / m := by field_simp; ring
          have p5 : 0 ≤ (m * z t - g t) ^ 2 / m := by positivity
          have p6 : 0 ≤ (m * z t + g t) ^ 2 / m := by positivity
          rw [abs_le]
          constructor <;> linarith
        rw [h2]
        refine (abs_sub _ _).trans ?_
        rw [abs_of_nonneg (sq_nonneg _)]
        linarith
      have h2 := Real.abs_cos_le_one (2 * θ t)
      calc |(z t - g t) ^ 2 - z t ^ 2| * |Real.cos (2 * θ t)| ≤ |(z t - g t) ^ 2 - z t ^ 2| * 1 := mul_le_mul_of_nonneg_left h2 (abs_nonneg _)
        _ ≤ _ := by rw [mul_one]; exact h1
  have hb2 : |a - S| ≤ 2 / n * (n * (E - G) * (2 * |Real.sin δ|) + (n * G + (m * (n * E) + n * G / m))) := by
    rw [hd, abs_mul, abs_of_pos (by positivity : (0 : ℝ) < 2 / n)]
    refine mul_le_mul_of_nonneg_left ((abs_sum_le_sum_abs _ _).trans ((sum_le_sum fun t _ => hb1 t).trans (le_of_eq ?_))) (by positivity)
    rw [sum_add_distrib, ← sum_mul, hee, sum_add_distrib, sum_add_distrib, ← mul_sum, ← sum_div, hzz, hgg]
  have hb3 : 4 * ((E - G) * |Real.sin δ|) ≤ 2 / A * (l * E ^ 2 + 2 * G / l) := by
    have h1 : (E - G) * |Real.sin δ| ≤ E * |Real.sin δ| := mul_le_mul_of_nonneg_right (by linarith) (abs_nonneg _)
    have h2 : 2 * (E * (A * |Real.sin δ|)) ≤ l * E ^ 2 + (A * |Real.sin δ|) ^ 2 / l := by
      have e5 : l * E ^ 2 + (A * |Real.sin δ|) ^ 2 / l - 2 * (E * (A * |Real.sin δ|)) = (l * E - A * |Real.sin δ|) ^ 2 / l := by field_simp; ring
      have p5 : 0 ≤ (l * E - A * |Real.sin δ|) ^ 2 / l := by positivity
      linarith
    have h3 : (A * |Real.sin δ|) ^ 2 / l ≤ 2 * G / l := div_le_div_of_nonneg_right hsin hl.le
    have h4 : 4 * (E * |Real.sin δ|) = 2 / A * (2 * (E * (A * |Real.sin δ|))) := by field_simp; ring
    calc 4 * ((E - G) * |Real.sin δ|) ≤ 4 * (E * |Real.sin δ|) := by linarith
      _ = 2 / A * (2 * (E * (A * |Real.sin δ|))) := h4
      _ ≤ 2 / A * (l * E ^ 2 + 2 * G / l) := mul_le_mul_of_nonneg_left (by linarith) (by positivity)
  have hb4 : 2 / n * (n * (E - G) * (2 * |Real.sin δ|) + (n * G + (m * (n * E) + n * G / m))) = 4 * ((E - G) * |Real.sin δ|) + 2 * (m * E + G / m) + 2 * G := by
    field_simp
    ring
  linarith

/-- Phase and amplitude of a fit from its two coefficients. -/
private theorem polar_close (R A δ P Q c0 G : ℝ) (hR0 : 0 ≤ R) (hA : 0 ≤ A) (h1 : R * Real.cos δ = A + P) (h2 : -(R * Real.sin δ) = Q) (hG : G = c0 ^ 2 + (P ^ 2 + Q ^ 2) / 2) :
    (A * |Real.sin δ|) ^ 2 ≤ 2 * G ∧ (R - A) ^ 2 ≤ 2 * G := by
  have hsc := Real.sin_sq_add_cos_sq δ
  have hP : P = R * Real.cos δ - A := by linarith
  have hc := sq_nonneg c0
  constructor
  · have e : P ^ 2 + Q ^ 2 = (R - A * Real.cos δ) ^ 2 + A ^ 2 * Real.sin δ ^ 2 := by
      rw [hP, ← h2]
      linear_combination (R ^ 2 - A ^ 2) * hsc
    have := sq_nonneg (R - A * Real.cos δ)
    rw [mul_pow, sq_abs, hG]
    linarith
  · have e : P ^ 2 + Q ^ 2 = (R - A) ^ 2 + 2 * (R * A * (1 - Real.cos δ)) := by
      rw [hP, ← h2]
      linear_combination R ^ 2 * hsc
    have : 0 ≤ R * A * (1 - Real.cos δ) := mul_nonneg (mul_nonneg hR0 hA) (sub_nonneg.mpr (Real.cos_le_one δ))
    rw [hG]
    linarith

/-- The reported coefficients in terms of the noise of one record. -/
private theorem record_coeffs (solve : Lstsq) (hs : IsLstsq solve) (hb : 0 < b) (hbn : 2 * b < n) (h4 : 4 * b ≠ n) (A φ D tol : ℝ) (hA : 0 < A) (z : ℕ → ℝ)
    (nBins : ℤ) (r : PhaseBins)
    (h : rearrangeByPhase solve n (fun t => sineAt A ((b : ℝ) / n) φ D t + z t) (some ((b : ℝ) / n)) nBins true 0 tol = .ok r)
    (E S G c0 P Q : ℝ) (hE : E = (∑ t ∈ range n, z t ^ 2) / n) (hS : S = 2 / n * ∑ t ∈ range n, z t ^ 2 * Real.cos (2 * (2 * Real.pi * ((b : ℝ) / n) * t + φ)))
    (hc0 : c0 = 1 / n * ∑ t ∈ range n, z t) (hP : P = 2 / n * ∑ t ∈ range n, z t * Real.cos (2 * Real.pi * ((b : ℝ) / n) * t + φ))
    (hQ : Q = 2 / n * ∑ t ∈ range n, z t * Real.sin (2 * Real.pi * ((b : ℝ) / n) * t + φ)) (hG : G = c0 ^ 2 + (P ^ 2 + Q ^ 2) / 2) :
    ∃ a : ℝ, r.coeffs = splitVar a (E - G) ∧ (r.amplitude - A) ^ 2 ≤ 2 * G ∧ ∀ l m : ℝ, 0 < l → 0 < m → |a - S| ≤ 2 / A * (l * E ^ 2 + 2 * G / l) + 2 * (m * E + G / m) + 2 * G := by
  have hnR : (0 : ℝ) < n := by exact_mod_cast (by omega : 0 < n)
  unfold rearrangeByPhase at h
  cases hf : fitCore solve n (fun t => sineAt A ((b : ℝ) / n) φ D t + z t) (some ((b : ℝ) / n)) 0 tol with
  | error e => rw [hf] at h; cases h
  | ok fit =>
    rw [hf] at h
    simp only at h
    by_cases hz0 : nBins = 0
    · rw [if_pos hz0] at h; cases h
    rw [if_neg hz0] at h
    by_cases hz1 : nBins < 0
    · rw [if_pos hz1] at h; cases h
    rw [if_neg hz1] at h
    injection h with h
    have hco : r.coeffs = phaseVars solve n (fun t => (sineAt A ((b : ℝ) / n) φ D t + z t - fit.fitted t) ^ 2)
        (fun t => pmod (2 * Real.pi * fit.frequency * t + fit.phase) (2 * Real.pi)) true := by rw [← h]
    have hamp : r.amplitude = fit.amplitude := by rw [← h]
    clear h
    have hamp0 : 0 ≤ fit.amplitude := by
      rw [fit_some] at hf
      injection hf with hf
      rw [← hf]
      exact Real.sqrt_nonneg _
    obtain ⟨cc, PP, QQ, e1, e2, e3, e4⟩ := coherent_fit_parts solve hs n b hb hbn _ φ tol fit hf
    -- frequency and polar form of the fit
    have hpol : fit.frequency = (b : ℝ) / n ∧ ∀ t : ℕ, fit.fitted t = fit.amplitude * Real.cos (2 * Real.pi * ((b : ℝ) / n) * t + fit.phase) + fit.dcOffset := by
      rw [fit_some] at hf
      injection hf with hf
      rw [← hf]
      refine ⟨rfl, fun t => ?_⟩
      obtain ⟨s, hs'⟩ : ∃ s : FitState, s = fitFirst solve n (fun t => sineAt A ((b : ℝ) / n) φ D t + z t)
        { freq := (b : ℝ) / n, a := 0, b := 0, c := 0, converged := decide ((0 : ℤ) = 0), nIterations := 0, lastDelta := 0 } := ⟨_, rfl⟩
      have hfr : s.freq = (b : ℝ) / n := by rw [hs']; rfl
      have e : (if (0 : ℤ) < 0 then ({ freq := (b : ℝ) / n, a := 0, b := 0, c := 0, converged := decide ((0 : ℤ) = 0), nIterations := 0, lastDelta := 0 } : FitState)
          else fitLoop solve n (fun t => sineAt A ((b : ℝ) / n) φ D t + z t) tol (0 : ℤ).toNat (fitFirst solve n (fun t => sineAt A ((b : ℝ) / n) φ D t + z t)
            { freq := (b : ℝ) / n, a := 0, b := 0, c := 0, converged := decide ((0 : ℤ) = 0), nIterations := 0, lastDelta := 0 })) = s := by
        rw [if_neg (by norm_num), hs']
        rfl
      rw [e]
      unfold fitResult fitCos fitSin
      simp only
      rw [hfr, Real.cos_add]
      have hn1 : ‖(⟨s.a, -s.b⟩ : ℂ)‖ = Real.sqrt (s.a ^ 2 + s.b ^ 2) := by
        rw [Complex.norm_eq_sqrt_sq_add_sq]
        simp
      have c1 := Complex.norm_mul_cos_arg (⟨s.a, -s.b⟩ : ℂ)
      have c2 := Complex.norm_mul_sin_arg (⟨s.a, -s.b⟩ : ℂ)
      rw [hn1] at c1 c2
      simp only at c1 c2
      linear_combination -Real.cos (2 * Real.pi * ((b : ℝ) / n) * t) * c1 + Real.sin (2 * Real.pi * ((b : ℝ) / n) * t) * c2
    obtain ⟨hfreq, hpolar⟩ := hpol
    obtain ⟨s1, s2, s3, s4, s5⟩ := coherent_sums_shift n b hb hbn φ
    obtain ⟨d1, d2⟩ := double_sums hb hbn h4 fit.phase
    have hdp : ∀ t : ℕ, 2 * Real.pi * fit.frequency * t + fit.phase = 2 * Real.pi * ((b : ℝ) / n) * t + fit.phase := fun t => by rw [hfreq]
    obtain ⟨δ, hδ⟩ : ∃ δ, fit.phase = φ + δ := ⟨fit.phase - φ, by ring⟩
    obtain ⟨θ, hθ⟩ : ∃ θ : ℕ → ℝ, ∀ t, θ t = 2 * Real.pi * ((b : ℝ) / n) * t + φ := ⟨_, fun _ => rfl⟩
    have hθ' : ∀ t : ℕ, 2 * Real.pi * ((b : ℝ) / n) * t + fit.phase = θ t + δ := fun t => by rw [hθ, hδ]; ring
    unfold sineAt at e2 e3 e4 hco
    simp only [hθ'] at d1 d2 hpolar
    simp only [← hθ] at e1 e2 e3 e4 s1 s2 s3 s4 s5 hS hP hQ hco
    -- coefficients of the fit
    have f2 : cc = D + c0 := by
      have : n * cc = n * D + ∑ u ∈ range n, z u := by
        rw [← e2, sum_add_distrib, sum_add_distrib, ← mul_sum, s1]
        simp
      rw [hc0]
      field_simp
      linarith
    have f3 : PP = A + P := by
      have : n / 2 * PP = n / 2 * A + ∑ u ∈ range n, z u * Real.cos (θ u) := by
        rw [← e3, sum_congr rfl fun u _ => show (A * Real.cos (θ u) + D + z u) * Real.cos (θ u)
          = A * Real.cos (θ u) ^ 2 + D * Real.cos (θ u) + z u * Real.cos (θ u) by ring, sum_add_distrib, sum_add_distrib, ← mul_sum, ← mul_sum, s1, s3]
        ring
      rw [hP]
      field_simp
      linarith
    have f4 : QQ = Q := by
      have : n / 2 * QQ = ∑ u ∈ range n, z u * Real.sin (θ u) := by
        rw [← e4, sum_congr rfl fun u _ => show (A * Real.cos (θ u) + D + z u) * Real.sin (θ u)
          = A * (Real.sin (θ u) * Real.cos (θ u)) + D * Real.sin (θ u) + z u * Real.sin (θ u) by ring, sum_add_distrib, sum_add_distrib, ← mul_sum, ← mul_sum, s2, s5]
        ring
      rw [hQ]
      field_simp
      linarith
    -- error of the phase
    have hR : fit.amplitude * Real.cos δ = A + P ∧ -(fit.amplitude * Real.sin δ) = Q := by
      have hx : ∀ t : ℕ, fit.amplitude * Real.cos δ * Real.cos (θ t) + -(fit.amplitude * Real.sin δ) * Real.sin (θ t) + fit.dcOffset = cc + PP * Real.cos (θ t) + QQ * Real.sin (θ t) := by
        intro t
        rw [← e1, hpolar, Real.cos_add]
        ring
      constructor
      · have h1 : ∑ t ∈ range n, (fit.amplitude * Real.cos δ * Real.cos (θ t) + -(fit.amplitude * Real.sin δ) * Real.sin (θ t) + fit.dcOffset) * Real.cos (θ t)
            = ∑ t ∈ range n, (cc + PP * Real.cos (θ t) + QQ * Real.sin (θ t)) * Real.cos (θ t) := sum_congr rfl fun t _ => by rw [hx]
        rw [sum_congr rfl fun t _ => show (fit.amplitude * Real.cos δ * Real.cos (θ t) + -(fit.amplitude * Real.sin δ) * Real.sin (θ t) + fit.dcOffset) * Real.cos (θ t)
            = fit.amplitude * Real.cos δ * Real.cos (θ t) ^ 2 + -(fit.amplitude * Real.sin δ) * (Real.sin (θ t) * Real.cos (θ t)) + fit.dcOffset * Real.cos (θ t) by ring,
          sum_congr rfl fun t _ => show (cc + PP * Real.cos (θ t) + QQ * Real.sin (θ t)) * Real.cos (θ t)
            = cc * Real.cos (θ t) + PP * Real.cos (θ t) ^ 2 + QQ * (Real.sin (θ t) * Real.cos (θ t)) by ring,
          sum_add_distrib, sum_add_distrib, sum_add_distrib, sum_add_distrib, ← mul_sum, ← mul_sum, ← mul_sum, ← mul_sum, ← mul_sum, ← mul_sum, s1, s3, s5] at h1
        rw [← f3]
        have hn2 : (n : ℝ) / 2 ≠ 0 := by positivity
        apply mul_right_cancel₀ hn2
        linarith
      · have h1 : ∑ t ∈ range n, (fit.amplitude * Real.cos δ * Real.cos (θ t) + -(fit.amplitude * Real.sin δ) * Real.sin (θ t) + fit.dcOffset) * Real.sin (θ t)
            = ∑ t ∈ range n, (cc + PP * Real.cos (θ t) + QQ * Real.sin (θ t)) * Real.sin (θ t) := sum_congr rfl fun t _ => by rw [hx]
        rw [sum_congr rfl fun t _ => show (fit.amplitude * Real.cos δ * Real.cos (θ t) + -(fit.amplitude * Real.sin δ) * Real.sin (θ t) + fit.dcOffset) * Real.sin (θ t)
            = fit.amplitude * Real.cos δ * (Real.sin (θ t) * Real.cos (θ t)) + -(fit.amplitude * Real.sin δ) * Real.sin (θ t) ^ 2 + fit.dcOffset * Real.sin (θ t) by ring,
          sum_congr rfl fun t _ => show (cc + PP * Real.cos (θ t) + QQ * Real.sin (θ t)) * Real.sin (θ t)
            = cc * Real.sin (θ t) + PP * (Real.sin (θ t) * Real.cos (θ t)) + QQ * Real.sin (θ t) ^ 2 by ring,
          sum_add_distrib, sum_add_distrib, sum_add_distrib, sum_add_distrib, ← mul_sum, ← mul_sum, ← mul_sum, ← mul_sum, ← mul_sum, ← mul_sum, s2, s4, s5] at h1
        rw [← f4]
        have hn2 : (n : ℝ) / 2 ≠ 0 := by positivity
        apply mul_right_cancel₀ hn2
        linarith
    obtain ⟨hsin, hAR⟩ := polar_close fit.amplitude A δ P Q c0 G hamp0 hA.le hR.1 hR.2 hG
    rw [← hamp] at hAR
    -- the residual
    obtain ⟨g, hg⟩ : ∃ g : ℕ → ℝ, ∀ t, g t = c0 + P * Real.cos (θ t) + Q * Real.sin (θ t) := ⟨_, fun _ => rfl⟩
    have herr : ∀ t : ℕ, A * Real.cos (θ t) + D + z t - fit.fitted t = z t - g t := by
      intro t
      rw [e1, f2, f3, f4, hg]
      ring
    simp only [herr] at hco
    have hzg : ∑ t ∈ range n, z t * g t = n * G := by
      have h1 : ∑ t ∈ range n, z t = n * c0 := by rw [hc0]; field_simp
      have h2 : ∑ t ∈ range n, z t * Real.cos (θ t) = n / 2 * P := by rw [hP]; field_simp
      have h3 : ∑ t ∈ range n, z t * Real.sin (θ t) = n / 2 * Q := by rw [hQ]; field_simp
      rw [sum_congr rfl fun t _ => show z t * g t = c0 * z t + P * (z t * Real.cos (θ t)) + Q * (z t * Real.sin (θ t)) by rw [hg]; ring,
        sum_add_distrib, sum_add_distrib, ← mul_sum, ← mul_sum, ← mul_sum, h1, h2, h3, hG]
      ring
    have hgg : ∑ t ∈ range n, g t ^ 2 = n * G := by
      rw [sum_congr rfl fun t _ => show g t ^ 2 = c0 ^ 2 + 2 * c0 * P * Real.cos (θ t) + 2 * c0 * Q * Real.sin (θ t) + P ^ 2 * Real.cos (θ t) ^ 2 + Q ^ 2 * Real.sin (θ t) ^ 2
          + 2 * P * Q * (Real.sin (θ t) * Real.cos (θ t)) by rw [hg]; ring,
        sum_add_distrib, sum_add_distrib, sum_add_distrib, sum_add_distrib, sum_add_distrib, ← mul_sum, ← mul_sum, ← mul_sum, ← mul_sum, ← mul_sum, s1, s2, s3, s4, s5, hG]
      simp only [sum_const, card_range, nsmul_eq_mul]
      ring
    have hzz : ∑ t ∈ range n, z t ^ 2 = n * E := by rw [hE]; field_simp
    have hee : ∑ t ∈ range n, (z t - g t) ^ 2 = n * (E - G) := by
      rw [sum_congr rfl fun t _ => show (z t - g t) ^ 2 = z t ^ 2 - 2 * (z t * g t) + g t ^ 2 by ring, sum_add_distrib, sum_sub_distrib, ← mul_sum, hzz, hzg, hgg]
      ring
    have hG0 : 0 ≤ G := by rw [hG]; positivity
    -- the straight fit
    unfold phaseVars at hco
    rw [if_pos rfl] at hco
    simp only at hco
    obtain ⟨w, hw⟩ : ∃ w, w = solve n [fun t => Real.cos (2 * pmod (2 * Real.pi * fit.frequency * t + fit.phase) (2 * Real.pi)), fun _ => 1] fun t => (z t - g t) ^ 2 := ⟨_, rfl⟩
    have hcols : (fun t : ℕ => Real.cos (2 * pmod (2 * Real.pi * fit.frequency * t + fit.phase) (2 * Real.pi))) = fun t => Real.cos (2 * (θ t + δ)) := by
      funext t
      rw [hdp, hθ']
      unfold pmod
      rw [show 2 * (θ t + δ - 2 * Real.pi * (⌊(θ t + δ) / (2 * Real.pi)⌋ : ℝ)) = 2 * (θ t + δ) - ((2 * ⌊(θ t + δ) / (2 * Real.pi)⌋ : ℤ) : ℝ) * (2 * Real.pi) by push_cast; ring,
        Real.cos_sub_int_mul_two_pi]
    rw [← hw] at hco
    rw [hcols] at hw
    obtain ⟨k1, k2⟩ := square_fit solve hs (fun t => (z t - g t) ^ 2) (fun t => θ t + δ) d1 d2 w hw
    have hB : w.getD 1 0 = E - G := by
      rw [hee] at k2
      exact (mul_left_cancel₀ hnR.ne' k2).symm
    refine ⟨w.getD 0 0, by rw [hco, hB], hAR, fun l m hl hm => ?_⟩
    exact square_distance hnR θ z g δ A E G S _ l m hA hl hm hzz hgg hee hG0 hsin k1 hS

private theorem split_values (a B : ℝ) : (splitVar a B).1 = max 0 (2 * a) ∧ (splitVar a B).2.1 = max 0 (-2 * a) ∧ (splitVar a B).2.2 = max 0 (B - |a|) := by
  unfold splitVar
  by_cases h : 0 < a
  · rw [if_pos h, abs_of_pos h]
    exact ⟨rfl, (max_eq_left (by linarith)).symm, rfl⟩
  · rw [if_neg h]
    by_cases h2 : a < 0
    · rw [if_pos h2, abs_of_neg h2]
      refine ⟨(max_eq_left (by linarith)).symm, rfl, ?_⟩
      rw [sub_neg_eq_add]
    · rw [if_neg h2]
      have : a = 0 := by linarith
      subst this
      simp

/-- How far the interpretation moves. -/
private theorem split_close (a B am pm c d e : ℝ) (ha : 0 ≤ am) (hp : 0 ≤ pm) (hc : 0 ≤ c) (h1 : |a - (am - pm) / 2| ≤ d) (h2 : |B - ((am + pm) / 2 + c)| ≤ e) :
    |(splitVar a B).1 - (am - min am pm)| ≤ 2 * d + e ∧ |(splitVar a B).2.1 - (pm - min am pm)| ≤ 2 * d + e ∧ |(splitVar a B).2.2 - (c + min am pm)| ≤ 2 * d + e := by
  have he : 0 ≤ e := (abs_nonneg _).trans h2
  have hd : 0 ≤ d := (abs_nonneg _).trans h1
  have lip : ∀ x y : ℝ, |max 0 x - max 0 y| ≤ |x - y| := fun x y => by
    have := abs_max_sub_max_le_abs x y 0
    rwa [max_comm x 0, max_comm y 0] at this
  obtain ⟨q1, q2, q3⟩ := split_values a B
  have m1 : am - min am pm = max 0 (am - pm) := by
    rcases le_total am pm with h | h
    · rw [min_eq_left h, max_eq_left (by linarith)]; ring
    · rw [min_eq_right h, max_eq_right (by linarith)]
  have m2 : pm - min am pm = max 0 (pm - am) := by
    rcases le_total am pm with h | h
    · rw [min_eq_left h, max_eq_right (by linarith)]
    · rw [min_eq_right h, max_eq_left (by linarith)]; ring
  have m3 : c + min am pm = max 0 (((am + pm) / 2 + c) - |(am - pm) / 2|) := by
    rcases le_total am pm with h | h
    · rw [min_eq_left h, abs_of_nonpos (by linarith), max_eq_right (by linarith)]; ring
    · rw [min_eq_right h, abs_of_nonneg (by linarith), max_eq_right (by linarith)]; ring
  rw [q1, q2, q3, m1, m2, m3]
  obtain ⟨u1, u2⟩ := abs_le.mp h1
  obtain ⟨w1, w2⟩ := abs_le.mp h2
  refine ⟨(lip _ _).trans ?_, (lip _ _).trans ?_, (lip _ _).trans ?_⟩
  · rw [abs_le]; constructor <;> linarith
  · rw [abs_le]; constructor <;> linarith
  · have h3 := abs_abs_sub_abs_le_abs_sub a ((am - pm) / 2)
    obtain ⟨v1, v2⟩ := abs_le.mp (h3.trans h1)
    rw [abs_le]; constructor <;> linarith

/-- Distance of the reported squares of one record from the squares put in. -/
private theorem record_close (solve : Lstsq) (hs : IsLstsq solve) (hb : 0 < b) (hbn : 2 * b < n) (h4b : 4 * b ≠ n) (A φ D tol : ℝ) (hA : 0 < A) (nBins : ℤ)
    (am pm c : ℝ) (ham : 0 ≤ am) (hpm : 0 ≤ pm) (hc : 0 ≤ c) (z : ℕ → ℝ) (r : PhaseBins)
    (hr : rearrangeByPhase solve n (fun t => sineAt A ((b : ℝ) / n) φ D t + z t) (some ((b : ℝ) / n)) nBins true 0 tol = .ok r) (E F S G : ℝ)
    (hE : E = (∑ t ∈ range n, z t ^ 2) / n) (hF : F = (∑ t ∈ range n, z t ^ 4) / n)
    (hS : S = 2 / n * ∑ t ∈ range n, z t ^ 2 * Real.cos (2 * (2 * Real.pi * ((b : ℝ) / n) * t + φ)))
    (hG : G = (1 / n * ∑ t ∈ range n, z t) ^ 2 + ((2 / n * ∑ t ∈ range n, z t * Real.cos (2 * Real.pi * ((b : ℝ) / n) * t + φ)) ^ 2
      + (2 / n * ∑ t ∈ range n, z t * Real.sin (2 * Real.pi * ((b : ℝ) / n) * t + φ)) ^ 2) / 2)
    (l m p q : ℝ) (hl0 : 0 < l) (hm0 : 0 < m) (hp0 : 0 < p) (hq0 : 0 < q) (W : ℝ)
    (hW : W = (p + q / 2) + (4 * l / A * F + ((8 / (A * l) + 4 / m + 5) * G + (4 * m * E
      + (1 / p * (S - (am - pm) / 2) ^ 2 + 1 / (2 * q) * (E - ((am + pm) / 2 + c)) ^ 2))))) :
    |r.amRms ^ 2 - (am - min am pm)| ≤ W ∧ |r.pmRms ^ 2 - (pm - min am pm)| ≤ W ∧ |r.baseRms ^ 2 - (c + min am pm)| ≤ W := by
  have hnR : (0 : ℝ) < n := by exact_mod_cast (by omega : 0 < n)
  obtain ⟨⟨_, r1⟩, ⟨_, r2⟩, ⟨_, r3⟩, _⟩ := C50_variances solve n _ _ nBins true 0 tol r hr
  obtain ⟨a, ha, hcl⟩ := record_coeffs solve hs hb hbn h4b A φ D tol hA z nBins r hr E S G _ _ _ hE
    hS rfl rfl rfl hG
  have h1 := hcl.2 l m hl0 hm0
  clear hcl
  have amgm : ∀ (y k : ℝ), 0 < k → |y| ≤ (k + y ^ 2 / k) / 2 := by
    intro y k hk
    have e : k + y ^ 2 / k - 2 * |y| = (k - |y|) ^ 2 / k := by
      rw [← sq_abs y]
      field_simp
      ring
    have : 0 ≤ (k - |y|) ^ 2 / k := by positivity
    linarith
  have h2 := amgm (S - (am - pm) / 2) p hp0
  have h3 := amgm (E - ((am + pm) / 2 + c)) q hq0
  have hEF : E ^ 2 ≤ F := by
    have := sq_sum_le_card_mul_sum_sq (s := range n) (f := fun t => z t ^ 2)
    rw [card_range] at this
    rw [hE, hF, div_pow, div_le_div_iff₀ (by positivity) hnR]
    have e : ∑ t ∈ range n, (z t ^ 2) ^ 2 = ∑ t ∈ range n, z t ^ 4 := sum_congr rfl fun t _ => by ring
    rw [e] at this
    nlinarith
  have hG0 : 0 ≤ G := by rw [hG]; positivity
  have d1 : |a - (am - pm) / 2| ≤ 2 / A * (l * F + 2 * G / l) + 2 * (m * E + G / m) + 2 * G + (p + (S - (am - pm) / 2) ^ 2 / p) / 2 := by
    have e : a - (am - pm) / 2 = (a - S) + (S - (am - pm) / 2) := by ring
    rw [e]
    refine (abs_add_le _ _).trans (add_le_add (h1.trans ?_) h2)
    have : 2 / A * (l * E ^ 2 + 2 * G / l) ≤ 2 / A * (l * F + 2 * G / l) :=
      mul_le_mul_of_nonneg_left (by have := mul_le_mul_of_nonneg_left hEF hl0.le; linarith) (by positivity)
    linarith
  have d2 : |(E - G) - ((am + pm) / 2 + c)| ≤ G + (q + (E - ((am + pm) / 2 + c)) ^ 2 / q) / 2 := by
    have e : (E - G) - ((am + pm) / 2 + c) = (E - ((am + pm) / 2 + c)) - G := by ring
    rw [e]
    refine (abs_sub _ _).trans ?_
    rw [abs_of_nonneg hG0]
    linarith
  have key := split_close a (E - G) am pm c _ _ ham hpm hc d1 d2
  have hWe : 2 * (2 / A * (l * F + 2 * G / l) + 2 * (m * E + G / m) + 2 * G + (p + (S - (am - pm) / 2) ^ 2 / p) / 2)
      + (G + (q + (E - ((am + pm) / 2 + c)) ^ 2 / q) / 2) = W := by
    rw [hW]
    field_simp
    ring
  rw [hWe, ← ha, ← r1, ← r2, ← r3] at key
  exact key

end record

/-! ## Random noise -/

section prob
variable {Ω : Type} [MeasurableSpace Ω] (μ : Measure Ω) [IsProbabilityMeasure μ] {n b : ℕ}

/-- Second moment of a combination of uncorrelated variables. -/
private theorem moment (Z : ℕ → Ω → ℝ) (v : ℕ → ℝ) (h2 : ∀ i, MemLp (Z i) 2 μ) (hcov : ∀ i j, ∫ ω, Z i ω * Z j ω ∂μ = if i = j then v i else 0) (k : ℝ) (p : ℕ → ℝ) :
    Integrable (fun ω => (k * ∑ t ∈ range n, Z t ω * p t) ^ 2) μ ∧ ∫ ω, (k * ∑ t ∈ range n, Z t ω * p t) ^ 2 ∂μ = k ^ 2 * ∑ t ∈ range n, v t * p t ^ 2 := by
  have e : (fun ω => (k * ∑ t ∈ range n, Z t ω * p t) ^ 2) = fun ω => k ^ 2 * ∑ s ∈ range n, ∑ t ∈ range n, p s * p t * (Z s ω * Z t ω) := by
    funext ω
    rw [mul_pow, pow_two (∑ t ∈ range n, Z t ω * p t), sum_mul_sum]
    congr 1
    exact sum_congr rfl fun s _ => sum_congr rfl fun t _ => by ring
  have hi : ∀ s t, Integrable (fun ω => p s * p t * (Z s ω * Z t ω)) μ := fun s t => ((h2 s).integrable_mul (h2 t)).const_mul _
  rw [e]
  refine ⟨(integrable_finset_sum _ fun s _ => integrable_finset_sum _ fun t _ => hi s t).const_mul _, ?_⟩
  rw [integral_const_mul, integral_finset_sum _ fun s _ => integrable_finset_sum _ fun t _ => hi s t]
  congr 1
  refine sum_congr rfl fun s hs => ?_
  rw [integral_finset_sum _ fun t _ => hi s t, sum_congr rfl (fun t _ => by rw [integral_const_mul, hcov s t, mul_ite, mul_zero]), sum_ite_eq, if_pos hs]
  ring

/-- Expectations of the sums of one record. -/
private theorem noise_moments (hb : 0 < b) (hbn : 2 * b < n) (h4b : 4 * b ≠ n) (φ : ℝ) (am pm c s x : ℝ) (hx2 : x ^ 2 = 1 / n)
    (Z : ℕ → Ω → ℝ) (h2 : ∀ i, MemLp (Z i) 2 μ) (h4 : ∀ i, MemLp (fun ω => Z i ω ^ 2) 2 μ) (hmean : ∀ i, ∫ ω, Z i ω ∂μ = 0)
    (hvar : ∀ i : ℕ, ∫ ω, Z i ω ^ 2 ∂μ = noiseCurve am pm c (2 * Real.pi * ((b : ℝ) / n) * i + φ)) (hK : ∀ i, ∫ ω, Z i ω ^ 4 ∂μ ≤ s ^ 4)
    (hind : Pairwise fun i j => IndepFun (Z i) (Z j) μ) (E F S G : Ω → ℝ)
    (hE : ∀ ω, E ω = (∑ t ∈ range n, Z t ω ^ 2) / n) (hF : ∀ ω, F ω = (∑ t ∈ range n, Z t ω ^ 4) / n)
    (hS : ∀ ω, S ω = 2 / n * ∑ t ∈ range n, Z t ω ^ 2 * Real.cos (2 * (2 * Real.pi * ((b : ℝ) / n) * t + φ)))
    (hG : ∀ ω, G ω = (1 / n * ∑ t ∈ range n, Z t ω) ^ 2 + ((2 / n * ∑ t ∈ range n, Z t ω * Real.cos (2 * Real.pi * ((b : ℝ) / n) * t + φ)) ^ 2
      + (2 / n * ∑ t ∈ range n, Z t ω * Real.sin (2 * Real.pi * ((b : ℝ) / n) * t + φ)) ^ 2) / 2) :
    (am + pm) / 2 + c ≤ s ^ 2 ∧ (Integrable F μ ∧ ∫ ω, F ω ∂μ ≤ s ^ 4) ∧ (Integrable E μ ∧ ∫ ω, E ω ∂μ ≤ s ^ 2) ∧ (Integrable G μ ∧ ∫ ω, G ω ∂μ ≤ 3 * s ^ 2 * x ^ 2) ∧
      (Integrable (fun ω => (S ω - (am - pm) / 2) ^ 2) μ ∧ ∫ ω, (S ω - (am - pm) / 2) ^ 2 ∂μ ≤ 4 * s ^ 4 * x ^ 2) ∧
      Integrable (fun ω => (E ω - ((am + pm) / 2 + c)) ^ 2) μ ∧ ∫ ω, (E ω - ((am + pm) / 2 + c)) ^ 2 ∂μ ≤ s ^ 4 * x ^ 2 := by
  have hnR : (0 : ℝ) < n := by exact_mod_cast (by omega : 0 < n)
  obtain ⟨θ, hθ⟩ : ∃ θ : ℕ → ℝ, ∀ t, θ t = 2 * Real.pi * ((b : ℝ) / n) * t + φ := ⟨_, fun _ => rfl⟩
  obtain ⟨v, hv⟩ : ∃ v : ℕ → ℝ, ∀ t, v t = noiseCurve am pm c (θ t) := ⟨_, fun _ => rfl⟩
  have hvar' : ∀ i, ∫ ω, Z i ω ^ 2 ∂μ = v i := fun i => by rw [hvar, hv, hθ]
  have hcurve : ∀ t, v t = (am - pm) / 2 * Real.cos (2 * θ t) + ((am + pm) / 2 + c) := by
    intro t
    rw [hv]
    unfold noiseCurve
    have hsq := Real.sin_sq_add_cos_sq (θ t)
    rw [show Real.sin (θ t) ^ 2 = 1 - Real.cos (θ t) ^ 2 by linarith, Real.cos_sq (θ t)]
    ring
  -- integrability
  have i2 : ∀ i, Integrable (fun ω => Z i ω ^ 2) μ := fun i => (h4 i).integrable (by norm_num)
  have i4 : ∀ i, Integrable (fun ω => Z i ω ^ 4) μ := fun i => by
    have := (h4 i).integrable_sq
    refine this.congr (Filter.Eventually.of_forall fun ω => ?_)
    simp only
    ring
  have hcov : ∀ i j, ∫ ω, Z i ω * Z j ω ∂μ = if i = j then v i else 0 := by
    intro i j
    split_ifs with e
    · subst e
      rw [← hvar']
      exact integral_congr_ae (Filter.Eventually.of_forall fun ω => by simp only; ring)
    · rw [(hind e).integral_fun_mul_eq_mul_integral (h2 i).1 (h2 j).1, hmean i, zero_mul]
  -- the centred squares
  obtain ⟨Y, hY⟩ : ∃ Y : ℕ → Ω → ℝ, ∀ i ω, Y i ω = Z i ω ^ 2 - v i := ⟨_, fun _ _ => rfl⟩
  have hYf : ∀ i, Y i = fun ω => Z i ω ^ 2 - v i := fun i => funext fun ω => hY i ω
  have Y2 : ∀ i, MemLp (Y i) 2 μ := fun i => by rw [hYf]; exact (h4 i).sub (memLp_const _)
  have Ym : ∀ i, ∫ ω, Y i ω ∂μ = 0 := fun i => by
    simp only [hY]
    rw [integral_sub (i2 i) (integrable_const _), hvar']
    simp
  obtain ⟨w, hw⟩ : ∃ w : ℕ → ℝ, ∀ i, w i = ∫ ω, Y i ω ^ 2 ∂μ := ⟨_, fun _ => rfl⟩
  have hwle : ∀ i, 0 ≤ w i ∧ w i = ∫ ω, Z i ω ^ 4 ∂μ - v i ^ 2 := by
    intro i
    refine ⟨by rw [hw]; exact integral_nonneg fun ω => sq_nonneg _, ?_⟩
    rw [hw]
    have e : (fun ω => Y i ω ^ 2) = fun ω => Z i ω ^ 4 - 2 * v i * Z i ω ^ 2 + v i ^ 2 := by
      funext ω
      rw [hY]
      ring
    have a1 : Integrable (fun ω => Z i ω ^ 4 - 2 * v i * Z i ω ^ 2) μ := (i4 i).sub ((i2 i).const_mul _)
    rw [e, integral_add a1 (integrable_const _), integral_sub (i4 i) ((i2 i).const_mul _), integral_const_mul, hvar']
    simp
    ring
  have hws : ∀ i, w i ≤ s ^ 4 := fun i => by
    rw [(hwle i).2]
    nlinarith [hK i, sq_nonneg (v i)]
  have hv0 : ∀ i, 0 ≤ v i := fun i => by rw [← hvar']; exact integral_nonneg fun ω => sq_nonneg _
  have hvs : ∀ i, v i ≤ s ^ 2 := fun i => by
    have h1 : v i ^ 2 ≤ (s ^ 2) ^ 2 := by
      have := (hwle i).1
      rw [(hwle i).2] at this
      nlinarith [hK i]
    exact (le_abs_self _).trans (abs_le_of_sq_le_sq h1 (by positivity))
  have Ycov : ∀ i j, ∫ ω, Y i ω * Y j ω ∂μ = if i = j then w i else 0 := by
    intro i j
    split_ifs with e
    · subst e
      rw [hw]
      exact integral_congr_ae (Filter.Eventually.of_forall fun ω => by simp only; ring)
    · have hI : IndepFun (Y i) (Y j) μ := by
        rw [hYf, hYf]
        exact (hind e).comp (φ := fun x => x ^ 2 - v i) (ψ := fun x => x ^ 2 - v j) (by fun_prop) (by fun_prop)
      rw [hI.integral_fun_mul_eq_mul_integral (Y2 i).1 (Y2 j).1, Ym i, zero_mul]
  -- the random sums
  simp only [← hθ] at hS hG
  obtain ⟨d1, d2⟩ := double_sums hb hbn h4b φ
  simp only [← hθ] at d1 d2
  have hSY : ∀ ω, S ω - (am - pm) / 2 = 2 / n * ∑ t ∈ range n, Y t ω * Real.cos (2 * θ t) := by
    intro ω
    have e : ∑ t ∈ range n, v t * Real.cos (2 * θ t) = n / 2 * ((am - pm) / 2) := by
      rw [sum_congr rfl fun t _ => show v t * Real.cos (2 * θ t) = (am - pm) / 2 * Real.cos (2 * θ t) ^ 2 + ((am + pm) / 2 + c) * Real.cos (2 * θ t) by rw [hcurve]; ring,
        sum_add_distrib, ← mul_sum, ← mul_sum, d1, d2]
      ring
    rw [sum_congr rfl fun t _ => show Y t ω * Real.cos (2 * θ t) = Z t ω ^ 2 * Real.cos (2 * θ t) - v t * Real.cos (2 * θ t) by rw [hY]; ring, sum_sub_distrib, e, hS]
    field_simp
  have hsumv : ∑ t ∈ range n, v t = n * ((am + pm) / 2 + c) := by
    rw [sum_congr rfl fun t _ => hcurve t, sum_add_distrib, ← mul_sum, d1]
    simp only [mul_zero, zero_add, sum_const, card_range, nsmul_eq_mul]
  have hEY : ∀ ω, E ω - ((am + pm) / 2 + c) = 1 / n * ∑ t ∈ range n, Y t ω * 1 := by
    intro ω
    rw [sum_congr rfl fun t _ => show Y t ω * 1 = Z t ω ^ 2 - v t by rw [hY]; ring, sum_sub_distrib, hsumv, hE]
    field_simp
  -- expectations
  have mF : Integrable F μ ∧ ∫ ω, F ω ∂μ ≤ s ^ 4 := by
    have hF' : F = fun ω => (∑ t ∈ range n, Z t ω ^ 4) / n := funext hF
    rw [hF']
    refine ⟨(integrable_finset_sum _ fun t _ => i4 t).div_const _, ?_⟩
    rw [integral_div, integral_finset_sum _ fun t _ => i4 t, div_le_iff₀ hnR]
    refine (sum_le_sum fun t _ => hK t).trans (le_of_eq ?_)
    rw [sum_const, card_range, nsmul_eq_mul]
    ring
  have hVs : (am + pm) / 2 + c ≤ s ^ 2 := by
    have h1 : ∑ t ∈ range n, v t ≤ n * s ^ 2 := (sum_le_sum fun t _ => hvs t).trans (le_of_eq (by rw [sum_const, card_range, nsmul_eq_mul]))
    rw [hsumv] at h1
    exact le_of_mul_le_mul_left h1 hnR
  have mE : Integrable E μ ∧ ∫ ω, E ω ∂μ ≤ s ^ 2 := by
    have hE' : E = fun ω => (∑ t ∈ range n, Z t ω ^ 2) / n := funext hE
    rw [hE']
    refine ⟨(integrable_finset_sum _ fun t _ => i2 t).div_const _, ?_⟩
    rw [integral_div, integral_finset_sum _ fun t _ => i2 t, div_le_iff₀ hnR, sum_congr rfl fun t _ => hvar' t, hsumv]
    nlinarith
  have mG : Integrable G μ ∧ ∫ ω, G ω ∂μ ≤ 3 * s ^ 2 * x ^ 2 := by
    obtain ⟨a1, a2⟩ := moment (n := n) μ Z v h2 hcov (1 / n) (fun _ => 1)
    obtain ⟨b1, b2⟩ := moment (n := n) μ Z v h2 hcov (2 / n) (fun t => Real.cos (θ t))
    obtain ⟨c1, c2⟩ := moment (n := n) μ Z v h2 hcov (2 / n) (fun t => Real.sin (θ t))
    simp only [mul_one] at a1 a2
    have bc : Integrable (fun ω => ((2 / n * ∑ t ∈ range n, Z t ω * Real.cos (θ t)) ^ 2 + (2 / n * ∑ t ∈ range n, Z t ω * Real.sin (θ t)) ^ 2) / 2) μ := (b1.add c1).div_const _
    have hG' : G = fun ω => (1 / n * ∑ t ∈ range n, Z t ω) ^ 2
      + ((2 / n * ∑ t ∈ range n, Z t ω * Real.cos (θ t)) ^ 2 + (2 / n * ∑ t ∈ range n, Z t ω * Real.sin (θ t)) ^ 2) / 2 := funext hG
    rw [hG']
    refine ⟨a1.add bc, ?_⟩
    rw [integral_add a1 bc, integral_div, integral_add b1 c1, a2, b2, c2]
    have e : ∑ t ∈ range n, v t * Real.cos (θ t) ^ 2 + ∑ t ∈ range n, v t * Real.sin (θ t) ^ 2 = n * ((am + pm) / 2 + c) := by
      rw [← sum_add_distrib, ← hsumv]
      refine sum_congr rfl fun t _ => ?_
      have := Real.sin_sq_add_cos_sq (θ t)
      linear_combination v t * this
    simp only [one_pow, mul_one]
    rw [hsumv, ← mul_add, e, hx2]
    have e2 : (1 / (n : ℝ)) ^ 2 * (n * ((am + pm) / 2 + c)) + (2 / (n : ℝ)) ^ 2 * (n * ((am + pm) / 2 + c)) / 2 = 3 * ((am + pm) / 2 + c) * (1 / n) := by
      field_simp
      ring
    rw [e2]
    exact mul_le_mul_of_nonneg_right (by linarith) (by positivity)
  have mS : Integrable (fun ω => (S ω - (am - pm) / 2) ^ 2) μ ∧ ∫ ω, (S ω - (am - pm) / 2) ^ 2 ∂μ ≤ 4 * s ^ 4 * x ^ 2 := by
    obtain ⟨a1, a2⟩ := moment (n := n) μ Y w Y2 Ycov (2 / n) (fun t => Real.cos (2 * θ t))
    simp only [hSY]
    refine ⟨a1, ?_⟩
    rw [a2, hx2]
    have e : ∑ t ∈ range n, w t * Real.cos (2 * θ t) ^ 2 ≤ n * s ^ 4 := by
      have : ∀ t ∈ range n, w t * Real.cos (2 * θ t) ^ 2 ≤ s ^ 4 := by
        intro t _
        have h1 := Real.cos_sq_le_one (2 * θ t)
        calc w t * Real.cos (2 * θ t) ^ 2 ≤ w t * 1 := mul_le_mul_of_nonneg_left h1 (hwle t).1
          _ ≤ s ^ 4 := by rw [mul_one]; exact hws t
      refine (sum_le_sum this).trans (le_of_eq ?_)
      rw [sum_const, card_range, nsmul_eq_mul]
    calc (2 / (n : ℝ)) ^ 2 * ∑ t ∈ range n, w t * Real.cos (2 * θ t) ^ 2 ≤ (2 / (n : ℝ)) ^ 2 * (n * s ^ 4) := mul_le_mul_of_nonneg_left e (by positivity)
      _ = 4 * s ^ 4 * (1 / n) := by field_simp; ring
  have mT : Integrable (fun ω => (E ω - ((am + pm) / 2 + c)) ^ 2) μ ∧ ∫ ω, (E ω - ((am + pm) / 2 + c)) ^ 2 ∂μ ≤ s ^ 4 * x ^ 2 := by
    obtain ⟨a1, a2⟩ := moment (n := n) μ Y w Y2 Ycov (1 / n) (fun _ => 1)
    simp only [hEY]
    refine ⟨a1, ?_⟩
    rw [a2, hx2]
    have e : ∑ t ∈ range n, w t * 1 ^ 2 ≤ n * s ^ 4 := by
      refine (sum_le_sum fun t _ => show w t * 1 ^ 2 ≤ s ^ 4 by rw [one_pow, mul_one]; exact hws t).trans (le_of_eq ?_)
      rw [sum_const, card_range, nsmul_eq_mul]
    calc (1 / (n : ℝ)) ^ 2 * ∑ t ∈ range n, w t * 1 ^ 2 ≤ (1 / (n : ℝ)) ^ 2 * (n * s ^ 4) := mul_le_mul_of_nonneg_left e (by positivity)
      _ = s ^ 4 * (1 / n) := by field_simp
  exact ⟨hVs, mF, mE, mG, mS, mT⟩

/-- **C158 (amplitude and phase noise).** A coherent sine with independent noise whose variance over the phase of the sine is `am cos² + pm sin² + c` (fourth moments at
most `s⁴`): except with probability `(20 s / A + 34) s² / (δ √n)`, the reported squares of AM, PM and base noise are `am - min am pm`, `pm - min am pm` and `c + min am pm`,
each within `δ`. -/
theorem C158_estimates (solve : Lstsq) (hs : IsLstsq solve) (hb : 0 < b) (hbn : 2 * b < n) (h4b : 4 * b ≠ n) (A φ D tol : ℝ) (hA : 0 < A) (nBins : ℤ)
    (am pm c s δ : ℝ) (ham : 0 ≤ am) (hpm : 0 ≤ pm) (hc : 0 ≤ c) (hs0 : 0 < s) (hδ : 0 < δ)
    (Z : ℕ → Ω → ℝ) (h2 : ∀ i, MemLp (Z i) 2 μ) (h4 : ∀ i, MemLp (fun ω => Z i ω ^ 2) 2 μ) (hmean : ∀ i, ∫ ω, Z i ω ∂μ = 0)
    (hvar : ∀ i : ℕ, ∫ ω, Z i ω ^ 2 ∂μ = noiseCurve am pm c (2 * Real.pi * ((b : ℝ) / n) * i + φ)) (hK : ∀ i, ∫ ω, Z i ω ^ 4 ∂μ ≤ s ^ 4)
    (hind : Pairwise fun i j => IndepFun (Z i) (Z j) μ) (r : Ω → PhaseBins)
    (hr : ∀ ω, rearrangeByPhase solve n (fun t => sineAt A ((b : ℝ) / n) φ D t + Z t ω) (some ((b : ℝ) / n)) nBins true 0 tol = .ok (r ω)) :
    μ.real {ω | ¬ (|(r ω).amRms ^ 2 - (am - min am pm)| ≤ δ ∧ |(r ω).pmRms ^ 2 - (pm - min am pm)| ≤ δ ∧ |(r ω).baseRms ^ 2 - (c + min am pm)| ≤ δ)}
      ≤ (20 * s / A + 34) * s ^ 2 / (δ * Real.sqrt n) := by
  have hnR : (0 : ℝ) < n := by exact_mod_cast (by omega : 0 < n)
  have hn1 : (1 : ℝ) ≤ n := by exact_mod_cast (by omega : 1 ≤ n)
  obtain ⟨x, hx⟩ : ∃ x : ℝ, x = 1 / Real.sqrt n := ⟨_, rfl⟩
  have hsq : Real.sqrt n ^ 2 = n := Real.sq_sqrt hnR.le
  have hx0 : 0 < x := by rw [hx]; positivity
  have hx2 : x ^ 2 = 1 / n := by rw [hx, div_pow, hsq, one_pow]
  have hx1 : x ≤ 1 := by
    rw [hx, div_le_one (by positivity)]
    exact Real.one_le_sqrt.mpr hn1
  obtain ⟨E, hE⟩ : ∃ E : Ω → ℝ, ∀ ω, E ω = (∑ t ∈ range n, Z t ω ^ 2) / n := ⟨_, fun _ => rfl⟩
  obtain ⟨F, hF⟩ : ∃ F : Ω → ℝ, ∀ ω, F ω = (∑ t ∈ range n, Z t ω ^ 4) / n := ⟨_, fun _ => rfl⟩
  obtain ⟨S, hS⟩ : ∃ S : Ω → ℝ, ∀ ω, S ω = 2 / n * ∑ t ∈ range n, Z t ω ^ 2 * Real.cos (2 * (2 * Real.pi * ((b : ℝ) / n) * t + φ)) := ⟨_, fun _ => rfl⟩
  obtain ⟨G, hG⟩ : ∃ G : Ω → ℝ, ∀ ω, G ω = (1 / n * ∑ t ∈ range n, Z t ω) ^ 2
      + ((2 / n * ∑ t ∈ range n, Z t ω * Real.cos (2 * Real.pi * ((b : ℝ) / n) * t + φ)) ^ 2
        + (2 / n * ∑ t ∈ range n, Z t ω * Real.sin (2 * Real.pi * ((b : ℝ) / n) * t + φ)) ^ 2) / 2 := ⟨_, fun _ => rfl⟩
  obtain ⟨_, mF, mE, mG, mS, mT⟩ := noise_moments μ hb hbn h4b φ am pm c s x hx2 Z h2 h4 hmean hvar hK hind E F S G hE hF hS hG
  -- the dominating variable
  obtain ⟨l, hl⟩ : ∃ l : ℝ, l = 5 / 2 * x / s := ⟨_, rfl⟩
  obtain ⟨m, hm⟩ : ∃ m : ℝ, m = 2 * x := ⟨_, rfl⟩
  obtain ⟨p, hp⟩ : ∃ p : ℝ, p = 2 * s ^ 2 * x := ⟨_, rfl⟩
  obtain ⟨q, hq⟩ : ∃ q : ℝ, q = s ^ 2 * x := ⟨_, rfl⟩
  have hl0 : 0 < l := by rw [hl]; positivity
  have hm0 : 0 < m := by rw [hm]; positivity
  have hp0 : 0 < p := by rw [hp]; positivity
  have hq0 : 0 < q := by rw [hq]; positivity
  obtain ⟨W, hW⟩ : ∃ W : Ω → ℝ, ∀ ω, W ω = (p + q / 2) + (4 * l / A * F ω + ((8 / (A * l) + 4 / m + 5) * G ω + (4 * m * E ω
      + (1 / p * (S ω - (am - pm) / 2) ^ 2 + 1 / (2 * q) * (E ω - ((am + pm) / 2 + c)) ^ 2)))) := ⟨_, fun _ => rfl⟩
  have hW' := funext hW
  have j1 : Integrable (fun ω => 1 / p * (S ω - (am - pm) / 2) ^ 2 + 1 / (2 * q) * (E ω - ((am + pm) / 2 + c)) ^ 2) μ := (mS.1.const_mul _).add (mT.1.const_mul _)
  have j2 : Integrable (fun ω => 4 * m * E ω + (1 / p * (S ω - (am - pm) / 2) ^ 2 + 1 / (2 * q) * (E ω - ((am + pm) / 2 + c)) ^ 2)) μ := (mE.1.const_mul _).add j1
  have j3 : Integrable (fun ω => (8 / (A * l) + 4 / m + 5) * G ω + (4 * m * E ω
      + (1 / p * (S ω - (am - pm) / 2) ^ 2 + 1 / (2 * q) * (E ω - ((am + pm) / 2 + c)) ^ 2))) μ := (mG.1.const_mul _).add j2
  have j4 : Integrable (fun ω => 4 * l / A * F ω + ((8 / (A * l) + 4 / m + 5) * G ω + (4 * m * E ω
      + (1 / p * (S ω - (am - pm) / 2) ^ 2 + 1 / (2 * q) * (E ω - ((am + pm) / 2 + c)) ^ 2)))) μ := (mF.1.const_mul _).add j3
  have iW : Integrable W μ := by
    rw [hW']
    exact (integrable_const _).add j4
  have bW : ∫ ω, W ω ∂μ ≤ (20 * s / A + 34) * s ^ 2 * x := by
    rw [hW', integral_add (integrable_const _) j4, integral_add (mF.1.const_mul _) j3, integral_add (mG.1.const_mul _) j2, integral_add (mE.1.const_mul _) j1,
      integral_add (mS.1.const_mul _) (mT.1.const_mul _), integral_const_mul, integral_const_mul, integral_const_mul, integral_const_mul, integral_const_mul, integral_const]
    simp only [probReal_univ, one_smul, smul_eq_mul, one_mul]
    have t1 : 4 * l / A * ∫ ω, F ω ∂μ ≤ 4 * l / A * s ^ 4 := mul_le_mul_of_nonneg_left mF.2 (by positivity)
    have t2 : (8 / (A * l) + 4 / m + 5) * ∫ ω, G ω ∂μ ≤ (8 / (A * l) + 4 / m + 5) * (3 * s ^ 2 * x ^ 2) := mul_le_mul_of_nonneg_left mG.2 (by positivity)
    have t3 : 4 * m * ∫ ω, E ω ∂μ ≤ 4 * m * s ^ 2 := mul_le_mul_of_nonneg_left mE.2 (by positivity)
    have t4 : 1 / p * ∫ ω, (S ω - (am - pm) / 2) ^ 2 ∂μ ≤ 1 / p * (4 * s ^ 4 * x ^ 2) := mul_le_mul_of_nonneg_left mS.2 (by positivity)
    have t5 : 1 / (2 * q) * ∫ ω, (E ω - ((am + pm) / 2 + c)) ^ 2 ∂μ ≤ 1 / (2 * q) * (s ^ 4 * x ^ 2) := mul_le_mul_of_nonneg_left mT.2 (by positivity)
    have u1 : 4 * l / A * s ^ 4 = 10 * (s ^ 3 * x / A) := by rw [hl]; field_simp; ring
    have u2 : (8 / (A * l) + 4 / m + 5) * (3 * s ^ 2 * x ^ 2) = 48 / 5 * (s ^ 3 * x / A) + 6 * s ^ 2 * x + 15 * s ^ 2 * x ^ 2 := by rw [hl, hm]; field_simp; ring
    have u3 : 4 * m * s ^ 2 = 8 * s ^ 2 * x := by rw [hm]; ring
    have u4 : 1 / p * (4 * s ^ 4 * x ^ 2) = 2 * s ^ 2 * x := by rw [hp]; field_simp; ring
    have u5 : 1 / (2 * q) * (s ^ 4 * x ^ 2) = s ^ 2 * x / 2 := by rw [hq]; field_simp
    have u6 : (20 * s / A + 34) * s ^ 2 * x = 20 * (s ^ 3 * x / A) + 34 * (s ^ 2 * x) := by field_simp
    have u7 : s ^ 2 * x ^ 2 ≤ s ^ 2 * x := by nlinarith [mul_nonneg (sq_nonneg s) hx0.le]
    have u8 : 0 ≤ s ^ 3 * x / A := by positivity
    rw [u1] at t1
    rw [u2] at t2
    rw [u3] at t3
    rw [u4] at t4
    rw [u5] at t5
    have u9 : p = 2 * (s ^ 2 * x) := by rw [hp]; ring
    rw [u6]
    linarith
  -- every record is dominated
  have hdom : ∀ ω, |(r ω).amRms ^ 2 - (am - min am pm)| ≤ W ω ∧ |(r ω).pmRms ^ 2 - (pm - min am pm)| ≤ W ω ∧ |(r ω).baseRms ^ 2 - (c + min am pm)| ≤ W ω := fun ω =>
    record_close solve hs hb hbn h4b A φ D tol hA nBins am pm c ham hpm hc (fun t => Z t ω) (r ω) (hr ω) (E ω) (F ω) (S ω) (G ω) (hE ω) (hF ω) (hS ω) (hG ω) l m p q hl0 hm0 hp0 hq0
      (W ω) (hW ω)
  have hsub : {ω | ¬ (|(r ω).amRms ^ 2 - (am - min am pm)| ≤ δ ∧ |(r ω).pmRms ^ 2 - (pm - min am pm)| ≤ δ ∧ |(r ω).baseRms ^ 2 - (c + min am pm)| ≤ δ)} ⊆ {ω | δ ≤ W ω} := by
    intro ω hω
    by_contra hcon
    rw [Set.mem_setOf_eq, not_le] at hcon
    obtain ⟨k1, k2, k3⟩ := hdom ω
    exact hω ⟨k1.trans hcon.le, k2.trans hcon.le, k3.trans hcon.le⟩
  have hmk := mul_meas_ge_le_integral_of_nonneg (μ := μ) (Filter.Eventually.of_forall fun ω => (abs_nonneg _).trans (hdom ω).1) iW δ
  have hfin : δ * μ.real {ω | δ ≤ W ω} ≤ (20 * s / A + 34) * s ^ 2 * x := hmk.trans bW
  refine (measureReal_mono hsub).trans ?_
  rw [show (20 * s / A + 34) * s ^ 2 / (δ * Real.sqrt n) = (20 * s / A + 34) * s ^ 2 * x / δ by rw [hx]; field_simp, le_div_iff₀ hδ]
  linarith

/-- **C158 (amplitude).** In the same records the fitted amplitude is `A` within `δ`, except with probability `6 s² / (δ² n)`. -/
theorem C158_amplitude (solve : Lstsq) (hs : IsLstsq solve) (hb : 0 < b) (hbn : 2 * b < n) (h4b : 4 * b ≠ n) (A φ D tol : ℝ) (hA : 0 < A) (nBins : ℤ)
    (am pm c s δ : ℝ) (hδ : 0 < δ)
    (Z : ℕ → Ω → ℝ) (h2 : ∀ i, MemLp (Z i) 2 μ) (h4 : ∀ i, MemLp (fun ω => Z i ω ^ 2) 2 μ) (hmean : ∀ i, ∫ ω, Z i ω ∂μ = 0)
    (hvar : ∀ i : ℕ, ∫ ω, Z i ω ^ 2 ∂μ = noiseCurve am pm c (2 * Real.pi * ((b : ℝ) / n) * i + φ)) (hK : ∀ i, ∫ ω, Z i ω ^ 4 ∂μ ≤ s ^ 4)
    (hind : Pairwise fun i j => IndepFun (Z i) (Z j) μ) (r : Ω → PhaseBins)
    (hr : ∀ ω, rearrangeByPhase solve n (fun t => sineAt A ((b : ℝ) / n) φ D t + Z t ω) (some ((b : ℝ) / n)) nBins true 0 tol = .ok (r ω)) :
    μ.real {ω | ¬ |(r ω).amplitude - A| ≤ δ} ≤ 6 * s ^ 2 / (δ ^ 2 * n) := by
  have hnR : (0 : ℝ) < n := by exact_mod_cast (by omega : 0 < n)
  obtain ⟨x, hx⟩ : ∃ x : ℝ, x = 1 / Real.sqrt n := ⟨_, rfl⟩
  have hx2 : x ^ 2 = 1 / n := by rw [hx, div_pow, Real.sq_sqrt hnR.le, one_pow]
  obtain ⟨G, hG⟩ : ∃ G : Ω → ℝ, ∀ ω, G ω = (1 / n * ∑ t ∈ range n, Z t ω) ^ 2
      + ((2 / n * ∑ t ∈ range n, Z t ω * Real.cos (2 * Real.pi * ((b : ℝ) / n) * t + φ)) ^ 2
        + (2 / n * ∑ t ∈ range n, Z t ω * Real.sin (2 * Real.pi * ((b : ℝ) / n) * t + φ)) ^ 2) / 2 := ⟨_, fun _ => rfl⟩
  obtain ⟨_, _, _, mG, _, _⟩ := noise_moments μ hb hbn h4b φ am pm c s x hx2 Z h2 h4 hmean hvar hK hind _ _ _ G (fun _ => rfl) (fun _ => rfl) (fun _ => rfl) hG
  have hcl : ∀ ω, ((r ω).amplitude - A) ^ 2 ≤ 2 * G ω := fun ω => by
    obtain ⟨_, _, h, _⟩ := record_coeffs solve hs hb hbn h4b A φ D tol hA (fun t => Z t ω) nBins (r ω) (hr ω) _ _ (G ω) _ _ _ rfl rfl rfl rfl rfl (hG ω)
    exact h
  have hsub : {ω | ¬ |(r ω).amplitude - A| ≤ δ} ⊆ {ω | δ ^ 2 / 2 ≤ G ω} := by
    intro ω hω
    rw [Set.mem_setOf_eq, not_le] at hω
    have h1 : δ ^ 2 ≤ |(r ω).amplitude - A| ^ 2 := pow_le_pow_left₀ hδ.le hω.le 2
    rw [sq_abs] at h1
    have := hcl ω
    rw [Set.mem_setOf_eq]
    linarith
  have hmk := mul_meas_ge_le_integral_of_nonneg (μ := μ) (Filter.Eventually.of_forall fun ω => show 0 ≤ G ω by rw [hG]; positivity) mG.1 (δ ^ 2 / 2)
  have hfin := hmk.trans mG.2
  refine (measureReal_mono hsub).trans ?_
  rw [hx2] at hfin
  have hfin' : δ ^ 2 / 2 * μ.real {ω | δ ^ 2 / 2 ≤ G ω} ≤ 3 * s ^ 2 * (1 / n) := hfin
  rw [le_div_iff₀ (by positivity)]
  calc μ.real {ω | δ ^ 2 / 2 ≤ G ω} * (δ ^ 2 * n) = 2 * n * (δ ^ 2 / 2 * μ.real {ω | δ ^ 2 / 2 ≤ G ω}) := by ring
    _ ≤ 2 * n * (3 * s ^ 2 * (1 / n)) := mul_le_mul_of_nonneg_left hfin' (by positivity)
    _ = 6 * s ^ 2 := by field_simp; ring

/-- A square relative to the square of an amplitude that is nearly right. -/
private theorem relative_close (V v R A s η u : ℝ) (hA : 0 < A) (hη : 0 < η) (hη1 : η ≤ 4 / 5) (hv0 : 0 ≤ v) (hv : v ≤ 2 * s ^ 2) (hV : |V - v| ≤ η / 4 * s ^ 2)
    (hR : |R - A| ≤ η / 8 * A) (hu : u ^ 2 * R ^ 2 = V) : |u ^ 2 - v / A ^ 2| ≤ η * (s / A) ^ 2 := by
  obtain ⟨a1, a2⟩ := abs_le.mp hR
  obtain ⟨b1, b2⟩ := abs_le.mp hV
  have hs := sq_nonneg s
  have hA2 : 0 < A ^ 2 := by positivity
  have hεA : η / 8 * A ≤ A / 10 := by nlinarith
  have hR0 : 9 / 10 * A ≤ R := by linarith
  have hR2 : 81 / 100 * A ^ 2 ≤ R ^ 2 := by
    have := pow_le_pow_left₀ (by positivity) hR0 2
    nlinarith
  have hRu : R ^ 2 - A ^ 2 ≤ 21 / 80 * η * A ^ 2 ∧ -(21 / 80 * η * A ^ 2) ≤ R ^ 2 - A ^ 2 := by
    have e : R ^ 2 - A ^ 2 = (R - A) * (R + A) := by ring
    have k1 : R + A ≤ 21 / 10 * A := by linarith
    have k0 : 0 ≤ R + A := by linarith
    have k2 : 0 ≤ η / 8 * A := by positivity
    have k3 : |(R - A) * (R + A)| ≤ η / 8 * A * (21 / 10 * A) := by
      rw [abs_mul, abs_of_nonneg k0]
      exact mul_le_mul hR k1 k0 k2
    rw [e]
    obtain ⟨c1, c2⟩ := abs_le.mp k3
    constructor <;> linarith
  obtain ⟨x, hx⟩ : ∃ x, v = x * A ^ 2 := ⟨v / A ^ 2, by field_simp⟩
  obtain ⟨y, hy⟩ : ∃ y, s ^ 2 = y * A ^ 2 := ⟨s ^ 2 / A ^ 2, by field_simp⟩
  have hx0 : 0 ≤ x := by
    rw [hx] at hv0
    exact nonneg_of_mul_nonneg_left hv0 hA2
  have hxy : x ≤ 2 * y := by
    rw [hx, hy] at hv
    nlinarith
  have hy0 : 0 ≤ y := by linarith
  have e1 : v / A ^ 2 = x := by rw [hx]; field_simp
  have e2 : (s / A) ^ 2 = y := by rw [div_pow, hy]; field_simp
  rw [e1, e2]
  have hd : (u ^ 2 - x) * R ^ 2 = (V - v) - x * (R ^ 2 - A ^ 2) := by rw [← hu, hx]; ring
  have hb : |(u ^ 2 - x) * R ^ 2| ≤ η * y * (81 / 100 * A ^ 2) := by
    rw [hd]
    have h1 : |x * (R ^ 2 - A ^ 2)| ≤ 2 * y * (21 / 80 * η * A ^ 2) := by
      rw [abs_mul, abs_of_nonneg hx0]
      exact mul_le_mul hxy (abs_le.mpr ⟨hRu.2, hRu.1⟩) (abs_nonneg _) (by linarith)
    refine (abs_sub _ _).trans ((add_le_add hV h1).trans ?_)
    rw [hy]
    have : 0 ≤ η * y * A ^ 2 := by positivity
    nlinarith
  rw [abs_mul, abs_of_nonneg (sq_nonneg R)] at hb
  have hb2 : |u ^ 2 - x| * (81 / 100 * A ^ 2) ≤ η * y * (81 / 100 * A ^ 2) := (mul_le_mul_of_nonneg_left hR2 (abs_nonneg _)).trans hb
  exact le_of_mul_le_mul_right hb2 (by positivity)

/-- **C158 (relative values).** In the same records the squares of the reported `am_relative` and `pm_noise_rms_rad` are `(am - min am pm) / A²` and `(pm - min am pm) / A²`, each
within `η (s / A)²`, except with probability `(80 s / A + 136) / (η √n) + 384 (s / A)² / (η² n)`. -/
theorem C158_relative (solve : Lstsq) (hs : IsLstsq solve) (hb : 0 < b) (hbn : 2 * b < n) (h4b : 4 * b ≠ n) (A φ D tol : ℝ) (hA : 2 / 10 ^ 10 ≤ A) (nBins : ℤ)
    (am pm c s η : ℝ) (ham : 0 ≤ am) (hpm : 0 ≤ pm) (hc : 0 ≤ c) (hs0 : 0 < s) (hη : 0 < η) (hη1 : η ≤ 4 / 5)
    (Z : ℕ → Ω → ℝ) (h2 : ∀ i, MemLp (Z i) 2 μ) (h4 : ∀ i, MemLp (fun ω => Z i ω ^ 2) 2 μ) (hmean : ∀ i, ∫ ω, Z i ω ∂μ = 0)
    (hvar : ∀ i : ℕ, ∫ ω, Z i ω ^ 2 ∂μ = noiseCurve am pm c (2 * Real.pi * ((b : ℝ) / n) * i + φ)) (hK : ∀ i, ∫ ω, Z i ω ^ 4 ∂μ ≤ s ^ 4)
    (hind : Pairwise fun i j => IndepFun (Z i) (Z j) μ) (r : Ω → PhaseBins)
    (hr : ∀ ω, rearrangeByPhase solve n (fun t => sineAt A ((b : ℝ) / n) φ D t + Z t ω) (some ((b : ℝ) / n)) nBins true 0 tol = .ok (r ω)) :
    μ.real {ω | ¬ (|(r ω).amRelative ^ 2 - (am - min am pm) / A ^ 2| ≤ η * (s / A) ^ 2 ∧ |(r ω).pmRad ^ 2 - (pm - min am pm) / A ^ 2| ≤ η * (s / A) ^ 2)}
      ≤ (80 * (s / A) + 136) / (η * Real.sqrt n) + 384 * (s / A) ^ 2 / (η ^ 2 * n) := by
  have hA0 : 0 < A := lt_of_lt_of_le (by norm_num) hA
  have hnR : (0 : ℝ) < n := by exact_mod_cast (by omega : 0 < n)
  obtain ⟨x, hx⟩ : ∃ x : ℝ, x = 1 / Real.sqrt n := ⟨_, rfl⟩
  have hx2 : x ^ 2 = 1 / n := by rw [hx, div_pow, Real.sq_sqrt hnR.le, one_pow]
  have hVs := (noise_moments μ hb hbn h4b φ am pm c s x hx2 Z h2 h4 hmean hvar hK hind _ _ _ _ (fun _ => rfl) (fun _ => rfl) (fun _ => rfl) (fun _ => rfl)).1
  have t1 := C158_estimates μ solve hs hb hbn h4b A φ D tol hA0 nBins am pm c s (η / 4 * s ^ 2) ham hpm hc hs0 (by positivity) Z h2 h4 hmean hvar hK hind r hr
  have t2 := C158_amplitude μ solve hs hb hbn h4b A φ D tol hA0 nBins am pm c s (η / 8 * A) (by positivity) Z h2 h4 hmean hvar hK hind r hr
  refine (measureReal_mono (s₂ := {ω | ¬ (|(r ω).amRms ^ 2 - (am - min am pm)| ≤ η / 4 * s ^ 2 ∧ |(r ω).pmRms ^ 2 - (pm - min am pm)| ≤ η / 4 * s ^ 2 ∧
    |(r ω).baseRms ^ 2 - (c + min am pm)| ≤ η / 4 * s ^ 2)} ∪ {ω | ¬ |(r ω).amplitude - A| ≤ η / 8 * A}) ?_).trans ((measureReal_union_le _ _).trans ((add_le_add t1 t2).trans (le_of_eq ?_)))
  · intro ω hω
    by_contra hcon
    rw [Set.mem_union, not_or, Set.mem_setOf_eq, Set.mem_setOf_eq, not_not, not_not] at hcon
    obtain ⟨⟨k1, k2, _⟩, k3⟩ := hcon
    have hbig : 1 / 10 ^ 10 < (r ω).amplitude := by
      have h1 := (abs_le.mp k3).1
      have h2 : η / 8 * A ≤ A / 10 := by nlinarith
      have h3 : (1 : ℝ) / 10 ^ 10 < 9 / 10 * (2 / 10 ^ 10) := by norm_num
      linarith
    obtain ⟨_, _, _, _, _, hrel⟩ := C50_variances solve n _ _ nBins true 0 tol (r ω) (hr ω)
    obtain ⟨p1, p2⟩ := hrel hbig
    have m1 : min am pm ≤ am := min_le_left _ _
    have m2 : min am pm ≤ pm := min_le_right _ _
    have m0 : 0 ≤ min am pm := le_min ham hpm
    exact hω ⟨relative_close _ _ _ A s η _ hA0 hη hη1 (by linarith) (by linarith) k1 k3 (by rw [← mul_pow, p2]),
      relative_close _ _ _ A s η _ hA0 hη hη1 (by linarith) (by linarith) k2 k3 (by rw [← mul_pow, p1])⟩
  · have hs1 : 0 < Real.sqrt n := Real.sqrt_pos.mpr hnR
    congr 1
    · field_simp
      ring
    · field_simp
      ring

/-- Noise proportional to a normal draw, with a gain that follows the phase. -/
private theorem scaled_draws (Y : ℕ → Ω → ℝ) (hY : ∀ i, AEMeasurable (Y i) μ) (hlaw : ∀ i, Measure.map (Y i) μ = gaussianReal 0 1)
    (hind : Pairwise fun i j => IndepFun (Y i) (Y j) μ) (k : ℕ → ℝ) (u : ℝ) (hu : 0 ≤ u) (hk : ∀ i, k i ^ 2 ≤ u ^ 2) :
    (∀ i, MemLp (fun ω => k i * Y i ω) 2 μ) ∧ (∀ i, MemLp (fun ω => (k i * Y i ω) ^ 2) 2 μ) ∧ (∀ i, ∫ ω, k i * Y i ω ∂μ = 0) ∧
      (∀ i, ∫ ω, (k i * Y i ω) ^ 2 ∂μ = k i ^ 2) ∧ (∀ i, ∫ ω, (k i * Y i ω) ^ 4 ∂μ ≤ (Real.sqrt 2 * u) ^ 4) ∧
      Pairwise fun i j => IndepFun (fun ω => k i * Y i ω) (fun ω => k j * Y j ω) μ := by
  have h := fun i => normal_draw μ (Y i) (hY i) (hlaw i)
  have hsq : ∀ i, ∫ ω, Y i ω ^ 2 ∂μ = 1 := by
    intro i
    have := variance_eq_sub (h i).1
    rw [(h i).2.2.1, (h i).2.1] at this
    have e : ∫ ω, Y i ω ^ 2 ∂μ = μ[Y i ^ 2] := rfl
    rw [e]
    linarith
  refine ⟨fun i => (h i).1.const_mul _, fun i => ?_, fun i => ?_, fun i => ?_, fun i => ?_, fun i j hij => ?_⟩
  · simp only [mul_pow]
    exact (h i).2.2.2.1.const_mul _
  · rw [integral_const_mul, (h i).2.1, mul_zero]
  · simp only [mul_pow]
    rw [integral_const_mul, hsq, mul_one]
  · simp only [mul_pow]
    rw [integral_const_mul, (h i).2.2.2.2]
    have h2 : Real.sqrt 2 ^ 4 = 4 := by
      rw [show (4 : ℕ) = 2 * 2 from rfl, pow_mul, Real.sq_sqrt (by norm_num)]
      norm_num
    rw [h2]
    have := pow_le_pow_left₀ (sq_nonneg (k i)) (hk i) 2
    rw [← pow_mul, ← pow_mul] at this
    norm_num at this
    nlinarith [pow_nonneg hu 4]
  · exact (hind hij).comp (φ := fun x => k i * x) (ψ := fun x => k j * x) (by fun_prop) (by fun_prop)

private theorem bound_le (u a η N : ℝ) (hu : 0 < u) (ha : 0 < a) (hη : 0 < η) (hN : 0 < N) :
    (20 * (Real.sqrt 2 * u) / a + 34) * (Real.sqrt 2 * u) ^ 2 / (η * u ^ 2 * Real.sqrt N) ≤ (57 * u / a + 68) / (η * Real.sqrt N) := by
  have h2 : Real.sqrt 2 ^ 2 = 2 := Real.sq_sqrt (by norm_num)
  have h3 : Real.sqrt 2 ≤ 57 / 40 := by
    rw [Real.sqrt_le_left (by norm_num)]
    norm_num
  have hs : 0 < Real.sqrt N := Real.sqrt_pos.mpr hN
  have e : (20 * (Real.sqrt 2 * u) / a + 34) * (Real.sqrt 2 * u) ^ 2 / (η * u ^ 2 * Real.sqrt N) = (40 * Real.sqrt 2 * (u / a) + 68) / (η * Real.sqrt N) := by
    rw [mul_pow, h2]
    field_simp
    ring
  rw [e]
  apply div_le_div_of_nonneg_right _ (by positivity)
  have : 0 < u / a := by positivity
  rw [mul_div_assoc]
  nlinarith

/-- **C158 (random amplitude noise).** A coherent sine through `apply_am_noise` of strength `strength`: except with probability `(57 strength + 68) / (η √N)` the square of
the reported AM value is `(A strength)²` within the part `η`, and the squares of the PM and base values are below that part. -/
theorem C158_am_noise (solve : Lstsq) (hs : IsLstsq solve) (g : Gen) (k : ℕ) (hg : CoherentGen g k) (h4 : 4 * k ≠ g.n) (hA : 0 < g.a) (strength : ℝ) (hst : 0 < strength)
    (Y : ℕ → Ω → ℝ) (hY : ∀ i, AEMeasurable (Y i) μ) (hlaw : ∀ i, Measure.map (Y i) μ = gaussianReal 0 1) (hind : Pairwise fun i j => IndepFun (Y i) (Y j) μ)
    (nBins : ℤ) (hn : 0 < nBins) (tol η : ℝ) (hη : 0 < η) :
    μ.real {ω | ¬ ∃ r, rearrangeByPhase solve g.n (g.amNoise none strength fun i => Y i ω) (some ((k : ℝ) / g.n)) nBins true 0 tol = .ok r ∧
      |r.amRms ^ 2 - (g.a * strength) ^ 2| ≤ η * (g.a * strength) ^ 2 ∧ r.pmRms ^ 2 ≤ η * (g.a * strength) ^ 2 ∧ r.baseRms ^ 2 ≤ η * (g.a * strength) ^ 2}
      ≤ (57 * strength + 68) / (η * Real.sqrt g.n) := by
  obtain ⟨_, _, hk, hkN⟩ := id hg
  have hN : (0 : ℝ) < g.n := by exact_mod_cast (by omega : 0 < g.n)
  obtain ⟨θ, hθ⟩ : ∃ θ : ℕ → ℝ, ∀ i : ℕ, θ i = 2 * Real.pi * ((k : ℝ) / g.n) * i + -(Real.pi / 2) := ⟨_, fun _ => rfl⟩
  have hu : 0 < g.a * strength := by positivity
  obtain ⟨z2, z4, zm, zv, zK, zi⟩ := scaled_draws μ Y hY hlaw hind (fun i => g.a * strength * Real.cos (θ i)) (g.a * strength) hu.le (fun i => by
    rw [mul_pow]
    exact mul_le_of_le_one_right (sq_nonneg _) (Real.cos_sq_le_one _))
  have hrec : ∀ ω, (g.amNoise none strength fun i => Y i ω) = fun t => sineAt g.a ((k : ℝ) / g.n) (-(Real.pi / 2)) g.dc t + g.a * strength * Real.cos (θ t) * Y t ω := by
    intro ω
    funext t
    unfold Gen.amNoise
    rw [show g.resolve none t = g.base t from rfl, base_sine g k hg, hθ]
    unfold sineAt
    ring
  choose r hr using fun ω => (C50_errors solve g.n (g.amNoise none strength fun i => Y i ω) ((k : ℝ) / g.n) nBins true 0 tol).2.2 hn
  have hmain := C158_estimates μ solve hs hk hkN h4 g.a (-(Real.pi / 2)) g.dc tol hA nBins ((g.a * strength) ^ 2) 0 0 (Real.sqrt 2 * (g.a * strength)) (η * (g.a * strength) ^ 2)
    (by positivity) le_rfl le_rfl (by positivity) (by positivity) _ z2 z4 zm
    (fun i => by
      rw [zv, ← hθ]
      unfold noiseCurve
      ring) zK zi r (fun ω => by rw [← hr ω, hrec])
  rw [min_eq_right (sq_nonneg _), sub_self, sub_zero, add_zero] at hmain
  refine (measureReal_mono (s₂ := {ω | ¬ (|(r ω).amRms ^ 2 - (g.a * strength) ^ 2| ≤ η * (g.a * strength) ^ 2 ∧ |(r ω).pmRms ^ 2 - 0| ≤ η * (g.a * strength) ^ 2 ∧
    |(r ω).baseRms ^ 2 - 0| ≤ η * (g.a * strength) ^ 2)}) ?_).trans (hmain.trans ?_)
  · rintro ω hω ⟨c1, c2, c3⟩
    rw [sub_zero] at c2 c3
    exact hω ⟨r ω, hr ω, c1, (le_abs_self _).trans c2, (le_abs_self _).trans c3⟩
  · refine (bound_le _ _ _ _ hu hA hη hN).trans (le_of_eq ?_)
    congr 2
    field_simp

/-- **C158 (thermal noise).** A coherent sine with `apply_thermal_noise` of rms value `rms`: except with probability `(57 rms / A + 68) / (η √N)` the square of the reported
base value is `rms²` within the part `η`, and the squares of the AM and PM values are below that part. -/
theorem C158_thermal (solve : Lstsq) (hs : IsLstsq solve) (g : Gen) (k : ℕ) (hg : CoherentGen g k) (h4 : 4 * k ≠ g.n) (hA : 0 < g.a) (rms : ℝ) (hst : 0 < rms)
    (Y : ℕ → Ω → ℝ) (hY : ∀ i, AEMeasurable (Y i) μ) (hlaw : ∀ i, Measure.map (Y i) μ = gaussianReal 0 1) (hind : Pairwise fun i j => IndepFun (Y i) (Y j) μ)
    (nBins : ℤ) (hn : 0 < nBins) (tol η : ℝ) (hη : 0 < η) :
    μ.real {ω | ¬ ∃ r, rearrangeByPhase solve g.n (g.thermal none rms fun i => Y i ω) (some ((k : ℝ) / g.n)) nBins true 0 tol = .ok r ∧
      r.amRms ^ 2 ≤ η * rms ^ 2 ∧ r.pmRms ^ 2 ≤ η * rms ^ 2 ∧ |r.baseRms ^ 2 - rms ^ 2| ≤ η * rms ^ 2} ≤ (57 * rms / g.a + 68) / (η * Real.sqrt g.n) := by
  obtain ⟨_, _, hk, hkN⟩ := id hg
  have hN : (0 : ℝ) < g.n := by exact_mod_cast (by omega : 0 < g.n)
  obtain ⟨z2, z4, zm, zv, zK, zi⟩ := scaled_draws μ Y hY hlaw hind (fun _ => rms) rms hst.le (fun i => le_rfl)
  have hrec : ∀ ω, (g.thermal none rms fun i => Y i ω) = fun t => sineAt g.a ((k : ℝ) / g.n) (-(Real.pi / 2)) g.dc t + rms * Y t ω := by
    intro ω
    funext t
    unfold Gen.thermal
    rw [show g.resolve none t = g.base t from rfl, base_sine g k hg]
    ring
  choose r hr using fun ω => (C50_errors solve g.n (g.thermal none rms fun i => Y i ω) ((k : ℝ) / g.n) nBins true 0 tol).2.2 hn
  have hmain := C158_estimates μ solve hs hk hkN h4 g.a (-(Real.pi / 2)) g.dc tol hA nBins 0 0 (rms ^ 2) (Real.sqrt 2 * rms) (η * rms ^ 2)
    le_rfl le_rfl (by positivity) (by positivity) (by positivity) _ z2 z4 zm
    (fun i => by
      rw [zv]
      unfold noiseCurve
      ring) zK zi r (fun ω => by rw [← hr ω, hrec])
  rw [min_self, sub_zero, add_zero] at hmain
  refine (measureReal_mono (s₂ := {ω | ¬ (|(r ω).amRms ^ 2 - 0| ≤ η * rms ^ 2 ∧ |(r ω).pmRms ^ 2 - 0| ≤ η * rms ^ 2 ∧ |(r ω).baseRms ^ 2 - rms ^ 2| ≤ η * rms ^ 2)}) ?_).trans
    (hmain.trans (bound_le _ _ _ _ hst hA hη hN))
  rintro ω hω ⟨c1, c2, c3⟩
  rw [sub_zero] at c1 c2
  exact hω ⟨r ω, hr ω, (le_abs_self _).trans c1, (le_abs_self _).trans c2, c3⟩

/-- The error of one sample taken at a normally displaced instant, around its own mean. -/
private theorem jitter_draw (Y : Ω → ℝ) (hY : AEMeasurable Y μ) (hlaw : Measure.map Y μ = gaussianReal 0 1) (a w φ p : ℝ) (ha : 0 < a) (hw : 0 < w)
    (hp : p = Real.exp (-(w ^ 2 / 2))) :
    MemLp (fun ω => a * Real.sin (φ + w * Y ω) - a * p * Real.sin φ) 2 μ ∧ MemLp (fun ω => (a * Real.sin (φ + w * Y ω) - a * p * Real.sin φ) ^ 2) 2 μ ∧
      ∫ ω, a * Real.sin (φ + w * Y ω) - a * p * Real.sin φ ∂μ = 0 ∧
      ∫ ω, (a * Real.sin (φ + w * Y ω) - a * p * Real.sin φ) ^ 2 ∂μ = a ^ 2 * (1 - p ^ 2) / 2 * (1 + p ^ 2 * Real.cos (2 * φ)) ∧
      ∫ ω, (a * Real.sin (φ + w * Y ω) - a * p * Real.sin φ) ^ 4 ∂μ ≤ (Real.sqrt 6 * (a * w)) ^ 4 := by
  obtain ⟨_, i1, _, m1⟩ := gauss_shift μ Y hY hlaw w φ
  obtain ⟨i2, _, m2, _⟩ := gauss_shift μ Y hY hlaw (2 * w) (2 * φ)
  rw [← hp] at m1
  have hp4 : Real.exp (-((2 * w) ^ 2 / 2)) = p ^ 4 := by
    rw [hp, ← Real.exp_nat_mul]
    congr 1
    push_cast
    ring
  rw [hp4] at m2
  have hp0 : 0 < p := by rw [hp]; exact Real.exp_pos _
  have hp1 : p ≤ 1 := by rw [hp, Real.exp_le_one_iff]; have := sq_nonneg w; linarith
  have hpw : 1 - p ≤ w := by
    rcases le_total w 1 with h | h
    · have := Real.add_one_le_exp (-(w ^ 2 / 2))
      rw [← hp] at this
      nlinarith
    · linarith
  have meas : AEMeasurable (fun ω => a * Real.sin (φ + w * Y ω) - a * p * Real.sin φ) μ := by fun_prop
  have hb : ∀ ω, |a * Real.sin (φ + w * Y ω) - a * p * Real.sin φ| ≤ 2 * a := by
    intro ω
    refine (abs_sub _ _).trans ?_
    rw [abs_mul, abs_mul, abs_of_pos ha, abs_of_pos (by positivity : 0 < a * p)]
    have h1 := Real.abs_sin_le_one (φ + w * Y ω)
    have h2 := Real.abs_sin_le_one φ
    have h3 : a * |Real.sin (φ + w * Y ω)| ≤ a * 1 := mul_le_mul_of_nonneg_left h1 ha.le
    have h4 : a * p * |Real.sin φ| ≤ a * 1 * 1 := mul_le_mul (mul_le_mul_of_nonneg_left hp1 ha.le) h2 (abs_nonneg _) (by positivity)
    linarith
  obtain ⟨_, _, _, hY4, hY4'⟩ := normal_draw μ Y hY hlaw
  have iY4 : Integrable (fun ω => Y ω ^ 4) μ := by
    refine hY4.integrable_sq.congr (Filter.Eventually.of_forall fun ω => ?_)
    simp only
    ring
  refine ⟨MemLp.of_bound meas.aestronglyMeasurable (2 * a) (Filter.Eventually.of_forall hb), MemLp.of_bound (meas.pow_const 2).aestronglyMeasurable ((2 * a) ^ 2) ?_, ?_, ?_, ?_⟩
  · filter_upwards with ω
    rw [Real.norm_eq_abs, abs_pow]
    exact pow_le_pow_left₀ (abs_nonneg _) (hb ω) 2
  · rw [integral_sub (i1.const_mul _) (integrable_const _), integral_const_mul, m1]
    simp
    ring
  · have e : (fun ω => (a * Real.sin (φ + w * Y ω) - a * p * Real.sin φ) ^ 2)
        = fun ω => (a ^ 2 / 2 + a ^ 2 * p ^ 2 * Real.sin φ ^ 2 - a ^ 2 / 2 * Real.cos (2 * φ + 2 * w * Y ω)) - 2 * a ^ 2 * p * Real.sin φ * Real.sin (φ + w * Y ω) := by
      funext ω
      rw [show 2 * φ + 2 * w * Y ω = 2 * (φ + w * Y ω) by ring, Real.cos_two_mul, Real.cos_sq']
      ring
    have i3 : Integrable (fun ω => a ^ 2 / 2 + a ^ 2 * p ^ 2 * Real.sin φ ^ 2 - a ^ 2 / 2 * Real.cos (2 * φ + 2 * w * Y ω)) μ := (integrable_const _).sub (i2.const_mul _)
    rw [e, integral_sub i3 (i1.const_mul _), integral_sub (integrable_const _) (i2.const_mul _), integral_const_mul, integral_const_mul, m1, m2, Real.cos_two_mul, Real.cos_sq']
    simp
    ring
  · have hle : ∀ ω, (a * Real.sin (φ + w * Y ω) - a * p * Real.sin φ) ^ 4 ≤ 8 * (a * w) ^ 4 * Y ω ^ 4 + 8 * (a * w) ^ 4 := by
      intro ω
      have four : ∀ x y : ℝ, (x - y) ^ 4 ≤ 8 * (x ^ 4 + y ^ 4) := by
        intro x y
        nlinarith [sq_nonneg (x + y), sq_nonneg (x ^ 2 - y ^ 2), sq_nonneg ((x + y) ^ 2), sq_nonneg (x - y), sq_nonneg ((x - y) * (x + y)), sq_nonneg (x * (x + y)),
          sq_nonneg (y * (x + y))]
      have h1 := four (a * (Real.sin (φ + w * Y ω) - Real.sin φ)) (a * (p - 1) * Real.sin φ)
      have h2 : (a * (Real.sin (φ + w * Y ω) - Real.sin φ)) ^ 4 ≤ (a * w * Y ω) ^ 4 := by
        have h3 : |a * (Real.sin (φ + w * Y ω) - Real.sin φ)| ≤ |a * w * Y ω| := by
          rw [abs_mul, mul_assoc, abs_mul a]
          refine mul_le_mul_of_nonneg_left ((Real.abs_sin_sub_sin_le _ _).trans (le_of_eq ?_)) (abs_nonneg _)
          congr 1
          ring
        have := pow_le_pow_left₀ (abs_nonneg _) h3 4
        rwa [Even.pow_abs (by decide), Even.pow_abs (by decide)] at this
      have h4 : (a * (p - 1) * Real.sin φ) ^ 4 ≤ (a * w) ^ 4 := by
        have h3 : |a * (p - 1) * Real.sin φ| ≤ |a * w| := by
          rw [abs_mul, abs_mul, abs_mul, abs_of_pos ha, abs_of_pos hw, abs_of_nonpos (by linarith : p - 1 ≤ 0)]
          have h5 : a * -(p - 1) ≤ a * w := mul_le_mul_of_nonneg_left (by linarith) ha.le
          calc a * -(p - 1) * |Real.sin φ| ≤ a * w * 1 := mul_le_mul h5 (Real.abs_sin_le_one _) (abs_nonneg _) (by positivity)
            _ = a * w := mul_one _
        have := pow_le_pow_left₀ (abs_nonneg _) h3 4
        rwa [Even.pow_abs (by decide), Even.pow_abs (by decide)] at this
      rw [show a * Real.sin (φ + w * Y ω) - a * p * Real.sin φ = a * (Real.sin (φ + w * Y ω) - Real.sin φ) - a * (p - 1) * Real.sin φ by ring]
      rw [mul_pow (a * w)] at h2
      linarith
    have i5 : Integrable (fun ω => 8 * (a * w) ^ 4 * Y ω ^ 4) μ := iY4.const_mul _
    have i6 : Integrable (fun ω => 8 * (a * w) ^ 4 * Y ω ^ 4 + 8 * (a * w) ^ 4) μ := i5.add (integrable_const _)
    refine (integral_mono_of_nonneg (Filter.Eventually.of_forall fun ω => by positivity) i6 (Filter.Eventually.of_forall hle)).trans ?_
    rw [integral_add i5 (integrable_const _), integral_const_mul, hY4', mul_pow (Real.sqrt 6)]
    have h6 : Real.sqrt 6 ^ 4 = 36 := by
      have h := Real.sq_sqrt (show (0 : ℝ) ≤ 6 by norm_num)
      calc Real.sqrt 6 ^ 4 = (Real.sqrt 6 ^ 2) ^ 2 := by ring
        _ = 36 := by rw [h]; norm_num
    rw [h6]
    simp
    nlinarith [pow_pos (mul_pos ha hw) 4]

/-- **C158 (sampling jitter).** A coherent sine through `apply_jitter` with normal time errors of rms value `sigma`, `w = 2π Fin sigma` and `q = exp (-w²)`: except with
probability `(294 w exp (w²/2) + 204) / (η √N)` the square of the reported PM value is `A² q (1 - q)`, that of the base value `A² (1 - q)² / 2` and that of the AM value 0, each
within `η (A w)²`. The first of these is `(A w)²` and the second 0 up to a part of the order `w²`. -/
theorem C158_jitter (solve : Lstsq) (hs : IsLstsq solve) (g : Gen) (k : ℕ) (hg : CoherentGen g k) (h4 : 4 * k ≠ g.n) (hA : 0 < g.a) (sigma : ℝ) (hst : 0 < sigma)
    (Y : ℕ → Ω → ℝ) (hY : ∀ i, AEMeasurable (Y i) μ) (hlaw : ∀ i, Measure.map (Y i) μ = gaussianReal 0 1) (hind : Pairwise fun i j => IndepFun (Y i) (Y j) μ)
    (nBins : ℤ) (hn : 0 < nBins) (tol η : ℝ) (hη : 0 < η) (w q : ℝ) (hw : w = 2 * Real.pi * g.fin * sigma) (hq : q = Real.exp (-w ^ 2)) :
    μ.real {ω | ¬ ∃ r, rearrangeByPhase solve g.n (g.jitter fun i => Y i ω * sigma) (some ((k : ℝ) / g.n)) nBins true 0 tol = .ok r ∧
      r.amRms ^ 2 ≤ η * (g.a * w) ^ 2 ∧ |r.pmRms ^ 2 - g.a ^ 2 * (q * (1 - q))| ≤ η * (g.a * w) ^ 2 ∧ |r.baseRms ^ 2 - g.a ^ 2 * ((1 - q) ^ 2 / 2)| ≤ η * (g.a * w) ^ 2}
      ≤ (294 * w * Real.exp (w ^ 2 / 2) + 204) / (η * Real.sqrt g.n) ∧
    w ^ 2 * (1 - 3 / 2 * w ^ 2) ≤ q * (1 - q) ∧ q * (1 - q) ≤ w ^ 2 ∧ (1 - q) ^ 2 / 2 ≤ w ^ 2 * (w ^ 2 / 2) := by
  obtain ⟨hfs, hfin, hk, hkN⟩ := id hg
  have hN : (0 : ℝ) < g.n := by exact_mod_cast (by omega : 0 < g.n)
  have hkR : (0 : ℝ) < k := by exact_mod_cast hk
  have hf : 0 < g.fin := by rw [hfin]; positivity
  have hw0 : 0 < w := by rw [hw]; positivity
  obtain ⟨p, hp⟩ : ∃ p, p = Real.exp (-(w ^ 2 / 2)) := ⟨_, rfl⟩
  have hpq : p ^ 2 = q := by
    rw [hp, hq, ← Real.exp_nat_mul]
    congr 1
    push_cast
    ring
  have hp0 : 0 < p := by rw [hp]; exact Real.exp_pos _
  have hq0 : 0 < q := by rw [hq]; exact Real.exp_pos _
  have hq1 : q ≤ 1 := by rw [hq, Real.exp_le_one_iff]; have := sq_nonneg w; linarith
  constructor
  · obtain ⟨θ, hθ⟩ : ∃ θ : ℕ → ℝ, ∀ i : ℕ, θ i = 2 * Real.pi * ((k : ℝ) / g.n) * i + -(Real.pi / 2) := ⟨_, fun _ => rfl⟩
    obtain ⟨φ, hφ⟩ : ∃ φ : ℕ → ℝ, ∀ i : ℕ, φ i = 2 * Real.pi * g.fin * g.t i := ⟨_, fun _ => rfl⟩
    have hcos : ∀ i, Real.cos (θ i) = Real.sin (φ i) := by
      intro i
      have := base_sine ⟨g.n, g.fs, g.fin, 1, 0⟩ k hg i
      unfold Gen.base sineAt at this
      simp only [one_mul, add_zero] at this
      rw [hθ, hφ, ← this]
      rfl
    have hd := fun i => jitter_draw μ (Y i) (hY i) (hlaw i) g.a w (φ i) p hA hw0 hp
    have hrec : ∀ ω, (g.jitter fun i => Y i ω * sigma) = fun t => sineAt (g.a * p) ((k : ℝ) / g.n) (-(Real.pi / 2)) g.dc t
        + (g.a * Real.sin (φ t + w * Y t ω) - g.a * p * Real.sin (φ t)) := by
      intro ω
      funext t
      unfold Gen.jitter sineAt
      rw [← hθ, hcos, show 2 * Real.pi * g.fin * (g.t t + Y t ω * sigma) = φ t + w * Y t ω by rw [hφ, hw]; ring]
      ring
    choose r hr using fun ω => (C50_errors solve g.n (g.jitter fun i => Y i ω * sigma) ((k : ℝ) / g.n) nBins true 0 tol).2.2 hn
    have hpm0 : 0 ≤ g.a ^ 2 * (q * (1 - q)) := mul_nonneg (sq_nonneg _) (mul_nonneg hq0.le (by linarith))
    have hmain := C158_estimates μ solve hs hk hkN h4 (g.a * p) (-(Real.pi / 2)) g.dc tol (by positivity) nBins 0 (g.a ^ 2 * (q * (1 - q))) (g.a ^ 2 * ((1 - q) ^ 2 / 2))
      (Real.sqrt 6 * (g.a * w)) (η * (g.a * w) ^ 2) le_rfl hpm0 (by positivity) (by positivity) (by positivity)
      (fun t ω => g.a * Real.sin (φ t + w * Y t ω) - g.a * p * Real.sin (φ t)) (fun i => (hd i).1) (fun i => (hd i).2.1) (fun i => (hd i).2.2.1)
      (fun i => by
        rw [(hd i).2.2.2.1, ← hθ, hpq]
        unfold noiseCurve
        rw [show Real.sin (θ i) ^ 2 = 1 - Real.cos (θ i) ^ 2 by linarith [Real.sin_sq_add_cos_sq (θ i)], hcos, Real.cos_two_mul, Real.cos_sq']
        ring) (fun i => (hd i).2.2.2.2)
      (fun i j hij => (hind hij).comp (φ := fun x => g.a * Real.sin (φ i + w * x) - g.a * p * Real.sin (φ i))
        (ψ := fun x => g.a * Real.sin (φ j + w * x) - g.a * p * Real.sin (φ j)) (by fun_prop) (by fun_prop)) r (fun ω => by rw [← hr ω, hrec])
    rw [min_eq_left hpm0, sub_zero, sub_zero, add_zero] at hmain
    refine (measureReal_mono (s₂ := {ω | ¬ (|(r ω).amRms ^ 2 - 0| ≤ η * (g.a * w) ^ 2 ∧ |(r ω).pmRms ^ 2 - g.a ^ 2 * (q * (1 - q))| ≤ η * (g.a * w) ^ 2 ∧
      |(r ω).baseRms ^ 2 - g.a ^ 2 * ((1 - q) ^ 2 / 2)| ≤ η * (g.a * w) ^ 2)}) ?_).trans (hmain.trans ?_)
    · rintro ω hω ⟨c1, c2, c3⟩
      rw [sub_zero] at c1
      exact hω ⟨r ω, hr ω, (le_abs_self _).trans c1, c2, c3⟩
    · have h6 : Real.sqrt 6 ^ 2 = 6 := Real.sq_sqrt (by norm_num)
      have h6' : Real.sqrt 6 ≤ 49 / 20 := by
        rw [Real.sqrt_le_left (by norm_num)]
        norm_num
      have hpi : p * Real.exp (w ^ 2 / 2) = 1 := by rw [hp, ← Real.exp_add]; simp
      have hs0 : 0 < Real.sqrt g.n := Real.sqrt_pos.mpr hN
      have e : (20 * (Real.sqrt 6 * (g.a * w)) / (g.a * p) + 34) * (Real.sqrt 6 * (g.a * w)) ^ 2 / (η * (g.a * w) ^ 2 * Real.sqrt g.n)
          = (120 * Real.sqrt 6 * (w / p) + 204) / (η * Real.sqrt g.n) := by
        rw [mul_pow, h6]
        field_simp
        ring
      have e2 : w / p = w * Real.exp (w ^ 2 / 2) := by
        rw [div_eq_iff hp0.ne', mul_assoc, mul_comm (Real.exp _), hpi, mul_one]
      rw [e, e2]
      apply div_le_div_of_nonneg_right _ (by positivity)
      have : 0 < w * Real.exp (w ^ 2 / 2) := by positivity
      nlinarith
  · have l1 : 1 - q ≤ w ^ 2 := by
      have := Real.add_one_le_exp (-w ^ 2)
      rw [← hq] at this
      linarith
    have l2 : w ^ 2 - w ^ 4 / 2 ≤ 1 - q := by
      have h1 := Real.quadratic_le_exp_of_nonneg (sq_nonneg w)
      have h2 : q * Real.exp (w ^ 2) = 1 := by rw [hq, ← Real.exp_add]; simp
      have h3 : q * (1 + w ^ 2 + (w ^ 2) ^ 2 / 2) ≤ 1 := (mul_le_mul_of_nonneg_left h1 hq0.le).trans h2.le
      have hx := sq_nonneg w
      have h5 : 0 < 1 + w ^ 2 + (w ^ 2) ^ 2 / 2 := by positivity
      by_contra hcon
      push Not at hcon
      have h6 : (1 - w ^ 2 + w ^ 4 / 2) * (1 + w ^ 2 + (w ^ 2) ^ 2 / 2) < 1 := by
        refine lt_of_lt_of_le (mul_lt_mul_of_pos_right (by linarith) h5) h3
      nlinarith [pow_nonneg hw0.le 8]
    refine ⟨?_, ?_, ?_⟩
    · nlinarith [sq_nonneg w, mul_nonneg (sub_nonneg.mpr hq1) (sub_nonneg.mpr l1)]
    · nlinarith
    · have := pow_le_pow_left₀ (by linarith : 0 ≤ 1 - q) l1 2
      nlinarith

/-- **C158 (phase noise in radians).** The same records: the square of the reported `pm_noise_rms_rad` is `1 - exp (-w²)`, which is `w²` up to a part of the order `w⁴`, and that of
`am_relative` is 0, each within `η w²`, except with probability `(1176 w exp (w²/2) + 816) exp (w²) / (η √N) + 82944 w² exp (3 w²) / (η² N)`. -/
theorem C158_jitter_radians (solve : Lstsq) (hs : IsLstsq solve) (g : Gen) (k : ℕ) (hg : CoherentGen g k) (h4 : 4 * k ≠ g.n) (sigma : ℝ) (hst : 0 < sigma)
    (Y : ℕ → Ω → ℝ) (hY : ∀ i, AEMeasurable (Y i) μ) (hlaw : ∀ i, Measure.map (Y i) μ = gaussianReal 0 1) (hind : Pairwise fun i j => IndepFun (Y i) (Y j) μ)
    (nBins : ℤ) (hn : 0 < nBins) (tol η : ℝ) (hη : 0 < η) (hη1 : η ≤ 4) (w : ℝ) (hw : w = 2 * Real.pi * g.fin * sigma)
    (hA : 2 / 10 ^ 10 ≤ g.a * Real.exp (-(w ^ 2 / 2))) :
    μ.real {ω | ¬ ∃ r, rearrangeByPhase solve g.n (g.jitter fun i => Y i ω * sigma) (some ((k : ℝ) / g.n)) nBins true 0 tol = .ok r ∧
      |r.pmRad ^ 2 - (1 - Real.exp (-w ^ 2))| ≤ η * w ^ 2 ∧ r.amRelative ^ 2 ≤ η * w ^ 2}
      ≤ (1176 * w * Real.exp (w ^ 2 / 2) + 816) * Real.exp (w ^ 2) / (η * Real.sqrt g.n) + 82944 * w ^ 2 * Real.exp (3 * w ^ 2) / (η ^ 2 * g.n) ∧
    w ^ 2 - w ^ 4 / 2 ≤ 1 - Real.exp (-w ^ 2) ∧ 1 - Real.exp (-w ^ 2) ≤ w ^ 2 := by
  obtain ⟨hfs, hfin, hk, hkN⟩ := id hg
  have hN : (0 : ℝ) < g.n := by exact_mod_cast (by omega : 0 < g.n)
  have hkR : (0 : ℝ) < k := by exact_mod_cast hk
  have hf : 0 < g.fin := by rw [hfin]; positivity
  have hw0 : 0 < w := by rw [hw]; positivity
  obtain ⟨q, hq⟩ : ∃ q, q = Real.exp (-w ^ 2) := ⟨_, rfl⟩
  obtain ⟨p, hp⟩ : ∃ p, p = Real.exp (-(w ^ 2 / 2)) := ⟨_, rfl⟩
  have hpq : p ^ 2 = q := by
    rw [hp, hq, ← Real.exp_nat_mul]
    congr 1
    push_cast
    ring
  have hp0 : 0 < p := by rw [hp]; exact Real.exp_pos _
  have hq0 : 0 < q := by rw [hq]; exact Real.exp_pos _
  have hq1 : q ≤ 1 := by rw [hq, Real.exp_le_one_iff]; have := sq_nonneg w; linarith
  rw [← hq]
  rw [← hp] at hA
  have hA0 : 0 < g.a := by
    by_contra hcon
    push Not at hcon
    have := mul_nonpos_of_nonpos_of_nonneg hcon hp0.le
    have h2 : (0 : ℝ) < 2 / 10 ^ 10 := by norm_num
    linarith
  constructor
  · obtain ⟨θ, hθ⟩ : ∃ θ : ℕ → ℝ, ∀ i : ℕ, θ i = 2 * Real.pi * ((k : ℝ) / g.n) * i + -(Real.pi / 2) := ⟨_, fun _ => rfl⟩
    obtain ⟨φ, hφ⟩ : ∃ φ : ℕ → ℝ, ∀ i : ℕ, φ i = 2 * Real.pi * g.fin * g.t i := ⟨_, fun _ => rfl⟩
    have hcos : ∀ i, Real.cos (θ i) = Real.sin (φ i) := by
      intro i
      have := base_sine ⟨g.n, g.fs, g.fin, 1, 0⟩ k hg i
      unfold Gen.base sineAt at this
      simp only [one_mul, add_zero] at this
      rw [hθ, hφ, ← this]
      rfl
    have hd := fun i => jitter_draw μ (Y i) (hY i) (hlaw i) g.a w (φ i) p hA0 hw0 hp
    have hrec : ∀ ω, (g.jitter fun i => Y i ω * sigma) = fun t => sineAt (g.a * p) ((k : ℝ) / g.n) (-(Real.pi / 2)) g.dc t
        + (g.a * Real.sin (φ t + w * Y t ω) - g.a * p * Real.sin (φ t)) := by
      intro ω
      funext t
      unfold Gen.jitter sineAt
      rw [← hθ, hcos, show 2 * Real.pi * g.fin * (g.t t + Y t ω * sigma) = φ t + w * Y t ω by rw [hφ, hw]; ring]
      ring
    choose r hr using fun ω => (C50_errors solve g.n (g.jitter fun i => Y i ω * sigma) ((k : ℝ) / g.n) nBins true 0 tol).2.2 hn
    have hpm0 : 0 ≤ g.a ^ 2 * (q * (1 - q)) := mul_nonneg (sq_nonneg _) (mul_nonneg hq0.le (by linarith))
    have hmain := C158_relative μ solve hs hk hkN h4 (g.a * p) (-(Real.pi / 2)) g.dc tol hA nBins 0 (g.a ^ 2 * (q * (1 - q))) (g.a ^ 2 * ((1 - q) ^ 2 / 2))
      (Real.sqrt 6 * (g.a * w)) (η * q / 6) le_rfl hpm0 (by positivity) (by positivity) (by positivity) (by nlinarith)
      (fun t ω => g.a * Real.sin (φ t + w * Y t ω) - g.a * p * Real.sin (φ t)) (fun i => (hd i).1) (fun i => (hd i).2.1) (fun i => (hd i).2.2.1)
      (fun i => by
        rw [(hd i).2.2.2.1, ← hθ, hpq]
        unfold noiseCurve
        rw [show Real.sin (θ i) ^ 2 = 1 - Real.cos (θ i) ^ 2 by linarith [Real.sin_sq_add_cos_sq (θ i)], hcos, Real.cos_two_mul, Real.cos_sq']
        ring) (fun i => (hd i).2.2.2.2)
      (fun i j hij => (hind hij).comp (φ := fun x => g.a * Real.sin (φ i + w * x) - g.a * p * Real.sin (φ i))
        (ψ := fun x => g.a * Real.sin (φ j + w * x) - g.a * p * Real.sin (φ j)) (by fun_prop) (by fun_prop)) r (fun ω => by rw [← hr ω, hrec])
    have h6 : Real.sqrt 6 ^ 2 = 6 := Real.sq_sqrt (by norm_num)
    have h6' : Real.sqrt 6 ≤ 49 / 20 := by
      rw [Real.sqrt_le_left (by norm_num)]
      norm_num
    have eR : Real.sqrt 6 * (g.a * w) / (g.a * p) = Real.sqrt 6 * (w / p) := by field_simp
    have eT : η * q / 6 * (Real.sqrt 6 * (w / p)) ^ 2 = η * w ^ 2 := by
      rw [mul_pow, div_pow, h6, hpq]
      field_simp
    have eV : g.a ^ 2 * (q * (1 - q)) / (g.a * p) ^ 2 = 1 - q := by
      rw [mul_pow, hpq]
      field_simp
    rw [min_eq_left hpm0, sub_zero, sub_zero, eR, eT, eV, zero_div] at hmain
    refine (measureReal_mono (s₂ := {ω | ¬ (|(r ω).amRelative ^ 2 - 0| ≤ η * w ^ 2 ∧ |(r ω).pmRad ^ 2 - (1 - q)| ≤ η * w ^ 2)}) ?_).trans (hmain.trans ?_)
    · rintro ω hω ⟨c1, c2⟩
      rw [sub_zero] at c1
      exact hω ⟨r ω, hr ω, c2, (le_abs_self _).trans c1⟩
    · have hpi : p * Real.exp (w ^ 2 / 2) = 1 := by rw [hp, ← Real.exp_add]; simp
      have hqi : q * Real.exp (w ^ 2) = 1 := by rw [hq, ← Real.exp_add]; simp
      have hs0 : 0 < Real.sqrt g.n := Real.sqrt_pos.mpr hN
      have e2 : w / p = w * Real.exp (w ^ 2 / 2) := by
        rw [div_eq_iff hp0.ne', mul_assoc, mul_comm (Real.exp _), hpi, mul_one]
      have e3 : Real.exp (w ^ 2) = 1 / q := by rw [eq_div_iff hq0.ne', mul_comm, hqi]
      have e4 : Real.exp (3 * w ^ 2) = 1 / q ^ 3 := by
        rw [show 3 * w ^ 2 = ((3 : ℕ) : ℝ) * w ^ 2 by norm_num, Real.exp_nat_mul, e3, div_pow, one_pow]
      have f1 : (80 * (Real.sqrt 6 * (w / p)) + 136) / (η * q / 6 * Real.sqrt g.n) ≤ (1176 * w * Real.exp (w ^ 2 / 2) + 816) * Real.exp (w ^ 2) / (η * Real.sqrt g.n) := by
        rw [e3, e2]
        have : 0 < w * Real.exp (w ^ 2 / 2) := by positivity
        rw [show (80 * (Real.sqrt 6 * (w * Real.exp (w ^ 2 / 2))) + 136) / (η * q / 6 * Real.sqrt g.n)
          = (480 * (Real.sqrt 6 * (w * Real.exp (w ^ 2 / 2))) + 816) * (1 / q) / (η * Real.sqrt g.n) by field_simp; ring]
        apply div_le_div_of_nonneg_right _ (by positivity)
        apply mul_le_mul_of_nonneg_right _ (by positivity)
        nlinarith
      have f2 : 384 * (Real.sqrt 6 * (w / p)) ^ 2 / ((η * q / 6) ^ 2 * g.n) = 82944 * w ^ 2 * Real.exp (3 * w ^ 2) / (η ^ 2 * g.n) := by
        rw [e4, mul_pow, div_pow w, h6, hpq]
        field_simp
        ring
      rw [f2]
      linarith
  · have l1 : 1 - q ≤ w ^ 2 := by
      have := Real.add_one_le_exp (-w ^ 2)
      rw [← hq] at this
      linarith
    refine ⟨?_, l1⟩
    have h1 := Real.quadratic_le_exp_of_nonneg (sq_nonneg w)
    have h2 : q * Real.exp (w ^ 2) = 1 := by rw [hq, ← Real.exp_add]; simp
    have h3 : q * (1 + w ^ 2 + (w ^ 2) ^ 2 / 2) ≤ 1 := (mul_le_mul_of_nonneg_left h1 hq0.le).trans h2.le
    have h5 : 0 < 1 + w ^ 2 + (w ^ 2) ^ 2 / 2 := by positivity
    by_contra hcon
    push Not at hcon
    have h6 : (1 - w ^ 2 + w ^ 4 / 2) * (1 + w ^ 2 + (w ^ 2) ^ 2 / 2) < 1 := by
      refine lt_of_lt_of_le (mul_lt_mul_of_pos_right (by linarith) h5) h3
    nlinarith [pow_nonneg hw0.le 8]

/-- One percent of amplitude noise on the 1 V sine of `2 ^ 30` samples in cycle 1001, with normal draws: within a tenth of the variance except in one record out of forty. -/
example (solve : Lstsq) (hs : IsLstsq solve) : ∃ (Ω : Type) (_ : MeasurableSpace Ω) (μ : Measure Ω) (Y : ℕ → Ω → ℝ),
    μ.real {ω | ¬ ∃ r, rearrangeByPhase solve (2 ^ 30) (Gen.amNoise ⟨2 ^ 30, 2 ^ 30, 1001, 1, 0⟩ none (1 / 100) fun i => Y i ω) (some ((1001 : ℕ) / (2 ^ 30 : ℕ))) 100 true 0 0 = .ok r ∧
      |r.amRms ^ 2 - (1 / 100) ^ 2| ≤ 1 / 10 * (1 / 100) ^ 2 ∧ r.pmRms ^ 2 ≤ 1 / 10 * (1 / 100) ^ 2 ∧ r.baseRms ^ 2 ≤ 1 / 10 * (1 / 100) ^ 2} ≤ 1 / 40 := by
  obtain ⟨Ω, m, μ, hμ, Y, h1, _, _, h4, h5⟩ := exists_normal_draws
  refine ⟨Ω, m, μ, Y, ?_⟩
  have h := C158_am_noise μ solve hs ⟨2 ^ 30, 2 ^ 30, 1001, 1, 0⟩ 1001 ⟨by norm_num, by norm_num, by norm_num, by norm_num⟩ (by norm_num) (by norm_num) (1 / 100) (by norm_num) Y
    (fun i => (h1 i).1.aemeasurable) h5 h4 100 (by norm_num) 0 (1 / 10) (by norm_num)
  simp only [one_mul] at h
  refine h.trans ?_
  have : Real.sqrt ((2 ^ 30 : ℕ) : ℝ) = 2 ^ 15 := by
    rw [show ((2 ^ 30 : ℕ) : ℝ) = (2 ^ 15) ^ 2 by norm_num]
    exact Real.sqrt_sq (by norm_num)
  rw [this]
  norm_num

/-- Thermal noise of 1 mV on the same sine. -/
example (solve : Lstsq) (hs : IsLstsq solve) : ∃ (Ω : Type) (_ : MeasurableSpace Ω) (μ : Measure Ω) (Y : ℕ → Ω → ℝ),
    μ.real {ω | ¬ ∃ r, rearrangeByPhase solve (2 ^ 30) (Gen.thermal ⟨2 ^ 30, 2 ^ 30, 1001, 1, 0⟩ none (1 / 1000) fun i => Y i ω) (some ((1001 : ℕ) / (2 ^ 30 : ℕ))) 100 true 0 0 = .ok r ∧
      r.amRms ^ 2 ≤ 1 / 10 * (1 / 1000) ^ 2 ∧ r.pmRms ^ 2 ≤ 1 / 10 * (1 / 1000) ^ 2 ∧ |r.baseRms ^ 2 - (1 / 1000) ^ 2| ≤ 1 / 10 * (1 / 1000) ^ 2} ≤ 1 / 40 := by
  obtain ⟨Ω, m, μ, hμ, Y, h1, _, _, h4, h5⟩ := exists_normal_draws
  refine ⟨Ω, m, μ, Y, ?_⟩
  have h := C158_thermal μ solve hs ⟨2 ^ 30, 2 ^ 30, 1001, 1, 0⟩ 1001 ⟨by norm_num, by norm_num, by norm_num, by norm_num⟩ (by norm_num) (by norm_num) (1 / 1000) (by norm_num) Y
    (fun i => (h1 i).1.aemeasurable) h5 h4 100 (by norm_num) 0 (1 / 10) (by norm_num)
  refine h.trans ?_
  have : Real.sqrt ((2 ^ 30 : ℕ) : ℝ) = 2 ^ 15 := by
    rw [show ((2 ^ 30 : ℕ) : ℝ) = (2 ^ 15) ^ 2 by norm_num]
    exact Real.sqrt_sq (by norm_num)
  rw [this]
  norm_num

/-- Jitter of 1 µs on a sine of 1 kHz (`w` about 0.006 rad), `2 ^ 30` samples. -/
example (solve : Lstsq) (hs : IsLstsq solve) (w q : ℝ) (hw : w = 2 * Real.pi * 1000 * (1 / 1000000)) (hq : q = Real.exp (-w ^ 2)) :
    ∃ (Ω : Type) (_ : MeasurableSpace Ω) (μ : Measure Ω) (Y : ℕ → Ω → ℝ),
    μ.real {ω | ¬ ∃ r, rearrangeByPhase solve (2 ^ 30) (Gen.jitter ⟨2 ^ 30, 2 ^ 30, 1000, 1, 0⟩ fun i => Y i ω * (1 / 1000000)) (some ((1000 : ℕ) / (2 ^ 30 : ℕ))) 100 true 0 0 = .ok r ∧
      r.amRms ^ 2 ≤ 1 / 2 * w ^ 2 ∧ |r.pmRms ^ 2 - q * (1 - q)| ≤ 1 / 2 * w ^ 2 ∧ |r.baseRms ^ 2 - (1 - q) ^ 2 / 2| ≤ 1 / 2 * w ^ 2} ≤ 1 / 50 := by
  obtain ⟨Ω, m, μ, hμ, Y, h1, _, _, h4, h5⟩ := exists_normal_draws
  refine ⟨Ω, m, μ, Y, ?_⟩
  have h := (C158_jitter μ solve hs ⟨2 ^ 30, 2 ^ 30, 1000, 1, 0⟩ 1000 ⟨by norm_num, by norm_num, by norm_num, by norm_num⟩ (by norm_num) (by norm_num) (1 / 1000000) (by norm_num) Y
    (fun i => (h1 i).1.aemeasurable) h5 h4 100 (by norm_num) 0 (1 / 2) (by norm_num) w q hw hq).1
  simp only [one_mul, one_pow] at h
  refine h.trans ?_
  have hs : Real.sqrt ((2 ^ 30 : ℕ) : ℝ) = 2 ^ 15 := by
    rw [show ((2 ^ 30 : ℕ) : ℝ) = (2 ^ 15) ^ 2 by norm_num]
    exact Real.sqrt_sq (by norm_num)
  rw [hs, div_le_iff₀ (by norm_num)]
  have hw1 : w ≤ 7 / 1000 := by rw [hw]; linarith [Real.pi_lt_d2]
  have hw0 : 0 ≤ w := by rw [hw]; positivity
  have he : Real.exp (w ^ 2 / 2) ≤ 3 := by
    have h3 := Real.add_one_le_exp (-(w ^ 2 / 2))
    have h4 : Real.exp (-(w ^ 2 / 2)) * Real.exp (w ^ 2 / 2) = 1 := by rw [← Real.exp_add]; simp
    have h5 : 1 / 3 ≤ Real.exp (-(w ^ 2 / 2)) := by nlinarith
    have h6 := mul_le_mul_of_nonneg_right h5 (Real.exp_pos (w ^ 2 / 2)).le
    linarith
  have h7 : w * Real.exp (w ^ 2 / 2) ≤ 7 / 1000 * 3 := mul_le_mul hw1 he (Real.exp_pos _).le (by norm_num)
  norm_num
  linarith

/-- The same jitter in radians: within half of its square, except in one record out of ten. -/
example (solve : Lstsq) (hs : IsLstsq solve) (w : ℝ) (hw : w = 2 * Real.pi * 1000 * (1 / 1000000)) :
    ∃ (Ω : Type) (_ : MeasurableSpace Ω) (μ : Measure Ω) (Y : ℕ → Ω → ℝ),
    μ.real {ω | ¬ ∃ r, rearrangeByPhase solve (2 ^ 30) (Gen.jitter ⟨2 ^ 30, 2 ^ 30, 1000, 1, 0⟩ fun i => Y i ω * (1 / 1000000)) (some ((1000 : ℕ) / (2 ^ 30 : ℕ))) 100 true 0 0 = .ok r ∧
      |r.pmRad ^ 2 - (1 - Real.exp (-w ^ 2))| ≤ 1 / 2 * w ^ 2 ∧ r.amRelative ^ 2 ≤ 1 / 2 * w ^ 2} ≤ 1 / 10 := by
  obtain ⟨Ω, m, μ, hμ, Y, h1, _, _, h4, h5⟩ := exists_normal_draws
  refine ⟨Ω, m, μ, Y, ?_⟩
  have hw1 : w ≤ 7 / 1000 := by rw [hw]; linarith [Real.pi_lt_d2]
  have hw0 : 0 ≤ w := by rw [hw]; positivity
  have hww : w ^ 2 ≤ 1 / 1000 := by nlinarith
  have hex : ∀ x : ℝ, 0 ≤ x → x ≤ 3 / 1000 → Real.exp x ≤ 101 / 100 := by
    intro x _ hx
    have h3 := Real.add_one_le_exp (-x)
    have h4 : Real.exp (-x) * Real.exp x = 1 := by rw [← Real.exp_add]; simp
    have h5 : 997 / 1000 ≤ Real.exp (-x) := by linarith
    have h6 := mul_le_mul_of_nonneg_right h5 (Real.exp_pos x).le
    linarith
  have hmin : 2 / 10 ^ 10 ≤ (1 : ℝ) * Real.exp (-(w ^ 2 / 2)) := by
    have h3 := Real.add_one_le_exp (-(w ^ 2 / 2))
    rw [one_mul]
    refine le_trans ?_ h3
    have : (2 : ℝ) / 10 ^ 10 ≤ 1 / 2 := by norm_num
    linarith
  have h := (C158_jitter_radians μ solve hs ⟨2 ^ 30, 2 ^ 30, 1000, 1, 0⟩ 1000 ⟨by norm_num, by norm_num, by norm_num, by norm_num⟩ (by norm_num) (1 / 1000000) (by norm_num) Y
    (fun i => (h1 i).1.aemeasurable) h5 h4 100 (by norm_num) 0 (1 / 2) (by norm_num) (by norm_num) w hw hmin).1
  refine h.trans ?_
  have hsq : Real.sqrt ((2 ^ 30 : ℕ) : ℝ) = 2 ^ 15 := by
    rw [show ((2 ^ 30 : ℕ) : ℝ) = (2 ^ 15) ^ 2 by norm_num]
    exact Real.sqrt_sq (by norm_num)
  have x1 := hex (w ^ 2 / 2) (by positivity) (by linarith)
  have x2 := hex (w ^ 2) (by positivity) (by linarith)
  have x3 := hex (3 * w ^ 2) (by positivity) (by linarith)
  have y1 : 1176 * w * Real.exp (w ^ 2 / 2) ≤ 1176 * (7 / 1000) * (101 / 100) := mul_le_mul (by linarith) x1 (Real.exp_pos _).le (by norm_num)
  have y2 : (1176 * w * Real.exp (w ^ 2 / 2) + 816) * Real.exp (w ^ 2) ≤ 826 * (101 / 100) := mul_le_mul (by linarith) x2 (Real.exp_pos _).le (by norm_num)
  have y3 : 82944 * w ^ 2 * Real.exp (3 * w ^ 2) ≤ 83 * (101 / 100) := mul_le_mul (by linarith) x3 (Real.exp_pos _).le (by norm_num)
  have z1 : (1176 * w * Real.exp (w ^ 2 / 2) + 816) * Real.exp (w ^ 2) / (1 / 2 * 2 ^ 15) ≤ 826 * (101 / 100) / (1 / 2 * 2 ^ 15) := div_le_div_of_nonneg_right y2 (by norm_num)
  have z2 : 82944 * w ^ 2 * Real.exp (3 * w ^ 2) / ((1 / 2) ^ 2 * 2 ^ 30) ≤ 83 * (101 / 100) / ((1 / 2) ^ 2 * 2 ^ 30) := div_le_div_of_nonneg_right y3 (by norm_num)
  have e30 : ((2 ^ 30 : ℕ) : ℝ) = 2 ^ 30 := by norm_num
  simp only
  rw [hsq, e30]
  refine (add_le_add z1 z2).trans ?_
  norm_num

end prob

end Verif
