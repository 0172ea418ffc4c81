import Verif.Model.SineFit
import Verif.Proofs.Lstsq
import Verif.Theorems.Parseval
import Mathlib.Analysis.SpecialFunctions.Complex.Arg
import Mathlib.Analysis.Real.Pi.Bounds

/-!
# C58: the sine fit
-/

namespace Verif

open Model Finset

/-! ## Specification -/

/-- A sine of the given amplitude, frequency (cycles per sample), phase and offset. -/
noncomputable def sineAt (A f θ C : ℝ) (t : ℕ) : ℝ := A * Real.cos (2 * Real.pi * f * t + θ) + C

/-! ## Control flow -/

/-- What holds of the loop variables after at least one refinement. -/
private structure Refined (tol : ℝ) (s : FitState) : Prop where
  lo : 1 / 10 ^ 10 ≤ s.freq
  hi : s.freq ≤ 1 / 2 - 1 / 10 ^ 10
  conv : s.converged = true ↔ |s.lastDelta| < tol

private theorem refine_bounds (solve : Lstsq) (n : ℕ) (y : ℕ → ℝ) (s : FitState) :
    1 / 10 ^ 10 ≤ (fitRefine solve n y s).freq ∧ (fitRefine solve n y s).freq ≤ 1 / 2 - 1 / 10 ^ 10 := by
  unfold fitRefine
  exact clip_mem (by norm_num)

private theorem loop_control (solve : Lstsq) (n : ℕ) (y : ℕ → ℝ) (tol : ℝ) (k : ℕ) :
    ∀ s : FitState, s.converged = false → (fitLoop solve n y tol (k + 1) s).nIterations ≤ s.nIterations + (k + 1) ∧
      s.nIterations + 1 ≤ (fitLoop solve n y tol (k + 1) s).nIterations ∧ Refined tol (fitLoop solve n y tol (k + 1) s) ∧
      ((fitLoop solve n y tol (k + 1) s).nIterations < s.nIterations + (k + 1) → (fitLoop solve n y tol (k + 1) s).converged = true) := by
  induction k with
  | zero =>
    intro s hs
    have hb := refine_bounds solve n y s
    have hn : (fitRefine solve n y s).nIterations = s.nIterations + 1 := rfl
    have hc : (fitRefine solve n y s).converged = s.converged := rfl
    unfold fitLoop
    simp only
    by_cases h : |(fitRefine solve n y s).lastDelta| < tol
    · rw [if_pos h]
      exact ⟨by simp [hn], by simp [hn], ⟨hb.1, hb.2, by simp [h]⟩, fun _ => rfl⟩
    · rw [if_neg h]
      unfold fitLoop
      exact ⟨by simp [hn], by simp [hn], ⟨hb.1, hb.2, by simp [h, hc, hs]⟩, fun h2 => by omega⟩
  | succ k ih =>
    intro s hs
    have hb := refine_bounds solve n y s
    have hn : (fitRefine solve n y s).nIterations = s.nIterations + 1 := rfl
    have hc : (fitRefine solve n y s).converged = s.converged := rfl
    unfold fitLoop
    simp only
    by_cases h : |(fitRefine solve n y s).lastDelta| < tol
    · rw [if_pos h]
      exact ⟨by simp [hn], by simp [hn], ⟨hb.1, hb.2, by simp [h]⟩, fun _ => rfl⟩
    · rw [if_neg h]
      obtain ⟨h1, h2, h3, h4⟩ := ih (fitRefine solve n y s) (by rw [hc, hs])
      rw [hn] at h1 h2 h4
      exact ⟨by omega, by omega, h3, fun h5 => h4 (by omega)⟩

/-- The fit from a given frequency. -/
theorem fit_some (solve : Lstsq) (n : ℕ) (y : ℕ → ℝ) (f : ℝ) (maxIter : ℤ) (tol : ℝ) :
    fitCore solve n y (some f) maxIter tol =
      let s0 : FitState := { freq := f, a := 0, b := 0, c := 0, converged := decide (maxIter = 0), nIterations := 0, lastDelta := 0 }
      .ok (fitResult n y f maxIter (if maxIter < 0 then s0 else fitLoop solve n y tol maxIter.toNat (fitFirst solve n y s0))) := rfl

private theorem fit_ok (solve : Lstsq) (n : ℕ) (y : ℕ → ℝ) (freqInit : Option ℝ) (maxIter : ℤ) (tol : ℝ) (r : SineFit)
    (h : fitCore solve n y freqInit maxIter tol = .ok r) : fitCore solve n y (some r.initialFrequency) maxIter tol = .ok r ∧
      (∀ f, freqInit = some f → r.initialFrequency = f) ∧ (freqInit = none → estimateFreq n y = .ok r.initialFrequency) := by
  cases freqInit with
  | some f =>
    have h' := h
    rw [fit_some] at h
    injection h with h
    have : r.initialFrequency = f := by rw [← h]; rfl
    refine ⟨by rw [this]; exact h', fun g hg => ?_, fun hg => by cases hg⟩
    injection hg with hg
    rw [this, hg]
  | none =>
    unfold fitCore at h
    cases he : estimateFreq n y with
    | error e => rw [he] at h; cases h
    | ok f =>
      rw [he] at h
      injection h with h
      have : r.initialFrequency = f := by rw [← h]; rfl
      refine ⟨?_, fun g hg => (by cases hg), fun _ => by rw [this]⟩
      rw [this, fit_some]
      exact congrArg Except.ok h

/-- **C58 (iteration control).** At most `max_iterations` refinements; with at least one refinement the reported frequency is inside the open
Nyquist interval and `converged` is true exactly when the last update was below the tolerance; stopping early means converged; with
`max_iterations = 0` the frequency is left alone and `converged` is true; the warning is issued exactly when a requested refinement did not
converge. -/
theorem C58_iteration_control (solve : Lstsq) (n : ℕ) (y : ℕ → ℝ) (freqInit : Option ℝ) (maxIter : ℕ) (tol : ℝ) (r : SineFit)
    (h : fitCore solve n y freqInit maxIter tol = .ok r) :
    r.nIterations ≤ maxIter ∧ (∀ f, freqInit = some f → r.initialFrequency = f) ∧
    (0 < maxIter → 1 ≤ r.nIterations ∧ 0 < r.frequency ∧ r.frequency < 1 / 2 ∧ (r.converged = true ↔ |r.lastDelta| < tol)) ∧
    (r.nIterations < maxIter → r.converged = true) ∧
    (maxIter = 0 → r.converged = true ∧ r.frequency = r.initialFrequency ∧ r.lastDelta = 0) ∧
    (r.warned = true ↔ 0 < maxIter ∧ r.converged = false) := by
  obtain ⟨h1, hi, _⟩ := fit_ok solve n y freqInit maxIter tol r h
  rw [fit_some] at h1
  injection h1 with h1
  rw [if_neg (by omega), Int.toNat_natCast] at h1
  have hwarn : r.warned = true ↔ 0 < maxIter ∧ r.converged = false := by
    rw [← h1]
    unfold fitResult
    simp
  cases maxIter with
  | zero =>
    have e : r.nIterations = 0 ∧ r.converged = true ∧ r.frequency = r.initialFrequency ∧ r.lastDelta = 0 := by
      rw [← h1]
      exact ⟨rfl, rfl, rfl, rfl⟩
    exact ⟨by omega, hi, fun h => absurd h (by omega), fun h => e.2.1, fun _ => e.2, hwarn⟩
  | succ k =>
    obtain ⟨l1, l2, l3, l4⟩ := loop_control solve n y tol k
      (fitFirst solve n y { freq := r.initialFrequency, a := 0, b := 0, c := 0, converged := decide (((k + 1 : ℕ) : ℤ) = 0), nIterations := 0, lastDelta := 0 })
      (by unfold fitFirst; simp; omega)
    have hz : (fitFirst solve n y { freq := r.initialFrequency, a := 0, b := 0, c := 0, converged := decide (((k + 1 : ℕ) : ℤ) = 0), nIterations := 0, lastDelta := 0 }).nIterations = 0 := rfl
    rw [hz] at l1 l2 l4
    set s := fitLoop solve n y tol (k + 1) (fitFirst solve n y { freq := r.initialFrequency, a := 0, b := 0, c := 0, converged := decide (((k + 1 : ℕ) : ℤ) = 0), nIterations := 0, lastDelta := 0 })
    have e1 : r.nIterations = s.nIterations := by rw [← h1]; rfl
    have e2 : r.converged = s.converged := by rw [← h1]; rfl
    have e3 : r.frequency = s.freq := by rw [← h1]; rfl
    have e4 : r.lastDelta = s.lastDelta := by rw [← h1]; rfl
    refine ⟨by omega, hi, fun _ => ⟨by omega, ?_, ?_, ?_⟩, fun h => ?_, fun h => absurd h (by omega), hwarn⟩
    · rw [e3]; exact lt_of_lt_of_le (by norm_num) l3.lo
    · rw [e3]; exact lt_of_le_of_lt l3.hi (by norm_num)
    · rw [e2, e4]; exact l3.conv
    · rw [e2]; exact l4 (by omega)

/-- **C58 (what the numbers mean).** The fitted signal plus the residuals is the data, the fitted signal is
`amplitude * cos(2 pi f t + phase) + dc_offset`, and `rmse` is the root mean square of the residuals. -/
theorem C58_decomposition (solve : Lstsq) (n : ℕ) (y : ℕ → ℝ) (freqInit : Option ℝ) (maxIter : ℤ) (tol : ℝ) (r : SineFit)
    (h : fitCore solve n y freqInit maxIter tol = .ok r) :
    (∀ t, r.fitted t + r.residuals t = y t) ∧ (∀ t, r.fitted t = sineAt r.amplitude r.frequency r.phase r.dcOffset t) ∧
    0 ≤ r.amplitude ∧ -Real.pi < r.phase ∧ r.phase ≤ Real.pi ∧
    (0 < n → 0 ≤ r.rmse ∧ r.rmse ^ 2 * n = ∑ t ∈ range n, r.residuals t ^ 2) := by
  obtain ⟨h1, _, _⟩ := fit_ok solve n y freqInit maxIter tol r h
  rw [fit_some] at h1
  injection h1 with h1
  generalize (if maxIter < 0 then _ else fitLoop solve n y tol maxIter.toNat _) = s at h1
  generalize r.initialFrequency = f0 at h1
  subst h1
  unfold fitResult
  refine ⟨fun t => ?_, fun t => ?_, Real.sqrt_nonneg _, Complex.neg_pi_lt_arg _, Complex.arg_le_pi _, fun hn => ⟨Real.sqrt_nonneg _, ?_⟩⟩
  · simp
  · simp only
    unfold sineAt fitCos fitSin
    have hnorm : ‖(⟨s.a, -s.b⟩ : ℂ)‖ = Real.sqrt (s.a ^ 2 + s.b ^ 2) := by
      rw [Complex.norm_def, Complex.normSq_apply]
      congr 1
      simp only
      ring
    have hc := Complex.norm_mul_cos_arg (⟨s.a, -s.b⟩ : ℂ)
    have hs := Complex.norm_mul_sin_arg (⟨s.a, -s.b⟩ : ℂ)
    rw [hnorm] at hc hs
    simp only at hc hs
    rw [Real.cos_add]
    linear_combination -(Real.cos (2 * Real.pi * s.freq * t)) * hc + Real.sin (2 * Real.pi * s.freq * t) * hs
  · simp only
    have hnR : (0 : ℝ) < n := by exact_mod_cast hn
    rw [Real.sq_sqrt (div_nonneg (sum_nonneg fun t _ => sq_nonneg _) hnR.le), div_mul_cancel₀ _ hnR.ne']

/-! ## Linear algebra -/

/-- The three-column combination. -/
theorem fit_cols3 (f : ℝ) (x : List ℝ) (t : ℕ) :
    matVec [fitCos f, fitSin f, fun _ => 1] x t = x.getD 0 0 * fitCos f t + x.getD 1 0 * fitSin f t + x.getD 2 0 := by
  unfold matVec
  simp [sum_range_succ]

/-- The four-column combination. -/
theorem fit_cols4 (f : ℝ) (g : ℕ → ℝ) (x : List ℝ) (t : ℕ) :
    matVec [fitCos f, fitSin f, fun _ => 1, g] x t = x.getD 0 0 * fitCos f t + x.getD 1 0 * fitSin f t + x.getD 2 0 + x.getD 3 0 * g t := by
  unfold matVec
  simp [sum_range_succ]

private theorem sin_ne (f : ℝ) (h0 : 0 < f) (h1 : f < 1 / 2) : 0 < Real.sin (2 * Real.pi * f) := by
  have := Real.pi_pos
  exact Real.sin_pos_of_pos_of_lt_pi (by positivity) (by nlinarith)

private theorem cos_ne (f : ℝ) (h0 : 0 < f) (h1 : f < 1 / 2) : Real.cos (2 * Real.pi * f) < 1 := by
  have h := sin_ne f h0 h1
  have h2 := Real.sin_sq_add_cos_sq (2 * Real.pi * f)
  by_contra hc
  have := Real.cos_le_one (2 * Real.pi * f)
  nlinarith

/-- Cosine, sine and constant are independent on three consecutive samples. -/
theorem sine_indep3 (f : ℝ) (h0 : 0 < f) (h1 : f < 1 / 2) (p q r : ℝ) (s : ℕ)
    (h : ∀ t < 3, p * fitCos f (s + t) + q * fitSin f (s + t) + r = 0) : p = 0 ∧ q = 0 ∧ r = 0 := by
  have e0 := h 0 (by norm_num)
  have e1 := h 1 (by norm_num)
  have e2 := h 2 (by norm_num)
  unfold fitCos fitSin at e0 e1 e2
  have hs := sin_ne f h0 h1
  have hc := cos_ne f h0 h1
  push_cast at e0 e1 e2
  rw [add_zero] at e0
  rw [show 2 * Real.pi * f * ((s : ℝ) + 1) = 2 * Real.pi * f * s + 2 * Real.pi * f by ring, Real.cos_add, Real.sin_add] at e1
  rw [show 2 * Real.pi * f * ((s : ℝ) + 2) = (2 * Real.pi * f * s + 2 * Real.pi * f) + 2 * Real.pi * f by ring, Real.cos_add (2 * Real.pi * f * s + 2 * Real.pi * f),
    Real.sin_add (2 * Real.pi * f * s + 2 * Real.pi * f), Real.cos_add, Real.sin_add] at e2
  set c := Real.cos (2 * Real.pi * f)
  set σ := Real.sin (2 * Real.pi * f)
  set u := Real.cos (2 * Real.pi * f * s) with hu
  set v := Real.sin (2 * Real.pi * f * s) with hv
  have hcs : σ ^ 2 + c ^ 2 = 1 := Real.sin_sq_add_cos_sq _
  have huv : v ^ 2 + u ^ 2 = 1 := Real.sin_sq_add_cos_sq _
  have hr : r = 0 := by
    have : r * (2 - 2 * c) = 0 := by linear_combination e2 - 2 * c * e1 + e0 + (p * u + q * v) * hcs
    rcases mul_eq_zero.mp this with h | h
    · exact h
    · linarith
  subst hr
  have hp : p * σ = 0 := by linear_combination (v * c + u * σ) * e0 - v * e1 - p * σ * huv
  have hq : q * σ = 0 := by linear_combination (-(u * c - v * σ)) * e0 + u * e1 - q * σ * huv
  refine ⟨?_, ?_, rfl⟩
  · exact (mul_eq_zero.mp hp).resolve_right hs.ne'
  · exact (mul_eq_zero.mp hq).resolve_right hs.ne'

/-- With the frequency direction they are independent on five samples. -/
theorem sine_indep4 (f : ℝ) (h0 : 0 < f) (h1 : f < 1 / 2) (a b p q r d : ℝ) (hab : a ≠ 0 ∨ b ≠ 0)
    (h : ∀ t < 5, p * fitCos f t + q * fitSin f t + r + d * ((t : ℝ) * (-a * fitSin f t + b * fitCos f t)) = 0) : p = 0 ∧ q = 0 ∧ r = 0 ∧ d = 0 := by
  have hs := sin_ne f h0 h1
  have hc := cos_ne f h0 h1
  have hcs := Real.sin_sq_add_cos_sq (2 * Real.pi * f)
  have k := sine_indep3 f h0 h1 (-2 * d * Real.sin (2 * Real.pi * f) * a) (-2 * d * Real.sin (2 * Real.pi * f) * b) (r * (2 - 2 * Real.cos (2 * Real.pi * f))) 1 (by
    intro t ht
    have e0 := h t (by omega)
    have e1 := h (t + 1) (by omega)
    have e2 := h (t + 2) (by omega)
    unfold fitCos fitSin at e0 e1 e2 ⊢
    push_cast at e0 e1 e2 ⊢
    set w := 2 * Real.pi * f
    have a0 : w * (t : ℝ) = w * (1 + t) - w := by ring
    have a1 : w * ((t : ℝ) + 1) = w * (1 + t) := by ring
    have a2 : w * ((t : ℝ) + 2) = w * (1 + t) + w := by ring
    rw [a0, Real.cos_sub, Real.sin_sub] at e0
    rw [a1] at e1
    rw [a2, Real.cos_add, Real.sin_add] at e2
    set c := Real.cos w
    set σ := Real.sin w
    set u := Real.cos (w * (1 + t))
    set v := Real.sin (w * (1 + t))
    linear_combination e2 - 2 * c * e1 + e0)
  obtain ⟨k1, k2, k3⟩ := k
  have hd : d = 0 := by
    rcases hab with ha | hb
    · rcases mul_eq_zero.mp k1 with h | h
      · rcases mul_eq_zero.mp h with h | h
        · linarith
        · exact absurd h hs.ne'
      · exact absurd h ha
    · rcases mul_eq_zero.mp k2 with h | h
      · rcases mul_eq_zero.mp h with h | h
        · linarith
        · exact absurd h hs.ne'
      · exact absurd h hb
  subst hd
  obtain ⟨h1', h2', h3'⟩ := sine_indep3 f h0 h1 p q r 0 (by
    intro t ht
    have := h t (by omega)
    rw [zero_add]
    linarith)
  exact ⟨h1', h2', h3', rfl⟩

private theorem solve_exact (solve : Lstsq) (hs : IsLstsq solve) (n : ℕ) (A : List (ℕ → ℝ)) (b : ℕ → ℝ) (x : List ℝ)
    (hx : ∀ t < n, matVec A x t = b t) : ∀ t < n, matVec A (solve n A b) t = b t :=
  (residNorm_eq_zero n A _ b).mp (solve_consistent solve hs n A b x hx)

/-- **C58 (least squares).** Without refinement the residuals are the smallest possible at that frequency, and they are orthogonal to the
cosine, the sine and the constant. -/
theorem C58_least_squares (solve : Lstsq) (hs : IsLstsq solve) (n : ℕ) (y : ℕ → ℝ) (f tol : ℝ) (r : SineFit)
    (h : fitCore solve n y (some f) 0 tol = .ok r) :
    (∀ p q c : ℝ, ∑ t ∈ range n, r.residuals t ^ 2 ≤ ∑ t ∈ range n, (y t - (p * Real.cos (2 * Real.pi * f * t) + q * Real.sin (2 * Real.pi * f * t) + c)) ^ 2) ∧
    ∑ t ∈ range n, r.residuals t = 0 ∧ ∑ t ∈ range n, r.residuals t * Real.cos (2 * Real.pi * f * t) = 0 ∧
    ∑ t ∈ range n, r.residuals t * Real.sin (2 * Real.pi * f * t) = 0 := by
  rw [fit_some] at h
  injection h with h
  set x := solve n [fitCos f, fitSin f, fun _ => 1] y with hx
  have hres : ∀ t, r.residuals t = y t - matVec [fitCos f, fitSin f, fun _ => 1] x t := by
    intro t
    rw [fit_cols3, ← h]
    rfl
  have hopt : ∀ p q c : ℝ, ∑ t ∈ range n, r.residuals t ^ 2 ≤ ∑ t ∈ range n, (y t - (p * fitCos f t + q * fitSin f t + c)) ^ 2 := by
    intro p q c
    have := hs.opt n [fitCos f, fitSin f, fun _ => 1] y [p, q, c]
    unfold residNorm at this
    rw [Real.sqrt_le_sqrt_iff (sum_nonneg fun t _ => sq_nonneg _)] at this
    have e1 : ∑ t ∈ range n, r.residuals t ^ 2 = ∑ t ∈ range n, (matVec [fitCos f, fitSin f, fun _ => 1] x t - y t) ^ 2 := by
      apply sum_congr rfl
      intro t _
      rw [hres]
      ring
    have e2 : ∑ t ∈ range n, (y t - (p * fitCos f t + q * fitSin f t + c)) ^ 2 = ∑ t ∈ range n, (matVec [fitCos f, fitSin f, fun _ => 1] [p, q, c] t - y t) ^ 2 := by
      apply sum_congr rfl
      intro t _
      rw [fit_cols3]
      simp only [List.getD_cons_zero, List.getD_cons_succ]
      ring
    rw [e1, e2]
    exact this
  refine ⟨hopt, ?_⟩
  -- a quadratic in the step length that is never below its value at zero has no linear term
  have key : ∀ g : ℕ → ℝ, (∀ s : ℝ, ∃ p q c, ∀ t, y t - (p * fitCos f t + q * fitSin f t + c) = r.residuals t - s * g t) → ∑ t ∈ range n, r.residuals t * g t = 0 := by
    intro g hg
    set L := ∑ t ∈ range n, r.residuals t * g t with hL
    set Q := ∑ t ∈ range n, g t ^ 2 with hQ
    have hQ0 : 0 ≤ Q := sum_nonneg fun t _ => sq_nonneg _
    have hall : ∀ s : ℝ, 0 ≤ -2 * s * L + s ^ 2 * Q := by
      intro s
      obtain ⟨p, q, c, hpq⟩ := hg s
      have := hopt p q c
      have e0 : ∑ t ∈ range n, (y t - (p * fitCos f t + q * fitSin f t + c)) ^ 2 = ∑ t ∈ range n, (r.residuals t - s * g t) ^ 2 :=
        sum_congr rfl fun t _ => by rw [hpq t]
      rw [e0] at this
      have e : ∑ t ∈ range n, (r.residuals t - s * g t) ^ 2 = ∑ t ∈ range n, r.residuals t ^ 2 - 2 * s * L + s ^ 2 * Q := by
        rw [hL, hQ, mul_sum, mul_sum, ← sum_sub_distrib, ← sum_add_distrib]
        apply sum_congr rfl
        intro t _
        ring
      rw [e] at this
      linarith
    by_contra hne
    have hpos : 0 < L ^ 2 := by positivity
    have := hall (L / (Q + 1))
    have hQ1 : 0 < Q + 1 := by linarith
    have e : -2 * (L / (Q + 1)) * L + (L / (Q + 1)) ^ 2 * Q = -(L ^ 2) * (Q + 2) / (Q + 1) ^ 2 := by
      field_simp
      ring
    rw [e] at this
    have : -(L ^ 2) * (Q + 2) / (Q + 1) ^ 2 < 0 := div_neg_of_neg_of_pos (by nlinarith) (by positivity)
    linarith
  have hform : ∀ t, r.residuals t = y t - (x.getD 0 0 * fitCos f t + x.getD 1 0 * fitSin f t + x.getD 2 0) := by
    intro t
    rw [hres, fit_cols3]
  refine ⟨?_, ?_, ?_⟩
  · have := key (fun _ => 1) fun s => ⟨x.getD 0 0, x.getD 1 0, x.getD 2 0 + s, fun t => by rw [hform]; ring⟩
    simpa using this
  · exact key (fitCos f) fun s => ⟨x.getD 0 0 + s, x.getD 1 0, x.getD 2 0, fun t => by rw [hform]; ring⟩
  · exact key (fitSin f) fun s => ⟨x.getD 0 0, x.getD 1 0 + s, x.getD 2 0, fun t => by rw [hform]; ring⟩

/-! ## Exact recovery -/

/-- A sine in its cosine and sine parts. -/
theorem sine_split (A f θ C : ℝ) (t : ℕ) : sineAt A f θ C t = A * Real.cos θ * fitCos f t + -(A * Real.sin θ) * fitSin f t + C := by
  unfold sineAt fitCos fitSin
  rw [Real.cos_add]
  ring

theorem first_exact (solve : Lstsq) (hs : IsLstsq solve) (n : ℕ) (hn : 3 ≤ n) (A f θ C : ℝ) (h0 : 0 < f) (h1 : f < 1 / 2)
    (y : ℕ → ℝ) (hy : ∀ t < n, y t = sineAt A f θ C t) (s : FitState) (hf : s.freq = f) :
    fitFirst solve n y s = { s with a := A * Real.cos θ, b := -(A * Real.sin θ), c := C } := by
  have hex := solve_exact solve hs n [fitCos f, fitSin f, fun _ => 1] y [A * Real.cos θ, -(A * Real.sin θ), C] (by
    intro t ht
    rw [fit_cols3, hy t ht, sine_split]
    simp)
  obtain ⟨e1, e2, e3⟩ := sine_indep3 f h0 h1
    ((solve n [fitCos f, fitSin f, fun _ => 1] y).getD 0 0 - A * Real.cos θ)
    ((solve n [fitCos f, fitSin f, fun _ => 1] y).getD 1 0 - -(A * Real.sin θ))
    ((solve n [fitCos f, fitSin f, fun _ => 1] y).getD 2 0 - C) 0 (by
      intro t ht
      have := hex t (by omega)
      rw [fit_cols3, hy t (by omega), sine_split] at this
      rw [zero_add]
      linarith)
  unfold fitFirst
  rw [hf]
  simp only
  rw [sub_eq_zero.mp e1, sub_eq_zero.mp e2, sub_eq_zero.mp e3]

theorem refine_exact (solve : Lstsq) (hs : IsLstsq solve) (n : ℕ) (hn : 5 ≤ n) (A f θ C : ℝ) (hA : 0 < A) (h0 : 1 / 10 ^ 10 ≤ f) (h1 : f ≤ 1 / 2 - 1 / 10 ^ 10)
    (y : ℕ → ℝ) (hy : ∀ t < n, y t = sineAt A f θ C t) (s : FitState) (hf : s.freq = f) (ha : s.a = A * Real.cos θ) (hb : s.b = -(A * Real.sin θ)) :
    fitRefine solve n y s = { s with c := C, nIterations := s.nIterations + 1, lastDelta := 0 } := by
  have h0' : 0 < f := lt_of_lt_of_le (by norm_num) h0
  have h1' : f < 1 / 2 := lt_of_le_of_lt h1 (by norm_num)
  set corr := fun (t : ℕ) => (t : ℝ) * (-s.a * fitSin s.freq t + s.b * fitCos s.freq t) with hcorr
  have hab : s.a ≠ 0 ∨ s.b ≠ 0 := by
    by_contra hcon
    push Not at hcon
    rw [ha, hb] at hcon
    have h2 := Real.sin_sq_add_cos_sq θ
    have e1 : Real.cos θ = 0 := (mul_eq_zero.mp hcon.1).resolve_left hA.ne'
    have e2 : Real.sin θ = 0 := (mul_eq_zero.mp (neg_eq_zero.mp hcon.2)).resolve_left hA.ne'
    rw [e1, e2] at h2
    norm_num at h2
  have hex := solve_exact solve hs n [fitCos s.freq, fitSin s.freq, fun _ => 1, corr] y [A * Real.cos θ, -(A * Real.sin θ), C, 0] (by
    intro t ht
    rw [fit_cols4, hy t ht, sine_split, hf]
    simp)
  set x := solve n [fitCos s.freq, fitSin s.freq, fun _ => 1, corr] y with hx
  obtain ⟨e1, e2, e3, e4⟩ := sine_indep4 f h0' h1' s.a s.b (x.getD 0 0 - A * Real.cos θ) (x.getD 1 0 - -(A * Real.sin θ)) (x.getD 2 0 - C) (x.getD 3 0) hab (by
    intro t ht
    have := hex t (by omega)
    rw [fit_cols4, hy t (by omega), sine_split, hcorr, hf] at this
    simp only at this
    linarith)
  unfold fitRefine
  simp only
  rw [← hcorr, ← hx, e4, zero_div, add_zero, hf, clip_of_mem h0 h1, sub_eq_zero.mp e1, sub_eq_zero.mp e2, sub_eq_zero.mp e3, ← ha, ← hb]
private theorem loop_exact (solve : Lstsq) (hs : IsLstsq solve) (n : ℕ) (hn : 5 ≤ n) (A f θ C : ℝ) (hA : 0 < A) (h0 : 1 / 10 ^ 10 ≤ f) (h1 : f ≤ 1 / 2 - 1 / 10 ^ 10)
    (y : ℕ → ℝ) (hy : ∀ t < n, y t = sineAt A f θ C t) (tol : ℝ) (k : ℕ) :
    ∀ s : FitState, s.freq = f → s.a = A * Real.cos θ → s.b = -(A * Real.sin θ) → s.c = C → s.lastDelta = 0 →
      (fitLoop solve n y tol k s).freq = f ∧ (fitLoop solve n y tol k s).a = A * Real.cos θ ∧ (fitLoop solve n y tol k s).b = -(A * Real.sin θ) ∧
      (fitLoop solve n y tol k s).c = C ∧ (fitLoop solve n y tol k s).lastDelta = 0 ∧ (0 < tol → 0 < k → (fitLoop solve n y tol k s).converged = true ∧
        (fitLoop solve n y tol k s).nIterations = s.nIterations + 1) := by
  induction k with
  | zero =>
    intro s hf ha hb hc hd
    exact ⟨hf, ha, hb, hc, hd, fun _ h => absurd h (by omega)⟩
  | succ k ih =>
    intro s hf ha hb hc hd
    unfold fitLoop
    rw [refine_exact solve hs n hn A f θ C hA h0 h1 y hy s hf ha hb]
    simp only [abs_zero]
    by_cases ht : 0 < tol
    · rw [if_pos ht]
      exact ⟨hf, ha, hb, rfl, rfl, fun _ _ => ⟨rfl, rfl⟩⟩
    · rw [if_neg ht]
      obtain ⟨i1, i2, i3, i4, i5, _⟩ := ih { s with c := C, nIterations := s.nIterations + 1, lastDelta := 0 } hf ha hb rfl rfl
      exact ⟨i1, i2, i3, i4, i5, fun h => absurd h ht⟩

theorem arg_exact (A θ : ℝ) (hA : 0 < A) (ht0 : -Real.pi < θ) (ht1 : θ ≤ Real.pi) :
    Real.sqrt ((A * Real.cos θ) ^ 2 + (-(A * Real.sin θ)) ^ 2) = A ∧ Complex.arg ⟨A * Real.cos θ, -(-(A * Real.sin θ))⟩ = θ := by
  constructor
  · have : (A * Real.cos θ) ^ 2 + (-(A * Real.sin θ)) ^ 2 = A ^ 2 := by
      have := Real.sin_sq_add_cos_sq θ
      linear_combination A ^ 2 * this
    rw [this, Real.sqrt_sq hA.le]
  · have := Complex.arg_mul_cos_add_sin_mul_I hA ⟨ht0, ht1⟩
    refine Eq.trans ?_ this
    congr 1
    apply Complex.ext <;> simp [← Complex.ofReal_cos, ← Complex.ofReal_sin]

/-- The error has no part in common with the sine family around frequency `f`: neither with the offset, the cosine and the sine, nor with
the two directions in which a change of frequency moves them. -/
def Spec.Unfittable (n : ℕ) (f : ℝ) (e : ℕ → ℝ) : Prop :=
  ∑ t ∈ range n, e t = 0 ∧ ∑ t ∈ range n, e t * Real.cos (2 * Real.pi * f * t) = 0 ∧ ∑ t ∈ range n, e t * Real.sin (2 * Real.pi * f * t) = 0 ∧
  ∑ t ∈ range n, e t * (t * Real.cos (2 * Real.pi * f * t)) = 0 ∧ ∑ t ∈ range n, e t * (t * Real.sin (2 * Real.pi * f * t)) = 0

private theorem first_proj (solve : Lstsq) (hs : IsLstsq solve) (n : ℕ) (hn : 3 ≤ n) (A f θ C : ℝ) (h0 : 0 < f) (h1 : f < 1 / 2)
    (y e : ℕ → ℝ) (hy : ∀ t < n, y t = sineAt A f θ C t + e t) (e0 : ∑ t ∈ range n, e t = 0)
    (e1 : ∑ t ∈ range n, e t * fitCos f t = 0) (e2 : ∑ t ∈ range n, e t * fitSin f t = 0) (s : FitState) (hf : s.freq = f) :
    fitFirst solve n y s = { s with a := A * Real.cos θ, b := -(A * Real.sin θ), c := C } := by
  have hex := lstsq_projection solve hs n [fitCos f, fitSin f, fun _ => 1] y e [A * Real.cos θ, -(A * Real.sin θ), C] rfl
    (by
      intro t ht
      rw [fit_cols3, hy t ht, sine_split]
      simp)
    (by
      intro j hj
      simp only [List.length_cons, List.length_nil] at hj
      interval_cases j
      · exact e1
      · exact e2
      · simpa using e0)
  obtain ⟨z1, z2, z3⟩ := sine_indep3 f h0 h1
    ((solve n [fitCos f, fitSin f, fun _ => 1] y).getD 0 0 - A * Real.cos θ)
    ((solve n [fitCos f, fitSin f, fun _ => 1] y).getD 1 0 - -(A * Real.sin θ))
    ((solve n [fitCos f, fitSin f, fun _ => 1] y).getD 2 0 - C) 0 (by
      intro t ht
      have := hex t (by omega)
      rw [fit_cols3, fit_cols3] at this
      simp only [List.getD_cons_zero, List.getD_cons_succ] at this
      rw [zero_add]
      linarith)
  unfold fitFirst
  rw [hf]
  simp only
  rw [sub_eq_zero.mp z1, sub_eq_zero.mp z2, sub_eq_zero.mp z3]

private theorem refine_proj (solve : Lstsq) (hs : IsLstsq solve) (n : ℕ) (hn : 5 ≤ n) (A f θ C : ℝ) (hA : 0 < A) (h0 : 1 / 10 ^ 10 ≤ f) (h1 : f ≤ 1 / 2 - 1 / 10 ^ 10)
    (y e : ℕ → ℝ) (hy : ∀ t < n, y t = sineAt A f θ C t + e t) (he : Spec.Unfittable n f e) (s : FitState) (hf : s.freq = f)
    (ha : s.a = A * Real.cos θ) (hb : s.b = -(A * Real.sin θ)) :
    fitRefine solve n y s = { s with c := C, nIterations := s.nIterations + 1, lastDelta := 0 } := by
  obtain ⟨e0, e1, e2, e3, e4⟩ := he
  have h0' : 0 < f := lt_of_lt_of_le (by norm_num) h0
  have h1' : f < 1 / 2 := lt_of_le_of_lt h1 (by norm_num)
  set corr := fun (t : ℕ) => (t : ℝ) * (-s.a * fitSin s.freq t + s.b * fitCos s.freq t) with hcorr
  have hab : s.a ≠ 0 ∨ s.b ≠ 0 := by
    by_contra hcon
    push Not at hcon
    rw [ha, hb] at hcon
    have h2 := Real.sin_sq_add_cos_sq θ
    have e1 : Real.cos θ = 0 := (mul_eq_zero.mp hcon.1).resolve_left hA.ne'
    have e2 : Real.sin θ = 0 := (mul_eq_zero.mp (neg_eq_zero.mp hcon.2)).resolve_left hA.ne'
    rw [e1, e2] at h2
    norm_num at h2
  have hex := lstsq_projection solve hs n [fitCos s.freq, fitSin s.freq, fun _ => 1, corr] y e [A * Real.cos θ, -(A * Real.sin θ), C, 0] rfl
    (by
      intro t ht
      rw [fit_cols4, hy t ht, sine_split, hf]
      simp)
    (by
      intro j hj
      simp only [List.length_cons, List.length_nil] at hj
      interval_cases j
      · rw [hf]; exact e1
      · rw [hf]; exact e2
      · simpa using e0
      · show ∑ t ∈ range n, e t * corr t = 0
        have : ∀ t ∈ range n, e t * corr t = -s.a * (e t * (t * Real.sin (2 * Real.pi * f * t))) + s.b * (e t * (t * Real.cos (2 * Real.pi * f * t))) := by
          intro t _
          rw [hcorr, hf]
          unfold fitCos fitSin
          ring
        rw [sum_congr rfl this, sum_add_distrib, ← mul_sum, ← mul_sum, e3, e4]
        ring)
  set x := solve n [fitCos s.freq, fitSin s.freq, fun _ => 1, corr] y with hx
  obtain ⟨z1, z2, z3, z4⟩ := sine_indep4 f h0' h1' s.a s.b (x.getD 0 0 - A * Real.cos θ) (x.getD 1 0 - -(A * Real.sin θ)) (x.getD 2 0 - C) (x.getD 3 0) hab (by
    intro t ht
    have := hex t (by omega)
    rw [fit_cols4, fit_cols4, hcorr, hf] at this
    simp only [List.getD_cons_zero, List.getD_cons_succ] at this
    linarith)
  unfold fitRefine
  simp only
  rw [← hcorr, ← hx, z4, zero_div, add_zero, hf, clip_of_mem h0 h1, sub_eq_zero.mp z1, sub_eq_zero.mp z2, sub_eq_zero.mp z3, ← ha, ← hb]

private theorem loop_proj (solve : Lstsq) (hs : IsLstsq solve) (n : ℕ) (hn : 5 ≤ n) (A f θ C : ℝ) (hA : 0 < A) (h0 : 1 / 10 ^ 10 ≤ f) (h1 : f ≤ 1 / 2 - 1 / 10 ^ 10)
    (y e : ℕ → ℝ) (hy : ∀ t < n, y t = sineAt A f θ C t + e t) (he : Spec.Unfittable n f e) (tol : ℝ) (k : ℕ) :
    ∀ s : FitState, s.freq = f → s.a = A * Real.cos θ → s.b = -(A * Real.sin θ) → s.c = C →
      (fitLoop solve n y tol k s).freq = f ∧ (fitLoop solve n y tol k s).a = A * Real.cos θ ∧ (fitLoop solve n y tol k s).b = -(A * Real.sin θ) ∧
      (fitLoop solve n y tol k s).c = C := by
  induction k with
  | zero =>
    intro s hf ha hb hc
    exact ⟨hf, ha, hb, hc⟩
  | succ k ih =>
    intro s hf ha hb hc
    unfold fitLoop
    rw [refine_proj solve hs n hn A f θ C hA h0 h1 y e hy he s hf ha hb]
    simp only [abs_zero]
    by_cases ht : 0 < tol
    · rw [if_pos ht]
      exact ⟨hf, ha, hb, rfl⟩
    · rw [if_neg ht]
      exact ih { s with c := C, nIterations := s.nIterations + 1, lastDelta := 0 } hf ha hb rfl

/-- **C58 (sine plus error).** Started at the frequency of the sine, the fit splits sine plus error exactly: it returns the parameters of the
sine, and the residuals are the error. Without refinement the error has to be orthogonal to the offset, the cosine and the sine; with
refinement also to the two directions of a frequency change. -/
theorem C58_sine_plus_error (solve : Lstsq) (hs : IsLstsq solve) (n : ℕ) (hn : 5 ≤ n) (A f θ C : ℝ) (hA : 0 < A)
    (h0 : 1 / 10 ^ 10 ≤ f) (h1 : f ≤ 1 / 2 - 1 / 10 ^ 10) (ht0 : -Real.pi < θ) (ht1 : θ ≤ Real.pi) (maxIter : ℕ) (tol : ℝ)
    (y e : ℕ → ℝ) (hy : ∀ t < n, y t = sineAt A f θ C t + e t)
    (e0 : ∑ t ∈ range n, e t = 0) (e1 : ∑ t ∈ range n, e t * Real.cos (2 * Real.pi * f * t) = 0)
    (e2 : ∑ t ∈ range n, e t * Real.sin (2 * Real.pi * f * t) = 0) (he : 0 < maxIter → Spec.Unfittable n f e) :
    ∃ r, fitCore solve n y (some f) maxIter tol = .ok r ∧ r.frequency = f ∧ r.amplitude = A ∧ r.phase = θ ∧ r.dcOffset = C ∧
      (∀ t < n, r.fitted t = sineAt A f θ C t ∧ r.residuals t = e t) ∧ r.rmse = Real.sqrt ((∑ t ∈ range n, e t ^ 2) / n) := by
  have h0' : 0 < f := lt_of_lt_of_le (by norm_num) h0
  have h1' : f < 1 / 2 := lt_of_le_of_lt h1 (by norm_num)
  rw [fit_some]
  simp only
  rw [if_neg (by omega), Int.toNat_natCast, first_proj solve hs n (by omega) A f θ C h0' h1' y e hy e0 e1 e2 _ rfl]
  have hloop : ∀ s : FitState, s.freq = f → s.a = A * Real.cos θ → s.b = -(A * Real.sin θ) → s.c = C →
      (fitLoop solve n y tol maxIter s).freq = f ∧ (fitLoop solve n y tol maxIter s).a = A * Real.cos θ ∧
      (fitLoop solve n y tol maxIter s).b = -(A * Real.sin θ) ∧ (fitLoop solve n y tol maxIter s).c = C := by
    rcases Nat.eq_zero_or_pos maxIter with hm | hm
    · subst hm
      exact fun s a b c d => ⟨a, b, c, d⟩
    · exact loop_proj solve hs n hn A f θ C hA h0 h1 y e hy (he hm) tol maxIter
  obtain ⟨i1, i2, i3, i4⟩ := hloop
    { freq := f, a := A * Real.cos θ, b := -(A * Real.sin θ), c := C, converged := decide ((maxIter : ℤ) = 0), nIterations := 0, lastDelta := 0 } rfl rfl rfl rfl
  set s := fitLoop solve n y tol maxIter
    { freq := f, a := A * Real.cos θ, b := -(A * Real.sin θ), c := C, converged := decide ((maxIter : ℤ) = 0), nIterations := 0, lastDelta := 0 }
  obtain ⟨hamp, harg⟩ := arg_exact A θ hA ht0 ht1
  have hfit : ∀ t, s.a * fitCos s.freq t + s.b * fitSin s.freq t + s.c = sineAt A f θ C t := by
    intro t
    rw [i1, i2, i3, i4, sine_split]
  refine ⟨_, rfl, i1, ?_, ?_, i4, ?_, ?_⟩
  · show Real.sqrt (s.a ^ 2 + s.b ^ 2) = A
    rw [i2, i3, hamp]
  · show Complex.arg ⟨s.a, -s.b⟩ = θ
    rw [i2, i3, harg]
  · intro t ht
    refine ⟨hfit t, ?_⟩
    show y t - (s.a * fitCos s.freq t + s.b * fitSin s.freq t + s.c) = e t
    rw [hfit t, hy t ht]
    ring
  · show Real.sqrt ((∑ t ∈ range n, (y t - (s.a * fitCos s.freq t + s.b * fitSin s.freq t + s.c)) ^ 2) / n) = _
    rw [sum_congr rfl fun t ht => by rw [hfit t, hy t (mem_range.mp ht), add_sub_cancel_left]]

/-- An error of 1, -2, 1 at samples 0, 4, 8 escapes the fit of a sine at a quarter of the sample rate, with refinement too. -/
example (solve : Lstsq) (hs : IsLstsq solve) : ∃ r, fitCore solve 9 (fun t => sineAt 3 (1 / 4) 1 2 t + (if t = 0 ∨ t = 8 then 1 else if t = 4 then -2 else 0)) (some (1 / 4)) (5 : ℕ) 0 = .ok r ∧
    r.amplitude = 3 ∧ r.phase = 1 ∧ r.dcOffset = 2 ∧ r.residuals 4 = -2 := by
  have hc4 : Real.cos (2 * Real.pi * (1 / 4) * ((4 : ℕ) : ℝ)) = 1 := by
    rw [show 2 * Real.pi * (1 / 4) * ((4 : ℕ) : ℝ) = 2 * Real.pi by push_cast; ring, Real.cos_two_pi]
  have hc8 : Real.cos (2 * Real.pi * (1 / 4) * ((8 : ℕ) : ℝ)) = 1 := by
    rw [show 2 * Real.pi * (1 / 4) * ((8 : ℕ) : ℝ) = ((2 : ℕ) : ℝ) * (2 * Real.pi) by push_cast; ring, Real.cos_nat_mul_two_pi]
  have hs4 : Real.sin (2 * Real.pi * (1 / 4) * ((4 : ℕ) : ℝ)) = 0 := by
    rw [show 2 * Real.pi * (1 / 4) * ((4 : ℕ) : ℝ) = ((2 : ℕ) : ℝ) * Real.pi by push_cast; ring, Real.sin_nat_mul_pi]
  have hs8 : Real.sin (2 * Real.pi * (1 / 4) * ((8 : ℕ) : ℝ)) = 0 := by
    rw [show 2 * Real.pi * (1 / 4) * ((8 : ℕ) : ℝ) = ((4 : ℕ) : ℝ) * Real.pi by push_cast; ring, Real.sin_nat_mul_pi]
  have hu : Spec.Unfittable 9 (1 / 4) (fun t => if t = 0 ∨ t = 8 then 1 else if t = 4 then -2 else 0) := by
    have key : ∀ g : ℕ → ℝ, ∑ t ∈ range 9, (if t = 0 ∨ t = 8 then (1 : ℝ) else if t = 4 then -2 else 0) * g t = g 0 - 2 * g 4 + g 8 := by
      intro g
      simp [sum_range_succ]
      ring
    unfold Spec.Unfittable
    refine ⟨?_, ?_, ?_, ?_, ?_⟩
    · have := key fun _ => 1
      simp only [mul_one] at this
      rw [this]
      norm_num
    all_goals
      rw [key]
      simp only [hc4, hc8, hs4, hs8, Nat.cast_zero, mul_zero, Real.cos_zero, Real.sin_zero]
      norm_num
  obtain ⟨r, h1, _, h3, h4, h5, h6, _⟩ := C58_sine_plus_error solve hs 9 (by norm_num) 3 (1 / 4) 1 2 (by norm_num) (by norm_num) (by norm_num)
    (by linarith [Real.two_le_pi]) (by linarith [Real.two_le_pi]) 5 0 _ _ (fun t _ => rfl) hu.1 hu.2.1 hu.2.2.1 (fun _ => hu)
  exact ⟨r, h1, h3, h4, h5, by rw [(h6 4 (by norm_num)).2]; norm_num⟩

/-- **C58 (exact recovery).** A noise-free sine fitted from its own frequency is recovered exactly: frequency, amplitude, phase and offset
are the true ones, the residuals are zero, and with a positive tolerance the refinement stops after one step as converged. -/
theorem C58_exact_recovery (solve : Lstsq) (hs : IsLstsq solve) (n : ℕ) (hn : 5 ≤ n) (A f θ C : ℝ) (hA : 0 < A)
    (h0 : 1 / 10 ^ 10 ≤ f) (h1 : f ≤ 1 / 2 - 1 / 10 ^ 10) (ht0 : -Real.pi < θ) (ht1 : θ ≤ Real.pi) (maxIter : ℕ) (tol : ℝ)
    (y : ℕ → ℝ) (hy : ∀ t < n, y t = sineAt A f θ C t) :
    ∃ r, fitCore solve n y (some f) maxIter tol = .ok r ∧ r.frequency = f ∧ r.amplitude = A ∧ r.phase = θ ∧ r.dcOffset = C ∧ r.lastDelta = 0 ∧
      (∀ t < n, r.fitted t = y t ∧ r.residuals t = 0) ∧ r.rmse = 0 ∧
      (0 < tol → r.converged = true ∧ r.nIterations = min maxIter 1 ∧ r.warned = false) := by
  have h0' : 0 < f := lt_of_lt_of_le (by norm_num) h0
  have h1' : f < 1 / 2 := lt_of_le_of_lt h1 (by norm_num)
  rw [fit_some]
  simp only
  rw [if_neg (by omega), Int.toNat_natCast, first_exact solve hs n (by omega) A f θ C h0' h1' y hy _ rfl]
  obtain ⟨i1, i2, i3, i4, i5, i6⟩ := loop_exact solve hs n hn A f θ C hA h0 h1 y hy tol maxIter
    { freq := f, a := A * Real.cos θ, b := -(A * Real.sin θ), c := C, converged := decide ((maxIter : ℤ) = 0), nIterations := 0, lastDelta := 0 } rfl rfl rfl rfl rfl
  have i7 : maxIter = 0 → (fitLoop solve n y tol maxIter
      { freq := f, a := A * Real.cos θ, b := -(A * Real.sin θ), c := C, converged := decide ((maxIter : ℤ) = 0), nIterations := 0, lastDelta := 0 }).converged = true ∧
      (fitLoop solve n y tol maxIter { freq := f, a := A * Real.cos θ, b := -(A * Real.sin θ), c := C, converged := decide ((maxIter : ℤ) = 0), nIterations := 0, lastDelta := 0 }).nIterations = 0 := by
    rintro rfl
    exact ⟨rfl, rfl⟩
  set s := fitLoop solve n y tol maxIter
    { freq := f, a := A * Real.cos θ, b := -(A * Real.sin θ), c := C, converged := decide ((maxIter : ℤ) = 0), nIterations := 0, lastDelta := 0 }
  obtain ⟨hamp, harg⟩ := arg_exact A θ hA ht0 ht1
  have hfit : ∀ t < n, s.a * fitCos s.freq t + s.b * fitSin s.freq t + s.c = y t := by
    intro t ht
    rw [i1, i2, i3, i4, hy t ht, sine_split]
  refine ⟨_, rfl, i1, ?_, ?_, i4, i5, ?_, ?_, ?_⟩
  · show Real.sqrt (s.a ^ 2 + s.b ^ 2) = A
    rw [i2, i3, hamp]
  · show Complex.arg ⟨s.a, -s.b⟩ = θ
    rw [i2, i3, harg]
  · intro t ht
    refine ⟨hfit t ht, ?_⟩
    show y t - (s.a * fitCos s.freq t + s.b * fitSin s.freq t + s.c) = 0
    rw [hfit t ht, sub_self]
  · show Real.sqrt ((∑ t ∈ range n, (y t - (s.a * fitCos s.freq t + s.b * fitSin s.freq t + s.c)) ^ 2) / n) = 0
    rw [sum_eq_zero, zero_div, Real.sqrt_zero]
    intro t ht
    rw [hfit t (mem_range.mp ht), sub_self]
    norm_num
  · intro htol
    rcases Nat.eq_zero_or_pos maxIter with hm | hm
    · obtain ⟨j1, j2⟩ := i7 hm
      refine ⟨j1, ?_, ?_⟩
      · show s.nIterations = _
        rw [j2, hm]
        rfl
      · show (decide (0 < (maxIter : ℤ)) && !s.converged) = false
        rw [j1]
        simp
    · obtain ⟨j1, j2⟩ := i6 htol hm
      refine ⟨j1, ?_, ?_⟩
      · show s.nIterations = _
        rw [j2]
        simp only
        omega
      · show (decide (0 < (maxIter : ℤ)) && !s.converged) = false
        rw [j1]
        simp

/-! ## The automatic frequency estimate -/

theorem argmax_range (m : ℕ) (hm : 0 < m) (g : ℕ → ℝ) : argmax ((List.range m).map g) < m ∧ ∀ j < m, g j ≤ g (argmax ((List.range m).map g)) := by
  have hne : (List.range m).map g ≠ [] := by simp; omega
  have hlt := argmax_lt _ hne
  have hlt' : argmax ((List.range m).map g) < m := by simpa using hlt
  refine ⟨hlt', ?_⟩
  intro j hj
  have := argmax_max ((List.range m).map g) (g (argmax ((List.range m).map g))) (by rw [List.getElem?_eq_getElem hlt]; simp)
  exact this (g j) (List.mem_map.mpr ⟨j, List.mem_range.mpr hj, rfl⟩)

/-- **C58 (automatic estimate).** Without a frequency the starting point is within half a bin of a bin of largest magnitude (DC excluded), and
lies in `[0, 1/2)`. It fails only for fewer than two samples, with `ValueError`. -/
theorem C58_estimate (n : ℕ) (y : ℕ → ℝ) :
    (n < 2 → estimateFreq n y = .error .valueError) ∧
    (2 ≤ n → ∃ f, estimateFreq n y = .ok f ∧ 0 ≤ f ∧ f < 1 / 2 ∧
      ∃ k < n / 2, |f * n - k| ≤ 1 / 2 ∧ ∀ j, 0 < j → j < n / 2 → k ≠ 0 ∧ ‖dft n (fun t => (y t : ℂ)) j‖ ≤ ‖dft n (fun t => (y t : ℂ)) k‖ ∨
        (k = 0 ∧ ‖dft n (fun t => (y t : ℂ)) j‖ = 0)) := by
  constructor
  · intro h
    unfold estimateFreq
    rw [if_pos h]
  · intro h
    unfold estimateFreq
    rw [if_neg (by omega)]
    obtain ⟨hk, hmax⟩ := argmax_range (n / 2) (by omega) (fitSpec n y)
    simp only
    set k := argmax ((List.range (n / 2)).map (fitSpec n y))
    have hnR : (0 : ℝ) < n := by exact_mod_cast (by omega : 0 < n)
    have hnn : ∀ j, 0 ≤ fitSpec n y j := by
      intro j
      unfold fitSpec
      split_ifs
      · exact le_rfl
      · exact norm_nonneg _
    have hpeak : ∀ j, 0 < j → j < n / 2 → k ≠ 0 ∧ ‖dft n (fun t => (y t : ℂ)) j‖ ≤ ‖dft n (fun t => (y t : ℂ)) k‖ ∨ (k = 0 ∧ ‖dft n (fun t => (y t : ℂ)) j‖ = 0) := by
      intro j hj0 hj
      have := hmax j hj
      unfold fitSpec at this
      rw [if_neg hj0.ne'] at this
      by_cases hk0 : k = 0
      · right
        rw [if_pos hk0] at this
        exact ⟨hk0, le_antisymm this (norm_nonneg _)⟩
      · left
        rw [if_neg hk0] at this
        exact ⟨hk0, this⟩
    have h2 : (2 : ℝ) * k + 2 ≤ n := by
      have : 2 * k + 2 ≤ n := by omega
      exact_mod_cast this
    have hk0 : (0 : ℝ) ≤ k := by positivity
    by_cases hint : 0 < k ∧ k + 1 < n / 2
    · rw [if_pos hint]
      have hk1 : (1 : ℝ) ≤ k := by exact_mod_cast hint.1
      have hhalf : ∀ j, j < n / 2 → 0 ≤ fitSpec n y j / (fitSpec n y k + fitSpec n y j) ∧ fitSpec n y j / (fitSpec n y k + fitSpec n y j) ≤ 1 / 2 := by
        intro j hj
        have h3 := hmax j hj
        have h4 := hnn j
        have h5 := hnn k
        refine ⟨div_nonneg h4 (by linarith), ?_⟩
        rcases (add_nonneg h5 h4).eq_or_lt with h6 | h6
        · rw [← h6, div_zero]; norm_num
        · rw [div_le_iff₀ h6]; linarith
      set δ := (if fitSpec n y (k - 1) < fitSpec n y (k + 1) then fitSpec n y (k + 1) / (fitSpec n y k + fitSpec n y (k + 1))
        else -(fitSpec n y (k - 1) / (fitSpec n y k + fitSpec n y (k - 1)))) with hδ
      have hδb : |δ| ≤ 1 / 2 := by
        rw [hδ, abs_le]
        split_ifs
        · have := hhalf (k + 1) (by omega)
          constructor <;> linarith
        · have := hhalf (k - 1) (by omega)
          constructor <;> linarith
      have hb := abs_le.mp hδb
      refine ⟨_, rfl, div_nonneg (by linarith) hnR.le, ?_, k, hk, ?_, hpeak⟩
      · rw [div_lt_iff₀ hnR]
        linarith
      · rw [div_mul_cancel₀ _ hnR.ne', add_sub_cancel_left]
        exact hδb
    · rw [if_neg hint]
      refine ⟨_, rfl, div_nonneg hk0 hnR.le, ?_, k, hk, ?_, hpeak⟩
      · rw [div_lt_iff₀ hnR]
        linarith
      · rw [div_mul_cancel₀ _ hnR.ne', sub_self, abs_zero]
        norm_num

theorem spec_sine (n k : ℕ) (hk : 0 < k) (hkn : 2 * k < n) (A θ C : ℝ) (hA : 0 < A) (y : ℕ → ℝ) (hy : ∀ t < n, y t = sineAt A ((k : ℝ) / n) θ C t)
    (j : ℕ) (hj : j < n / 2) : fitSpec n y j = if j = k then A * n / 2 else 0 := by
  unfold fitSpec
  by_cases hj0 : j = 0
  · rw [if_pos hj0, if_neg (by omega)]
  rw [if_neg hj0]
  have hn : n ≠ 0 := by omega
  have e : dft n (fun t => (y t : ℂ)) j = dft n (fun t => ((A * Real.cos (2 * Real.pi * (k * t / n) + θ) * (1 : ℝ) : ℝ) : ℂ)) j + dft n (fun _ => (C : ℂ)) j := by
    unfold dft
    rw [← sum_add_distrib]
    apply sum_congr rfl
    intro t ht
    beta_reduce
    rw [hy t (mem_range.mp ht)]
    unfold sineAt
    rw [show 2 * Real.pi * ((k : ℝ) / n) * t + θ = 2 * Real.pi * (k * t / n) + θ by ring]
    push_cast
    ring
  have hones : ∀ m : ℤ, dft n (fun _ => ((1 : ℝ) : ℂ)) m = if (n : ℤ) ∣ -m then (n : ℂ) else 0 := by
    intro m
    rw [← sum_cis n hn (-m)]
    unfold dft
    apply sum_congr rfl
    intro t _
    rw [Complex.ofReal_one, one_mul]
    congr 1
    push_cast
    ring
  have hC : dft n (fun _ => (C : ℂ)) j = 0 := by
    have : dft n (fun _ => (C : ℂ)) j = C * dft n (fun _ => ((1 : ℝ) : ℂ)) j := by
      unfold dft
      rw [mul_sum]
      apply sum_congr rfl
      intro t _
      rw [Complex.ofReal_one, one_mul]
    rw [this, hones, if_neg, mul_zero]
    intro hd
    have := Int.le_of_dvd (by omega) (Int.dvd_neg.mp hd)
    omega
  rw [e, hC, add_zero, dft_tone n k A θ (fun _ => 1) j, hones, hones]
  have hplus : ¬ (n : ℤ) ∣ -((j : ℤ) + k) := by
    intro hd
    have := Int.le_of_dvd (by omega) (Int.dvd_neg.mp hd)
    omega
  rw [if_neg hplus, mul_zero, add_zero]
  by_cases hjk : j = k
  · subst hjk
    rw [sub_self, neg_zero, if_pos (dvd_zero _), if_pos rfl]
    rw [norm_mul, norm_mul, Complex.norm_exp_ofReal_mul_I, mul_one]
    simp only [norm_div, Complex.norm_real, Complex.norm_natCast, Complex.norm_ofNat, Real.norm_eq_abs, abs_of_pos hA]
    ring
  · rw [if_neg, mul_zero, norm_zero, if_neg hjk]
    intro hd
    obtain ⟨c, hc⟩ := hd
    have : c = 0 := by
      by_contra hne
      have hc1 : 1 ≤ |c| := Int.one_le_abs hne
      have habs : |(n : ℤ) * c| < n := by
        rw [← hc, abs_lt]
        constructor <;> omega
      rw [abs_mul] at habs
      have h5 : |(n : ℤ)| = n := abs_of_nonneg (by positivity)
      rw [h5] at habs
      nlinarith
    rw [this, mul_zero] at hc
    omega

theorem estimate_exact (n k : ℕ) (hk : 0 < k) (hkn : 2 * k < n) (A θ C : ℝ) (hA : 0 < A) (y : ℕ → ℝ) (hy : ∀ t < n, y t = sineAt A ((k : ℝ) / n) θ C t)
    (hlast : k < n / 2) : estimateFreq n y = .ok ((k : ℝ) / n) := by
  have hsp := spec_sine n k hk hkn A θ C hA y hy
  obtain ⟨hm, hmax⟩ := argmax_range (n / 2) (by omega) (fitSpec n y)
  have hnR : (0 : ℝ) < n := by exact_mod_cast (by omega : 0 < n)
  have hkk : argmax ((List.range (n / 2)).map (fitSpec n y)) = k := by
    by_contra hne
    have := hmax k hlast
    rw [hsp k hlast, hsp _ hm, if_pos rfl, if_neg hne] at this
    have : 0 < A * n / 2 := by positivity
    linarith
  unfold estimateFreq
  rw [if_neg (by omega)]
  simp only
  rw [hkk]
  by_cases hint : 0 < k ∧ k + 1 < n / 2
  · rw [if_pos hint, hsp (k - 1) (by omega), hsp (k + 1) (by omega), if_neg (by omega : k - 1 ≠ k), if_neg (by omega : k + 1 ≠ k), if_neg (lt_irrefl _)]
    simp
  · rw [if_neg hint]

/-- **C58 (coherent record).** A noise-free sine with a whole number `k` of periods in the record is recovered exactly without any frequency
argument. -/
theorem C58_coherent_recovery (solve : Lstsq) (hs : IsLstsq solve) (n k : ℕ) (hn : 5 ≤ n) (hbig : n ≤ 10 ^ 9) (hk : 0 < k) (hlast : k < n / 2) (A θ C : ℝ) (hA : 0 < A)
    (ht0 : -Real.pi < θ) (ht1 : θ ≤ Real.pi) (maxIter : ℕ) (tol : ℝ) (y : ℕ → ℝ) (hy : ∀ t < n, y t = sineAt A ((k : ℝ) / n) θ C t) :
    ∃ r, fitCore solve n y none maxIter tol = .ok r ∧ r.frequency = (k : ℝ) / n ∧ r.amplitude = A ∧ r.phase = θ ∧ r.dcOffset = C ∧
      (∀ t < n, r.fitted t = y t ∧ r.residuals t = 0) ∧ r.rmse = 0 ∧ (0 < tol → r.converged = true ∧ r.warned = false) := by
  have hkn : 2 * k < n := by omega
  have hnR : (0 : ℝ) < n := by exact_mod_cast (by omega : 0 < n)
  have hb : (n : ℝ) ≤ 10 ^ 9 := by exact_mod_cast hbig
  have hk1 : (1 : ℝ) ≤ k := by exact_mod_cast hk
  have hk2 : (2 : ℝ) * k + 1 ≤ n := by exact_mod_cast hkn
  have e : fitCore solve n y none maxIter tol = fitCore solve n y (some ((k : ℝ) / n)) maxIter tol := by
    unfold fitCore
    rw [estimate_exact n k hk hkn A θ C hA y hy hlast]
  obtain ⟨r, h1, h2, h3, h4, h5, _, h6, h7, h8⟩ := C58_exact_recovery solve hs n hn A ((k : ℝ) / n) θ C hA
    (by rw [div_le_div_iff₀ (by norm_num) hnR]; nlinarith)
    (by rw [div_le_iff₀ hnR]; nlinarith) ht0 ht1 maxIter tol y hy
  exact ⟨r, by rw [e]; exact h1, h2, h3, h4, h5, h6, h7, fun ht => ⟨(h8 ht).1, (h8 ht).2.2⟩⟩

/-- **C58 (`estimate_frequency`).** For such a record the frequency in hertz is `k / n * fs`. -/
theorem C58_estimate_frequency (solve : Lstsq) (hs : IsLstsq solve) (n k : ℕ) (hn : 5 ≤ n) (hbig : n ≤ 10 ^ 9) (hk : 0 < k) (hlast : k < n / 2) (A θ C : ℝ) (hA : 0 < A)
    (ht0 : -Real.pi < θ) (ht1 : θ ≤ Real.pi) (fs : ℝ) (y : ℕ → ℝ) (hy : ∀ t < n, y t = sineAt A ((k : ℝ) / n) θ C t) :
    estimateFrequency solve n y none fs = .ok ((k : ℝ) / n * fs) := by
  obtain ⟨r, h1, h2, _⟩ := C58_coherent_recovery solve hs n k hn hbig hk hlast A θ C hA ht0 ht1 1 (1 / 10 ^ 9) y hy
  unfold estimateFrequency
  rw [show ((1 : ℕ) : ℤ) = 1 from rfl] at h1
  rw [h1]
  simp only
  rw [h2]

/-- **C58 (several channels).** Two-dimensional input gives, column by column, what the one-dimensional call gives. -/
theorem C58_columns (solve : Lstsq) (n : ℕ) (cols : List (ℕ → ℝ)) (freqInit : Option ℝ) (maxIter : ℤ) (tol : ℝ) (rs : List SineFit)
    (h : fitColumns solve n cols freqInit maxIter tol = .ok rs) :
    rs.length = cols.length ∧ ∀ (j : ℕ) (hj : j < cols.length) (hr : j < rs.length), fitCore solve n cols[j] freqInit maxIter tol = .ok rs[j] := by
  unfold fitColumns at h
  by_cases hc : cols = []
  · rw [if_pos hc] at h; cases h
  rw [if_neg hc] at h
  clear hc
  induction cols generalizing rs with
  | nil =>
    rw [List.mapM_nil] at h
    injection h with h
    subst h
    exact ⟨rfl, fun j hj => absurd hj (by simp)⟩
  | cons c cs ih =>
    rw [List.mapM_cons] at h
    cases h1 : fitCore solve n c freqInit maxIter tol with
    | error e => rw [h1] at h; cases h
    | ok r =>
      rw [h1] at h
      cases h2 : cs.mapM fun y => fitCore solve n y freqInit maxIter tol with
      | error e => rw [h2] at h; cases h
      | ok rs' =>
        rw [h2] at h
        injection h with h
        subst h
        obtain ⟨l, hl⟩ := ih rs' h2
        refine ⟨by simp [l], ?_⟩
        intro j hj hr
        cases j with
        | zero => exact h1
        | succ j => exact hl j (by simpa using hj) (by simpa using hr)

/-- Nine samples, two periods. -/
example (solve : Lstsq) (hs : IsLstsq solve) : ∃ r, fitCore solve 9 (sineAt 3 ((2 : ℕ) / (9 : ℕ)) 1 7) none (3 : ℕ) (1 / 10 ^ 9) = .ok r ∧ r.frequency = ((2 : ℕ) : ℝ) / (9 : ℕ) ∧
    r.amplitude = 3 ∧ r.dcOffset = 7 := by
  obtain ⟨r, h1, h2, h3, _, h5, _⟩ := C58_coherent_recovery solve hs 9 2 (by norm_num) (by norm_num) (by norm_num) (by norm_num) 3 1 7 (by norm_num)
    (by have := Real.pi_gt_three; linarith) (by have := Real.pi_gt_three; linarith) 3 (1 / 10 ^ 9) _ (fun t _ => rfl)
  exact ⟨r, h1, h2, h3, h5⟩

end Verif
