import Verif.Proofs.SineFitStep

/-!
# C100: the sine fit converges from a nearby starting frequency, with and without disturbance
-/

namespace Verif

open Model Finset

/-- The reported parameters and the fitted record are within `δ` of the sine `A cos(2π f t + θ) + C`. Amplitude and phase are compared
together, as a point of the plane, because the phase alone is only meaningful up to full turns. -/
structure Spec.SineWithin (n : ℕ) (A f θ C δ : ℝ) (r : SineFit) : Prop where
  frequency : |r.frequency - f| ≤ δ
  amplitude : |r.amplitude - A| ≤ δ
  cosine : |r.amplitude * Real.cos r.phase - A * Real.cos θ| ≤ δ
  sine : |r.amplitude * Real.sin r.phase - A * Real.sin θ| ≤ δ
  offset : |r.dcOffset - C| ≤ δ
  fitted : ∀ t < n, |r.fitted t - (A * Real.cos (2 * Real.pi * f * t + θ) + C)| ≤ δ

private theorem loop_linear (solve : Lstsq) (n : ℕ) (y : ℕ → ℝ) (tol A f θ C ρ σ : ℝ) (hσ : 0 ≤ σ) (hρ : 2 * σ ≤ ρ)
    (hstep : ∀ s : FitState, fitErr A f θ C s ≤ ρ → fitErr A f θ C (fitRefine solve n y s) ≤ fitErr A f θ C s / 2 + σ ∧
      |(fitRefine solve n y s).lastDelta| ≤ 2 * fitErr A f θ C s + σ) :
    ∀ (k : ℕ) (s : FitState) (u : ℝ), 0 ≤ u → fitErr A f θ C s ≤ u + 2 * σ → u + 2 * σ ≤ ρ →
      ∃ m, (fitLoop solve n y tol k s).nIterations = s.nIterations + m ∧ m ≤ k ∧ fitErr A f θ C (fitLoop solve n y tol k s) ≤ u / 2 ^ m + 2 * σ ∧
        (0 < k → 4 * (u / 2 ^ k) + 5 * σ < tol → (fitLoop solve n y tol k s).converged = true) := by
  intro k
  induction k with
  | zero =>
    intro s u hu hs hur
    exact ⟨0, rfl, le_refl _, by simpa [fitLoop] using hs, fun h => absurd h (lt_irrefl _)⟩
  | succ k ih =>
    intro s u hu hs hur
    obtain ⟨h1, h2⟩ := hstep s (le_trans hs hur)
    unfold fitLoop
    simp only
    split_ifs with hlt
    · refine ⟨1, rfl, by omega, ?_, fun _ _ => rfl⟩
      show fitErr A f θ C (fitRefine solve n y s) ≤ _
      rw [pow_one]
      linarith
    · obtain ⟨m, e1, e2, e3, e4⟩ := ih (fitRefine solve n y s) (u / 2) (by linarith) (by linarith) (by linarith)
      refine ⟨m + 1, ?_, by omega, ?_, ?_⟩
      · rw [e1]
        show s.nIterations + 1 + m = _
        omega
      · rw [pow_succ', ← div_div]
        exact e3
      · intro _ htol
        rcases Nat.eq_zero_or_pos k with rfl | hk
        · exfalso
          apply hlt
          rw [zero_add, pow_one] at htol
          linarith
        · apply e4 hk
          rw [div_div, ← pow_succ']
          exact htol

private theorem loop_quadratic (solve : Lstsq) (n : ℕ) (y : ℕ → ℝ) (tol A f θ C ρ P : ℝ) (hP : 0 < P) (hρ : P * ρ ≤ 1)
    (hstep : ∀ s : FitState, fitErr A f θ C s ≤ ρ → fitErr A f θ C (fitRefine solve n y s) ≤ P * fitErr A f θ C s ^ 2) :
    ∀ (k : ℕ) (s : FitState), fitErr A f θ C s ≤ ρ →
      ∃ m, (fitLoop solve n y tol k s).nIterations = s.nIterations + m ∧ P * fitErr A f θ C (fitLoop solve n y tol k s) ≤ (P * fitErr A f θ C s) ^ 2 ^ m := by
  have hnn : ∀ s, 0 ≤ fitErr A f θ C s := fun s => by unfold fitErr; positivity
  intro k
  induction k with
  | zero =>
    intro s hs
    exact ⟨0, rfl, by simp [fitLoop]⟩
  | succ k ih =>
    intro s hs
    have h1 := hstep s hs
    have h2 : P * fitErr A f θ C (fitRefine solve n y s) ≤ (P * fitErr A f θ C s) ^ 2 := by
      calc _ ≤ P * (P * fitErr A f θ C s ^ 2) := mul_le_mul_of_nonneg_left h1 hP.le
        _ = _ := by ring
    unfold fitLoop
    simp only
    split_ifs with hlt
    · exact ⟨1, rfl, h2⟩
    · have h3 : P * fitErr A f θ C s ≤ 1 := le_trans (mul_le_mul_of_nonneg_left hs hP.le) hρ
      have h4 : fitErr A f θ C (fitRefine solve n y s) ≤ ρ := by
        refine le_trans h1 ?_
        calc P * fitErr A f θ C s ^ 2 = P * fitErr A f θ C s * fitErr A f θ C s := by ring
          _ ≤ 1 * fitErr A f θ C s := mul_le_mul_of_nonneg_right h3 (hnn s)
          _ ≤ ρ := by linarith
      obtain ⟨m, e1, e2⟩ := ih _ h4
      refine ⟨m + 1, ?_, ?_⟩
      · rw [e1]
        show s.nIterations + 1 + m = _
        omega
      · refine le_trans e2 ?_
        rw [pow_succ' 2 m, pow_mul]
        exact pow_le_pow_left₀ (mul_nonneg hP.le (hnn _)) h2 _

/-- The dictionary built from loop variables close to the true parameters. -/
theorem result_near (n : ℕ) (y : ℕ → ℝ) (f0 : ℝ) (maxIter : ℤ) (s : FitState) (A f θ C : ℝ) (hA : 0 < A) :
    Spec.SineWithin n A f θ C ((1 + (|A * Real.cos θ| + |A * Real.sin θ|) * (2 * Real.pi * n)) * fitErr A f θ C s) (fitResult n y f0 maxIter s) := by
  have hpi := Real.pi_pos
  set a := A * Real.cos θ with ha
  set b := A * Real.sin θ with hb
  set e := fitErr A f θ C s with he
  have hE : e = |s.freq - f| + |s.a - a| + |s.b - -b| + |s.c - C| := rfl
  have n1 := abs_nonneg (s.freq - f)
  have n2 := abs_nonneg (s.a - a)
  have n3 := abs_nonneg (s.b - -b)
  have n4 := abs_nonneg (s.c - C)
  have he0 : 0 ≤ e := by rw [hE]; positivity
  have hmono : e ≤ (1 + (|a| + |b|) * (2 * Real.pi * n)) * e := by
    have : 0 ≤ (|a| + |b|) * (2 * Real.pi * n) * e := by positivity
    linarith
  have hz : (⟨s.a, -s.b⟩ : ℂ) - ⟨a, b⟩ = ⟨s.a - a, -s.b - b⟩ := rfl
  have hzn : ‖(⟨s.a, -s.b⟩ : ℂ) - ⟨a, b⟩‖ ≤ e := by
    rw [hz]
    refine le_trans (Complex.norm_le_abs_re_add_abs_im _) ?_
    show |s.a - a| + |-s.b - b| ≤ e
    rw [show -s.b - b = -(s.b - -b) by ring, abs_neg, hE]
    linarith
  have hamp : Real.sqrt (s.a ^ 2 + s.b ^ 2) = ‖(⟨s.a, -s.b⟩ : ℂ)‖ := by
    rw [Complex.norm_eq_sqrt_sq_add_sq, neg_sq]
  have hAn : ‖(⟨a, b⟩ : ℂ)‖ = A := by
    rw [Complex.norm_eq_sqrt_sq_add_sq]
    show Real.sqrt (a ^ 2 + b ^ 2) = A
    rw [ha, hb, show (A * Real.cos θ) ^ 2 + (A * Real.sin θ) ^ 2 = A ^ 2 * (Real.sin θ ^ 2 + Real.cos θ ^ 2) by ring, Real.sin_sq_add_cos_sq, mul_one,
      Real.sqrt_sq hA.le]
  constructor
  · show |s.freq - f| ≤ _
    linarith
  · show |Real.sqrt (s.a ^ 2 + s.b ^ 2) - A| ≤ _
    have := abs_norm_sub_norm_le (⟨s.a, -s.b⟩ : ℂ) ⟨a, b⟩
    rw [hAn] at this
    rw [hamp]
    linarith
  · show |Real.sqrt (s.a ^ 2 + s.b ^ 2) * Real.cos (Complex.arg ⟨s.a, -s.b⟩) - a| ≤ _
    rw [hamp, Complex.norm_mul_cos_arg]
    show |s.a - a| ≤ _
    linarith
  · show |Real.sqrt (s.a ^ 2 + s.b ^ 2) * Real.sin (Complex.arg ⟨s.a, -s.b⟩) - b| ≤ _
    rw [hamp, Complex.norm_mul_sin_arg]
    show |-s.b - b| ≤ _
    rw [show -s.b - b = -(s.b - -b) by ring, abs_neg]
    linarith
  · show |s.c - C| ≤ _
    linarith
  · intro t ht
    have h := sine_split A f θ C t
    unfold sineAt at h
    rw [h, ← ha, ← hb]
    show |s.a * fitCos s.freq t + s.b * fitSin s.freq t + s.c - (a * fitCos f t + -b * fitSin f t + C)| ≤ _
    have c1 := fit_cos_near n s.freq f t ht
    have c2 := fit_sin_near n s.freq f t ht
    have t1 : |fitCos s.freq t| ≤ 1 := Real.abs_cos_le_one _
    have t2 : |fitSin s.freq t| ≤ 1 := Real.abs_sin_le_one _
    rw [show s.a * fitCos s.freq t + s.b * fitSin s.freq t + s.c - (a * fitCos f t + -b * fitSin f t + C) =
      (((s.a - a) * fitCos s.freq t + (s.b - -b) * fitSin s.freq t) + (s.c - C)) + (a * (fitCos s.freq t - fitCos f t) + -b * (fitSin s.freq t - fitSin f t)) by ring]
    refine le_trans (abs_add_le _ _) ?_
    have h1 := abs_add_le ((s.a - a) * fitCos s.freq t + (s.b - -b) * fitSin s.freq t) (s.c - C)
    have h2 := abs_add_le ((s.a - a) * fitCos s.freq t) ((s.b - -b) * fitSin s.freq t)
    have h3 := abs_add_le (a * (fitCos s.freq t - fitCos f t)) (-b * (fitSin s.freq t - fitSin f t))
    rw [abs_mul (s.a - a), abs_mul (s.b - -b)] at h2
    rw [abs_mul a, abs_mul (-b), abs_neg] at h3
    have m1 := mul_le_mul_of_nonneg_left t1 n2
    have m2 := mul_le_mul_of_nonneg_left t2 n3
    have m3 := mul_le_mul_of_nonneg_left c1 (abs_nonneg a)
    have m4 := mul_le_mul_of_nonneg_left c2 (abs_nonneg b)
    have m5 : (|a| + |b|) * (2 * Real.pi * n * |s.freq - f|) ≤ (|a| + |b|) * (2 * Real.pi * n * e) :=
      mul_le_mul_of_nonneg_left (mul_le_mul_of_nonneg_left (by linarith) (by positivity)) (by positivity)
    have m6 : (1 + (|a| + |b|) * (2 * Real.pi * n)) * e = e + (|a| + |b|) * (2 * Real.pi * n * e) := by ring
    rw [m6]
    linarith

theorem Spec.SineWithin.mono {n : ℕ} {A f θ C δ δ' : ℝ} {r : SineFit} (h : Spec.SineWithin n A f θ C δ r) (hd : δ ≤ δ') :
    Spec.SineWithin n A f θ C δ' r :=
  ⟨h.1.trans hd, h.2.trans hd, h.3.trans hd, h.4.trans hd, h.5.trans hd, fun t ht => (h.6 t ht).trans hd⟩

/-- **C100 (convergence under disturbance).** For every sine there are constants such that for every record within `ν` of it and every starting
frequency near the true one, after `k` passes all reported parameters and the fitted record are within `B |f₀ - f| / 2ᵏ + S ν` of the sine, the
residual level is below `B |f₀ - f| / 2ᵏ + (S + 1) ν`, and a tolerance above `B |f₀ - f| / 2^max_iterations + S ν` is met, without warning. -/
theorem C100_convergence (solve : Lstsq) (hs : IsLstsq solve) (n : ℕ) (hn : 5 ≤ n) (A f θ C : ℝ) (hA : 0 < A)
    (h0 : 1 / 10 ^ 10 ≤ f) (h1 : f ≤ 1 / 2 - 1 / 10 ^ 10) :
    ∃ ε B S : ℝ, 0 < ε ∧ 0 < B ∧ 0 < S ∧ ∀ (y : ℕ → ℝ) (ν f0 : ℝ) (maxIter : ℕ) (tol : ℝ),
      (∀ t < n, |y t - (A * Real.cos (2 * Real.pi * f * t + θ) + C)| ≤ ν) → ν ≤ ε → |f0 - f| ≤ ε →
      ∃ r, fitCore solve n y (some f0) maxIter tol = .ok r ∧
        Spec.SineWithin n A f θ C (B * |f0 - f| / 2 ^ r.nIterations + S * ν) r ∧
        r.rmse ≤ B * |f0 - f| / 2 ^ r.nIterations + (S + 1) * ν ∧
        (B * |f0 - f| / 2 ^ maxIter + S * ν < tol → r.converged = true ∧ r.warned = false) := by
  have h0' : 0 < f := lt_of_lt_of_le (by norm_num) h0
  have h1' : f < 1 / 2 := lt_of_le_of_lt h1 (by norm_num)
  obtain ⟨r1, B1, S1, hr1, hB1, hS1, first⟩ := first_near solve hs n hn A f θ C h0' h1'
  obtain ⟨r2, P, S2, hr2, hP, hS2, step⟩ := refine_near solve hs n hn A f θ C hA h0 h1
  set ρ := min r2 (1 / (2 * P)) with hρ
  have hρ0 : 0 < ρ := lt_min hr2 (by positivity)
  have hPρ : P * ρ ≤ 1 / 2 := by
    calc P * ρ ≤ P * (1 / (2 * P)) := mul_le_mul_of_nonneg_left (min_le_right _ _) hP.le
      _ = 1 / 2 := by field_simp
  set G := 1 + (|A * Real.cos θ| + |A * Real.sin θ|) * (2 * Real.pi * n) with hG
  have hG1 : 1 ≤ G := by
    have : 0 ≤ (|A * Real.cos θ| + |A * Real.sin θ|) * (2 * Real.pi * n) := by have := Real.pi_pos; positivity
    linarith
  -- one disturbance level covering both kinds of pass
  set S := S1 + S2 with hS
  have hS0 : 0 < S := by positivity
  refine ⟨min r1 (ρ / (B1 + 2 * S)), 4 * G * B1, 5 * G * S, lt_min hr1 (by positivity), by positivity, by positivity, ?_⟩
  intro y ν f0 maxIter tol hy hν hf
  have hν0 : 0 ≤ ν := le_trans (abs_nonneg _) (hy 0 (by omega))
  set σ := S * ν with hσ
  have hσ0 : 0 ≤ σ := mul_nonneg hS0.le hν0
  set u := B1 * |f0 - f| with hu
  have hu0 : 0 ≤ u := mul_nonneg hB1.le (abs_nonneg _)
  have hfε : |f0 - f| ≤ ρ / (B1 + 2 * S) := le_trans hf (min_le_right _ _)
  have hνε : ν ≤ ρ / (B1 + 2 * S) := le_trans hν (min_le_right _ _)
  have hur : u + 2 * σ ≤ ρ := by
    calc u + 2 * σ ≤ B1 * (ρ / (B1 + 2 * S)) + 2 * (S * (ρ / (B1 + 2 * S))) :=
          add_le_add (mul_le_mul_of_nonneg_left hfε hB1.le) (mul_le_mul_of_nonneg_left (mul_le_mul_of_nonneg_left hνε hS0.le) (by norm_num))
      _ = ρ := by field_simp
  have hle1 : S1 * ν ≤ σ := mul_le_mul_of_nonneg_right (by linarith) hν0
  have hle2 : S2 * ν ≤ σ := mul_le_mul_of_nonneg_right (by linarith) hν0
  have hnn : ∀ s, 0 ≤ fitErr A f θ C s := fun s => by unfold fitErr; positivity
  rw [fit_some]
  simp only
  rw [if_neg (by omega), Int.toNat_natCast]
  set s0 : FitState := { freq := f0, a := 0, b := 0, c := 0, converged := decide ((maxIter : ℤ) = 0), nIterations := 0, lastDelta := 0 } with hs0
  have e0 := first y ν hy s0 (le_trans hf (min_le_left _ _))
  obtain ⟨m, q1, q2, q3, q4⟩ := loop_linear solve n y tol A f θ C ρ σ hσ0 (by linarith)
    (by
      intro s hsρ
      obtain ⟨a1, a2⟩ := step y ν hy s (le_trans hsρ (min_le_left _ _))
      have a3 : P * fitErr A f θ C s ^ 2 ≤ fitErr A f θ C s / 2 := by
        calc P * fitErr A f θ C s ^ 2 = P * fitErr A f θ C s * fitErr A f θ C s := by ring
          _ ≤ 1 / 2 * fitErr A f θ C s := mul_le_mul_of_nonneg_right (le_trans (mul_le_mul_of_nonneg_left hsρ hP.le) hPρ) (hnn s)
          _ = _ := by ring
      have := hnn s
      constructor <;> linarith)
    maxIter (fitFirst solve n y s0) u hu0 (by
      have : (s0.freq : ℝ) = f0 := rfl
      rw [this] at e0
      linarith) hur
  set s := fitLoop solve n y tol maxIter (fitFirst solve n y s0) with hsdef
  have hit : (fitResult n y f0 maxIter s).nIterations = m := by
    show s.nIterations = m
    rw [q1]
    show 0 + m = m
    omega
  have hw := result_near n y f0 maxIter s A f θ C hA
  rw [← hG] at hw
  have hGe : G * fitErr A f θ C s ≤ 4 * G * B1 * |f0 - f| / 2 ^ m + 5 * G * S * ν := by
    have hum : 0 ≤ u / 2 ^ m := by positivity
    calc G * fitErr A f θ C s ≤ G * (u / 2 ^ m + 2 * σ) := mul_le_mul_of_nonneg_left q3 (by linarith)
      _ ≤ G * (4 * (u / 2 ^ m) + 5 * σ) := mul_le_mul_of_nonneg_left (by linarith) (by linarith)
      _ = _ := by rw [hu, hσ]; ring
  have hw' := hw.mono hGe
  refine ⟨_, rfl, ?_, ?_, ?_⟩
  · rw [hit]
    exact hw'
  · rw [hit]
    set D := 4 * G * B1 * |f0 - f| / 2 ^ m + 5 * G * S * ν with hD
    have hD0 : 0 ≤ D := le_trans (abs_nonneg _) hw'.1
    have hres : ∀ t < n, |(fitResult n y f0 maxIter s).residuals t| ≤ D + ν := by
      intro t ht
      have a1 := hw'.6 t ht
      have a2 := hy t ht
      have : (fitResult n y f0 maxIter s).residuals t = y t - (fitResult n y f0 maxIter s).fitted t := rfl
      rw [this]
      rw [abs_le] at a1 a2 ⊢
      constructor <;> linarith [a1.1, a1.2, a2.1, a2.2]
    have hnR : (0 : ℝ) < n := by exact_mod_cast (by omega : 0 < n)
    have hgoal : (fitResult n y f0 maxIter s).rmse ≤ D + ν := by
      show Real.sqrt ((∑ t ∈ range n, (fitResult n y f0 maxIter s).residuals t ^ 2) / n) ≤ _
      rw [Real.sqrt_le_left (by linarith), div_le_iff₀ hnR]
      calc ∑ t ∈ range n, (fitResult n y f0 maxIter s).residuals t ^ 2 ≤ ∑ _t ∈ range n, (D + ν) ^ 2 :=
            sum_le_sum fun t ht => sq_le_sq' (by linarith [(abs_le.mp (hres t (mem_range.mp ht))).1]) (abs_le.mp (hres t (mem_range.mp ht))).2
        _ = (D + ν) ^ 2 * n := by simp [mul_comm]
    refine le_trans hgoal (le_of_eq ?_)
    rw [hD]
    ring
  · intro htol
    have hconv : s.converged = true := by
      rcases Nat.eq_zero_or_pos maxIter with hm | hm
      · rw [hsdef, hm]
        show decide ((maxIter : ℤ) = 0) = true
        simp [hm]
      · apply q4 hm
        refine lt_of_le_of_lt ?_ htol
        have hum : 0 ≤ u / 2 ^ maxIter := by positivity
        calc 4 * (u / 2 ^ maxIter) + 5 * σ ≤ G * (4 * (u / 2 ^ maxIter) + 5 * σ) := by
              have : 0 ≤ 4 * (u / 2 ^ maxIter) + 5 * σ := by linarith
              nlinarith
          _ = _ := by rw [hu, hσ]; ring
    refine ⟨hconv, ?_⟩
    show (decide ((0 : ℤ) < maxIter) && !s.converged) = false
    rw [hconv]
    simp

/-- **C100 (quadratic convergence).** On an exact sine the distance is squared by every pass. -/
theorem C100_quadratic (solve : Lstsq) (hs : IsLstsq solve) (n : ℕ) (hn : 5 ≤ n) (A f θ C : ℝ) (hA : 0 < A)
    (h0 : 1 / 10 ^ 10 ≤ f) (h1 : f ≤ 1 / 2 - 1 / 10 ^ 10) :
    ∃ ε B H : ℝ, 0 < ε ∧ 0 < B ∧ 0 < H ∧ H * ε ≤ 1 / 2 ∧ ∀ (y : ℕ → ℝ) (f0 : ℝ) (maxIter : ℕ) (tol : ℝ),
      (∀ t < n, y t = A * Real.cos (2 * Real.pi * f * t + θ) + C) → |f0 - f| ≤ ε →
      ∃ r, fitCore solve n y (some f0) maxIter tol = .ok r ∧
        Spec.SineWithin n A f θ C (B * (H * |f0 - f|) ^ 2 ^ r.nIterations) r := by
  have h0' : 0 < f := lt_of_lt_of_le (by norm_num) h0
  have h1' : f < 1 / 2 := lt_of_le_of_lt h1 (by norm_num)
  obtain ⟨r1, B1, S1, hr1, hB1, hS1, first⟩ := first_near solve hs n hn A f θ C h0' h1'
  obtain ⟨r2, P, S2, hr2, hP, hS2, step⟩ := refine_near solve hs n hn A f θ C hA h0 h1
  set ρ := min r2 (1 / (2 * P)) with hρ
  have hρ0 : 0 < ρ := lt_min hr2 (by positivity)
  have hPρ : P * ρ ≤ 1 / 2 := by
    calc P * ρ ≤ P * (1 / (2 * P)) := mul_le_mul_of_nonneg_left (min_le_right _ _) hP.le
      _ = 1 / 2 := by field_simp
  set G := 1 + (|A * Real.cos θ| + |A * Real.sin θ|) * (2 * Real.pi * n) with hG
  have hG1 : 1 ≤ G := by
    have : 0 ≤ (|A * Real.cos θ| + |A * Real.sin θ|) * (2 * Real.pi * n) := by have := Real.pi_pos; positivity
    linarith
  refine ⟨min r1 (ρ / B1), G / P, P * B1, lt_min hr1 (by positivity), by positivity, by positivity, ?_, ?_⟩
  · calc P * B1 * min r1 (ρ / B1) ≤ P * B1 * (ρ / B1) := mul_le_mul_of_nonneg_left (min_le_right _ _) (by positivity)
      _ = P * ρ := by field_simp
      _ ≤ 1 / 2 := hPρ
  intro y f0 maxIter tol hy hf
  have hy' : ∀ t < n, |y t - sineAt A f θ C t| ≤ 0 := by
    intro t ht
    rw [hy t ht]
    unfold sineAt
    rw [sub_self, abs_zero]
  have hnn : ∀ s, 0 ≤ fitErr A f θ C s := fun s => by unfold fitErr; positivity
  rw [fit_some]
  simp only
  rw [if_neg (by omega), Int.toNat_natCast]
  set s0 : FitState := { freq := f0, a := 0, b := 0, c := 0, converged := decide ((maxIter : ℤ) = 0), nIterations := 0, lastDelta := 0 } with hs0
  have e0 := first y 0 hy' s0 (le_trans hf (min_le_left _ _))
  rw [mul_zero, add_zero] at e0
  have e0' : fitErr A f θ C (fitFirst solve n y s0) ≤ B1 * |f0 - f| := e0
  have e1 : fitErr A f θ C (fitFirst solve n y s0) ≤ ρ := by
    refine le_trans e0' ?_
    calc B1 * |f0 - f| ≤ B1 * (ρ / B1) := mul_le_mul_of_nonneg_left (le_trans hf (min_le_right _ _)) hB1.le
      _ = ρ := by field_simp
  obtain ⟨m, q1, q2⟩ := loop_quadratic solve n y tol A f θ C ρ P hP (by linarith)
    (by
      intro s hsρ
      have := (step y 0 hy' s (le_trans hsρ (min_le_left _ _))).1
      rwa [mul_zero, add_zero] at this)
    maxIter (fitFirst solve n y s0) e1
  set s := fitLoop solve n y tol maxIter (fitFirst solve n y s0) with hsdef
  have hit : (fitResult n y f0 maxIter s).nIterations = m := by
    show s.nIterations = m
    rw [q1]
    show 0 + m = m
    omega
  have hw := result_near n y f0 maxIter s A f θ C hA
  rw [← hG] at hw
  refine ⟨_, rfl, ?_⟩
  rw [hit]
  apply hw.mono
  have q3 : P * fitErr A f θ C s ≤ (P * B1 * |f0 - f|) ^ 2 ^ m := by
    refine le_trans q2 (pow_le_pow_left₀ (mul_nonneg hP.le (hnn _)) ?_ _)
    rw [mul_assoc]
    exact mul_le_mul_of_nonneg_left e0' hP.le
  calc G * fitErr A f θ C s = G / P * (P * fitErr A f θ C s) := by field_simp
    _ ≤ G / P * (P * B1 * |f0 - f|) ^ 2 ^ m := mul_le_mul_of_nonneg_left q3 (by positivity)

/-- **C100 (`estimate_frequency`).** The single pass behind `estimate_frequency` squares the relative error of the starting frequency on an exact
sine, and under a disturbance `ν` halves it up to a multiple of `ν`; the result is in the unit of the sample rate. -/
theorem C100_estimate_frequency (solve : Lstsq) (hs : IsLstsq solve) (n : ℕ) (hn : 5 ≤ n) (A f θ C : ℝ) (hA : 0 < A)
    (h0 : 1 / 10 ^ 10 ≤ f) (h1 : f ≤ 1 / 2 - 1 / 10 ^ 10) :
    ∃ ε c B S : ℝ, 0 < ε ∧ 0 < c ∧ 0 < B ∧ 0 < S ∧ ∀ (y : ℕ → ℝ) (ν f0 fs : ℝ),
      (∀ t < n, |y t - (A * Real.cos (2 * Real.pi * f * t + θ) + C)| ≤ ν) → ν ≤ ε → |f0 - f| ≤ ε → 0 < fs →
      ∃ F, estimateFrequency solve n y (some f0) fs = .ok F ∧ |F - f * fs| ≤ (B * |f0 - f| + S * ν) * fs ∧
        (ν = 0 → |F - f * fs| ≤ c * |f0 - f| ^ 2 * fs) := by
  obtain ⟨ε1, B, S, hε1, hB, hS, hlin⟩ := C100_convergence solve hs n hn A f θ C hA h0 h1
  obtain ⟨ε2, B2, H, hε2, hB2, hH, _, hquad⟩ := C100_quadratic solve hs n hn A f θ C hA h0 h1
  refine ⟨min ε1 ε2, B2 * H ^ 2, B, S, lt_min hε1 hε2, by positivity, hB, hS, fun y ν f0 fs hy hν hf hfs => ?_⟩
  obtain ⟨r, e1, e2, _, _⟩ := hlin y ν f0 1 (1 / 10 ^ 9) hy (le_trans hν (min_le_left _ _)) (le_trans hf (min_le_left _ _))
  obtain ⟨c1, _, c3, _⟩ := C58_iteration_control solve n _ (some f0) 1 _ r e1
  have hit : r.nIterations = 1 := le_antisymm c1 (c3 (by norm_num)).1
  have hF : estimateFrequency solve n y (some f0) fs = .ok (r.frequency * fs) := by
    unfold estimateFrequency
    have : fitCore solve n y (some f0) 1 (1 / 10 ^ 9) = .ok r := e1
    rw [this]
  have hscale : |r.frequency * fs - f * fs| = |r.frequency - f| * fs := by rw [← sub_mul, abs_mul, abs_of_pos hfs]
  refine ⟨_, hF, ?_, fun hν0 => ?_⟩
  · rw [hscale]
    apply mul_le_mul_of_nonneg_right _ hfs.le
    have := e2.1
    rw [hit, pow_one] at this
    have h2 : 0 ≤ B * |f0 - f| := mul_nonneg hB.le (abs_nonneg _)
    linarith
  · rw [hscale]
    apply mul_le_mul_of_nonneg_right _ hfs.le
    obtain ⟨r', e1', e2'⟩ := hquad y f0 1 (1 / 10 ^ 9) (fun t ht => by
      have := hy t ht
      rw [hν0] at this
      exact sub_eq_zero.mp (abs_nonpos_iff.mp this)) (le_trans hf (min_le_right _ _))
    have hrr : r' = r := by
      have := e1'.symm.trans e1
      injection this
    rw [hrr] at e2'
    have := e2'.1
    rw [hit, pow_one, mul_pow, ← mul_assoc] at this
    exact this

/-- A record of nine samples of a sine at 1/7 of the sample rate, with a starting frequency that is off: enough passes find every parameter
to any requested accuracy, and report convergence. -/
example (solve : Lstsq) (hs : IsLstsq solve) (acc : ℝ) (ha : 0 < acc) : ∃ f0, f0 ≠ 1 / 7 ∧ ∃ k : ℕ, ∀ maxIter ≥ k, ∃ r,
    fitCore solve 9 (fun t => 3 * Real.cos (2 * Real.pi * (1 / 7) * t + 1) + 2) (some f0) (maxIter : ℕ) acc = .ok r ∧ r.converged = true := by
  obtain ⟨ε, B, S, hε, hB, hS, h⟩ := C100_convergence solve hs 9 (by norm_num) 3 (1 / 7) 1 2 (by norm_num) (by norm_num) (by norm_num)
  obtain ⟨k, hk⟩ := pow_unbounded_of_one_lt (B * ε / acc) (by norm_num : (1 : ℝ) < 2)
  refine ⟨1 / 7 + ε, by linarith, k, fun maxIter hm => ?_⟩
  have hd : |1 / 7 + ε - 1 / 7| = ε := by rw [add_sub_cancel_left, abs_of_pos hε]
  obtain ⟨r, h1, _, _, h4⟩ := h (fun t => 3 * Real.cos (2 * Real.pi * (1 / 7) * t + 1) + 2) 0 (1 / 7 + ε) maxIter acc
    (fun t _ => by rw [sub_self, abs_zero]) hε.le hd.le
  refine ⟨r, h1, (h4 ?_).1⟩
  rw [hd, mul_zero, add_zero, div_lt_iff₀ (by positivity)]
  rw [div_lt_iff₀ ha] at hk
  have : (2 : ℝ) ^ k ≤ 2 ^ maxIter := pow_le_pow_right₀ (by norm_num) hm
  nlinarith

/-- One pass (the default) squares the distance of the starting frequency. -/
example (solve : Lstsq) (hs : IsLstsq solve) : ∃ ε c : ℝ, 0 < ε ∧ 0 < c ∧ ∀ f0, |f0 - 1 / 7| ≤ ε → ∃ r,
    fitCore solve 9 (fun t => 3 * Real.cos (2 * Real.pi * (1 / 7) * t + 1) + 2) (some f0) (1 : ℕ) (1 / 10 ^ 9) = .ok r ∧
    |r.frequency - 1 / 7| ≤ c * |f0 - 1 / 7| ^ 2 := by
  obtain ⟨ε, B, H, hε, hB, hH, _, h⟩ := C100_quadratic solve hs 9 (by norm_num) 3 (1 / 7) 1 2 (by norm_num) (by norm_num) (by norm_num)
  refine ⟨ε, B * H ^ 2, hε, by positivity, fun f0 hf => ?_⟩
  obtain ⟨r, h1, h2⟩ := h (fun t => 3 * Real.cos (2 * Real.pi * (1 / 7) * t + 1) + 2) f0 1 (1 / 10 ^ 9) (fun t _ => rfl) hf
  refine ⟨r, h1, ?_⟩
  obtain ⟨c1, _, c3, _⟩ := C58_iteration_control solve 9 _ (some f0) 1 _ r h1
  have hn : r.nIterations = 1 := le_antisymm c1 (c3 (by norm_num)).1
  have := h2.1
  rw [hn, pow_one, mul_pow, ← mul_assoc] at this
  exact this

/-- A tone at 1 MHz sampled at 7 MHz: a starting frequency closer and closer to it gives an estimate closer and closer to 1 MHz. -/
example (solve : Lstsq) (hs : IsLstsq solve) : ∃ ε c : ℝ, 0 < ε ∧ 0 < c ∧ ∀ f0, |f0 - 1 / 7| ≤ ε → ∃ F,
    estimateFrequency solve 9 (fun t => 3 * Real.cos (2 * Real.pi * (1 / 7) * t + 1) + 2) (some f0) 7000000 = .ok F ∧
    |F - 1000000| ≤ c * |f0 - 1 / 7| ^ 2 * 7000000 := by
  obtain ⟨ε, c, B, S, hε, hc, _, _, h⟩ := C100_estimate_frequency solve hs 9 (by norm_num) 3 (1 / 7) 1 2 (by norm_num) (by norm_num) (by norm_num)
  refine ⟨ε, c, hε, hc, fun f0 hf => ?_⟩
  obtain ⟨F, h1, _, h3⟩ := h (fun t => 3 * Real.cos (2 * Real.pi * (1 / 7) * t + 1) + 2) 0 f0 7000000 (fun t _ => by rw [sub_self, abs_zero]) hε.le hf (by norm_num)
  refine ⟨F, h1, ?_⟩
  have := h3 rfl
  norm_num at this
  simpa using this

end Verif
