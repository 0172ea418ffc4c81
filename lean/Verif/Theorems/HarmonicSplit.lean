import Verif.Proofs.Harmonics
import Verif.Theorems.SineFit
import Mathlib.Analysis.SpecialFunctions.Trigonometric.Angle

/-!
# C51: harmonic decomposition
-/

namespace Verif

open Model Finset

/-! ## Specification -/

/-- The average of several runs of a record. -/
noncomputable def averageRecord (runs : ℕ) (x : ℕ → ℕ → ℝ) (t : ℕ) : ℝ := (∑ i ∈ range runs, x i t) / runs

/-- A distorted sine: offset plus harmonics `1 … H`; harmonic `h + 1` has peak amplitude `A h` and phase lag `θ h`. -/
noncomputable def distorted (D f : ℝ) (H : ℕ) (A θ : ℕ → ℝ) (t : ℝ) : ℝ :=
  D + ∑ h ∈ range H, A h * Real.cos (((h : ℝ) + 1) * (2 * Real.pi * f * t) - θ h)

/-! ## Phases -/

private theorem wrap_mem (p : ℝ) : -Real.pi ≤ wrapPhase p ∧ wrapPhase p < Real.pi := by
  have hpi := Real.pi_pos
  have h0 := pmod_nonneg (p + Real.pi) (n := 2 * Real.pi) (by positivity)
  have h1 := pmod_lt (p + Real.pi) (n := 2 * Real.pi) (by positivity)
  unfold wrapPhase
  constructor <;> linarith

private theorem wrap_congr (p : ℝ) : ∃ k : ℤ, wrapPhase p = p + k * (2 * Real.pi) := by
  refine ⟨-⌊(p + Real.pi) / (2 * Real.pi)⌋, ?_⟩
  unfold wrapPhase pmod
  push_cast
  ring

private theorem wrap_unique (a b : ℝ) (ha : -Real.pi ≤ a ∧ a < Real.pi) (hb : -Real.pi ≤ b ∧ b < Real.pi) (k : ℤ) (h : a = b + k * (2 * Real.pi)) : a = b := by
  have hpi := Real.pi_pos
  have hk : k = 0 := by
    have h1 : (k : ℝ) < 1 := by by_contra hc; push Not at hc; nlinarith [ha.2, hb.1]
    have h2 : (-1 : ℝ) < k := by by_contra hc; push Not at hc; nlinarith [ha.1, hb.2]
    have h1' : k < 1 := by exact_mod_cast h1
    have h2' : -1 < k := by exact_mod_cast h2
    omega
  rw [h, hk]
  simp

private theorem arg_polar (A θ : ℝ) (hA : 0 < A) : ∃ k : ℤ, Complex.arg ⟨A * Real.cos θ, A * Real.sin θ⟩ = θ + k * (2 * Real.pi) := by
  set c : ℂ := ⟨A * Real.cos θ, A * Real.sin θ⟩ with hc
  have hn : ‖c‖ = A := by
    rw [Complex.norm_def, Complex.normSq_apply, hc]
    simp only
    rw [show A * Real.cos θ * (A * Real.cos θ) + A * Real.sin θ * (A * Real.sin θ) = A ^ 2 by
      have := Real.sin_sq_add_cos_sq θ
      linear_combination A ^ 2 * this, Real.sqrt_sq hA.le]
  have h1 := Complex.norm_mul_cos_arg c
  have h2 := Complex.norm_mul_sin_arg c
  rw [hn] at h1 h2
  have h1' : Real.cos c.arg = Real.cos θ := mul_left_cancel₀ hA.ne' h1
  have h2' : Real.sin c.arg = Real.sin θ := mul_left_cancel₀ hA.ne' h2
  have hang := Real.Angle.cos_sin_inj h1' h2'
  obtain ⟨k, hk⟩ := Real.Angle.angle_eq_iff_two_pi_dvd_sub.mp hang
  exact ⟨k, by linarith⟩

private theorem polar_cos (c : ℂ) (x : ℝ) : c.re * Real.cos x + c.im * Real.sin x = ‖c‖ * Real.cos (x - c.arg) := by
  rw [Real.cos_sub, ← Complex.norm_mul_cos_arg c, ← Complex.norm_mul_sin_arg c]
  ring

theorem decompose_ok (solve : Lstsq) (runs n : ℕ) (x : ℕ → ℕ → ℝ) (H : ℤ) (freq : Option ℝ) (maxIter : ℤ) (tol : ℝ) (r : HarmonicSplit)
    (h : decomposeHarmonic solve runs n x H freq maxIter tol = .ok r) (hn : n ≠ 1) :
    0 < H ∧ r = harmonicSplit solve n (averageRecord runs x) r.fundamentalFreq H.toNat ∧
      ∃ fit, fitCore solve n (fun t => averageRecord runs x t - colMean n (averageRecord runs x)) freq maxIter tol = .ok fit ∧ r.fundamentalFreq = fit.frequency := by
  have hav : averageRuns runs n x = (n, averageRecord runs x) := by
    unfold averageRuns
    rw [if_neg hn]
    rfl
  unfold decomposeHarmonic at h
  rw [hav] at h
  simp only at h
  cases hf : fitCore solve n (fun t => averageRecord runs x t - colMean n (averageRecord runs x)) freq maxIter tol with
  | error e => rw [hf] at h; cases h
  | ok fit =>
    rw [hf] at h
    simp only at h
    by_cases hH : H ≤ 0
    · rw [if_pos hH] at h; cases h
    rw [if_neg hH] at h
    injection h with h
    have h : harmonicSplit solve n (averageRecord runs x) fit.frequency H.toNat = r := h
    have hfreq : r.fundamentalFreq = fit.frequency := by rw [← h]; rfl
    refine ⟨by omega, ?_, fit, rfl, hfreq⟩
    rw [hfreq, h]

/-- **C51 (exact split).** The averaged record is the sum of the fundamental (with the offset), the harmonics and the residual; the residual is
orthogonal to the constant and to every fitted cosine and sine, and no other combination of them leaves a smaller residual. -/
theorem C51_split (solve : Lstsq) (hs : IsLstsq solve) (runs n : ℕ) (hn : n ≠ 1) (x : ℕ → ℕ → ℝ) (H : ℤ) (freq : Option ℝ) (maxIter : ℤ) (tol : ℝ) (r : HarmonicSplit)
    (h : decomposeHarmonic solve runs n x H freq maxIter tol = .ok r) :
    (∀ t, r.fundamental t + r.harmonic t + r.noiseResidual t = averageRecord runs x t) ∧ (∀ t, r.reconstructed t = r.fundamental t + r.harmonic t) ∧
    ∑ t ∈ range n, r.noiseResidual t = 0 ∧
    (∀ k : ℕ, k < H → ∑ t ∈ range n, r.noiseResidual t * Real.cos (((k : ℝ) + 1) * (2 * Real.pi * r.fundamentalFreq * t)) = 0 ∧
      ∑ t ∈ range n, r.noiseResidual t * Real.sin (((k : ℝ) + 1) * (2 * Real.pi * r.fundamentalFreq * t)) = 0) ∧
    (∀ (D : ℝ) (p q : ℕ → ℝ), ∑ t ∈ range n, r.noiseResidual t ^ 2 ≤ ∑ t ∈ range n, (averageRecord runs x t - (D + ∑ k ∈ range H.toNat,
      (p k * Real.cos (((k : ℝ) + 1) * (2 * Real.pi * r.fundamentalFreq * t)) + q k * Real.sin (((k : ℝ) + 1) * (2 * Real.pi * r.fundamentalFreq * t))))) ^ 2) ∧
    (0 < n → r.residualRms ^ 2 * n = 8 * ∑ t ∈ range n, r.noiseResidual t ^ 2) := by
  obtain ⟨hH, hr, _⟩ := decompose_ok solve runs n x H freq maxIter tol r h hn
  set f := r.fundamentalFreq with hf
  set K := H.toNat with hK
  set y := averageRecord runs x with hy
  set W := solve n (harmonicCols f K) (fun t => y t - colMean n y) with hW
  have hres : ∀ t, r.noiseResidual t = (y t - colMean n y) - matVec (harmonicCols f K) W t := by
    intro t
    rw [hr]
    rfl
  -- orthogonality to any combination
  have horth : ∀ v : ℕ → ℝ, ∑ t ∈ range n, r.noiseResidual t * (v 0 + ∑ h ∈ range K, (v (1 + 2 * h) * Real.cos (((h : ℝ) + 1) * (2 * Real.pi * f * t)) +
      v (2 + 2 * h) * Real.sin (((h : ℝ) + 1) * (2 * Real.pi * f * t)))) = 0 := by
    intro v
    have := lstsq_orthogonal solve hs n (harmonicCols f K) (fun t => y t - colMean n y) ((List.range (2 * K + 1)).map v) (by rw [harmonicCols_length]; simp)
    rw [← hW] at this
    rw [← this]
    apply sum_congr rfl
    intro t _
    rw [hres]
    congr 1
    rw [matVec_harmonic]
    have hg : ∀ j < 2 * K + 1, ((List.range (2 * K + 1)).map v).getD j 0 = v j := by
      intro j hj
      rw [List.getD_eq_getElem _ _ (by simpa using hj)]
      simp
    rw [hg 0 (by omega)]
    congr 1
    apply sum_congr rfl
    intro k hk
    have := mem_range.mp hk
    rw [hg (1 + 2 * k) (by omega), hg (2 + 2 * k) (by omega)]
  refine ⟨?_, ?_, ?_, ?_, ?_, ?_⟩
  · intro t
    rw [hr]
    unfold harmonicSplit
    simp only
    ring
  · intro t
    rw [hr]
    unfold harmonicSplit
    simp only
    ring
  · have := horth fun j => if j = 0 then 1 else 0
    simpa using this
  · intro k hk
    have hkK : k < K := by omega
    constructor
    · have := horth fun j => if j = 1 + 2 * k then 1 else 0
      refine Eq.trans ?_ this
      apply sum_congr rfl
      intro t _
      congr 1
      rw [if_neg (by omega), zero_add, sum_eq_single k]
      · rw [if_pos rfl, if_neg (by omega)]; ring
      · intro b _ hb
        rw [if_neg (by omega), if_neg (by omega)]
        ring
      · intro hmem
        exact absurd (mem_range.mpr hkK) hmem
    · have := horth fun j => if j = 2 + 2 * k then 1 else 0
      refine Eq.trans ?_ this
      apply sum_congr rfl
      intro t _
      congr 1
      rw [if_neg (by omega), zero_add, sum_eq_single k]
      · rw [if_pos rfl, if_neg (by omega)]; ring
      · intro b _ hb
        rw [if_neg (by omega), if_neg (by omega)]
        ring
      · intro hmem
        exact absurd (mem_range.mpr hkK) hmem
  · intro D p q
    set v : ℕ → ℝ := fun j => if j = 0 then D - colMean n y else if j % 2 = 1 then p (j / 2) else q (j / 2 - 1) with hv
    have := lstsq_min solve hs n (harmonicCols f K) (fun t => y t - colMean n y) ((List.range (2 * K + 1)).map v)
    rw [← hW] at this
    rw [sum_congr rfl fun t _ => by rw [hres t]]
    refine le_trans this (le_of_eq ?_)
    apply sum_congr rfl
    intro t _
    rw [matVec_harmonic]
    have hg : ∀ j < 2 * K + 1, ((List.range (2 * K + 1)).map v).getD j 0 = v j := by
      intro j hj
      rw [List.getD_eq_getElem _ _ (by simpa using hj)]
      simp
    have hsum : ∑ k ∈ range K, (((List.range (2 * K + 1)).map v).getD (1 + 2 * k) 0 * Real.cos (((k : ℝ) + 1) * (2 * Real.pi * f * t)) +
        ((List.range (2 * K + 1)).map v).getD (2 + 2 * k) 0 * Real.sin (((k : ℝ) + 1) * (2 * Real.pi * f * t))) =
        ∑ k ∈ range K, (p k * Real.cos (((k : ℝ) + 1) * (2 * Real.pi * f * t)) + q k * Real.sin (((k : ℝ) + 1) * (2 * Real.pi * f * t))) := by
      apply sum_congr rfl
      intro k hk
      have hk' := mem_range.mp hk
      rw [hg (1 + 2 * k) (by omega), hg (2 + 2 * k) (by omega), hv]
      simp only
      rw [if_neg (by omega), if_pos (by omega), if_neg (by omega), if_neg (by omega), show (1 + 2 * k) / 2 = k by omega, show (2 + 2 * k) / 2 - 1 = k by omega]
    rw [hg 0 (by omega), hsum, hv]
    simp only [if_true]
    ring
  · intro hpos
    have hnR : (0 : ℝ) < n := by exact_mod_cast hpos
    have e : r.residualRms = Real.sqrt (colMean n fun t => r.noiseResidual t ^ 2) * 2 * Real.sqrt 2 := by
      rw [hr]
      rfl
    rw [e, mul_pow, mul_pow, Real.sq_sqrt (by unfold colMean; exact div_nonneg (sum_nonneg fun t _ => sq_nonneg _) hnR.le), Real.sq_sqrt (by norm_num)]
    unfold colMean
    field_simp
    ring

/-- **C51 (what magnitudes and phases mean).** Magnitudes are peak-to-peak and phases are relative to the fundamental: with the fundamental
written as `D + (mag 1 / 2) cos ψ_t`, the harmonic signal is the sum of `(mag h / 2) cos (h ψ_t - phase h)` over `h ≥ 2`. Phases lie in
`[-pi, pi)` and the fundamental's own is zero. -/
theorem C51_reconstruction (solve : Lstsq) (runs n : ℕ) (hn : n ≠ 1) (x : ℕ → ℕ → ℝ) (H : ℤ) (freq : Option ℝ) (maxIter : ℤ) (tol : ℝ) (r : HarmonicSplit)
    (h : decomposeHarmonic solve runs n x H freq maxIter tol = .ok r) : ∃ D ψ0 : ℝ,
      (∀ t : ℕ, r.fundamental t = D + r.magnitudes 0 / 2 * Real.cos (2 * Real.pi * r.fundamentalFreq * t - ψ0)) ∧
      (∀ t : ℕ, r.harmonic t = ∑ k ∈ Ico 1 H.toNat, r.magnitudes k / 2 * Real.cos (((k : ℝ) + 1) * (2 * Real.pi * r.fundamentalFreq * t - ψ0) - r.phases k)) ∧
      (∀ k, 0 ≤ r.magnitudes k ∧ -Real.pi ≤ r.phases k ∧ r.phases k < Real.pi) ∧ r.phases 0 = 0 := by
  obtain ⟨hH, hr, _⟩ := decompose_ok solve runs n x H freq maxIter tol r h hn
  set f := r.fundamentalFreq with hf
  obtain ⟨K, hK⟩ : ∃ K, H.toNat = K + 1 := ⟨H.toNat - 1, by omega⟩
  rw [hK] at hr ⊢
  set y := averageRecord runs x with hy
  set W := solve n (harmonicCols f (K + 1)) (fun t => y t - colMean n y) with hW
  set coef : ℕ → ℂ := fun h => ⟨W.getD (1 + 2 * h) 0, W.getD (2 + 2 * h) 0⟩ with hcoef
  have hmag : ∀ k, r.magnitudes k = ‖coef k‖ * 2 := by intro k; rw [hr]; rfl
  have hph : ∀ k, r.phases k = wrapPhase ((coef k).arg - (coef 0).arg * ((k : ℝ) + 1)) := by intro k; rw [hr]; rfl
  have hterm : ∀ (k : ℕ) (s : ℝ), W.getD (1 + 2 * k) 0 * Real.cos (((k : ℝ) + 1) * s) + W.getD (2 + 2 * k) 0 * Real.sin (((k : ℝ) + 1) * s) =
      r.magnitudes k / 2 * Real.cos (((k : ℝ) + 1) * (s - (coef 0).arg) - r.phases k) := by
    intro k s
    have := polar_cos (coef k) (((k : ℝ) + 1) * s)
    have e : (coef k).re * Real.cos (((k : ℝ) + 1) * s) + (coef k).im * Real.sin (((k : ℝ) + 1) * s) =
        W.getD (1 + 2 * k) 0 * Real.cos (((k : ℝ) + 1) * s) + W.getD (2 + 2 * k) 0 * Real.sin (((k : ℝ) + 1) * s) := rfl
    rw [← e, this, hmag, mul_div_cancel_right₀ _ (by norm_num : (2 : ℝ) ≠ 0), hph]
    obtain ⟨j, hj⟩ := wrap_congr ((coef k).arg - (coef 0).arg * ((k : ℝ) + 1))
    rw [hj]
    congr 1
    rw [show ((k : ℝ) + 1) * (s - (coef 0).arg) - ((coef k).arg - (coef 0).arg * ((k : ℝ) + 1) + j * (2 * Real.pi)) =
      ((k : ℝ) + 1) * s - (coef k).arg - j * (2 * Real.pi) by ring, Real.cos_sub_int_mul_two_pi]
  have hp0 : r.phases 0 = 0 := by
    rw [hph]
    unfold wrapPhase pmod
    have hpi := Real.pi_pos
    have e : ((coef 0).arg - (coef 0).arg * (((0 : ℕ) : ℝ) + 1) + Real.pi) = Real.pi := by push_cast; ring
    rw [e, show Real.pi / (2 * Real.pi) = 1 / 2 by field_simp, show ⌊(1 / 2 : ℝ)⌋ = 0 by rw [Int.floor_eq_zero_iff]; constructor <;> norm_num]
    simp
  refine ⟨W.getD 0 0 + colMean n y, (coef 0).arg, ?_, ?_, ?_, hp0⟩
  · intro t
    have e1 : r.fundamental t = W.getD 0 0 + Real.cos (2 * Real.pi * f * t) * W.getD 1 0 + Real.sin (2 * Real.pi * f * t) * W.getD 2 0 + colMean n y := by rw [hr]; rfl
    have e2 := hterm 0 (2 * Real.pi * f * t)
    rw [hp0] at e2
    simp only [Nat.cast_zero, zero_add, one_mul, mul_zero, add_zero, sub_zero] at e2
    rw [e1]
    linarith
  · intro t
    have e1 : r.harmonic t = matVec (harmonicCols f (K + 1)) W t - (W.getD 0 0 + Real.cos (2 * Real.pi * f * t) * W.getD 1 0 + Real.sin (2 * Real.pi * f * t) * W.getD 2 0) := by rw [hr]; rfl
    rw [e1, matVec_harmonic, sum_congr rfl fun k _ => hterm k (2 * Real.pi * f * t)]
    have e2 := hterm 0 (2 * Real.pi * f * t)
    rw [← Nat.Ico_zero_eq_range, sum_eq_sum_Ico_succ_bot (by omega), ← e2]
    simp only [Nat.cast_zero, zero_add, one_mul, mul_zero, add_zero]
    ring
  · intro k
    rw [hmag, hph]
    exact ⟨by positivity, (wrap_mem _).1, (wrap_mem _).2⟩

/-- **C51 (recovery).** For an averaged record that is exactly a distorted sine at the frequency the decomposition uses, on at least
`2 H + 1` samples and with no multiple of the frequency up to `2 H` a whole number: the residual is zero, the magnitudes are twice the true
amplitudes, and each phase is the true phase relative to the fundamental. -/
theorem C51_recovery (solve : Lstsq) (hs : IsLstsq solve) (runs n : ℕ) (hn : n ≠ 1) (x : ℕ → ℕ → ℝ) (H : ℕ) (freq : Option ℝ) (maxIter : ℤ) (tol : ℝ) (r : HarmonicSplit)
    (h : decomposeHarmonic solve runs n x H freq maxIter tol = .ok r) (hlen : 2 * H + 1 ≤ n)
    (hfreq : ∀ m : ℕ, 0 < m → m ≤ 2 * H → ∀ z : ℤ, r.fundamentalFreq * m ≠ z) (D : ℝ) (A θ : ℕ → ℝ) (hA : ∀ k < H, 0 ≤ A k)
    (hy : ∀ t < n, averageRecord runs x t = distorted D r.fundamentalFreq H A θ t) :
    (∀ t < n, r.noiseResidual t = 0) ∧ r.residualRms = 0 ∧ (∀ k < H, r.magnitudes k = 2 * A k) ∧
    (0 < A 0 → ∀ k < H, 0 < A k → ∃ j : ℤ, r.phases k = θ k - ((k : ℝ) + 1) * θ 0 + j * (2 * Real.pi)) := by
  obtain ⟨hH, hr, _⟩ := decompose_ok solve runs n x H freq maxIter tol r h hn
  set f := r.fundamentalFreq with hf
  rw [Int.toNat_natCast] at hr
  set y := averageRecord runs x with hydef
  set W := solve n (harmonicCols f H) (fun t => y t - colMean n y) with hW
  set v : ℕ → ℝ := fun j => if j = 0 then D - colMean n y else if j % 2 = 1 then A (j / 2) * Real.cos (θ (j / 2)) else A (j / 2 - 1) * Real.sin (θ (j / 2 - 1)) with hv
  have hg : ∀ j < 2 * H + 1, ((List.range (2 * H + 1)).map v).getD j 0 = v j := by
    intro j hj
    rw [List.getD_eq_getElem _ _ (by simpa using hj)]
    simp
  have hsol : ∀ t < n, matVec (harmonicCols f H) ((List.range (2 * H + 1)).map v) t = y t - colMean n y := by
    intro t ht
    rw [matVec_harmonic, hy t ht, hg 0 (by omega)]
    unfold distorted
    have hsum : ∑ k ∈ range H, (((List.range (2 * H + 1)).map v).getD (1 + 2 * k) 0 * Real.cos (((k : ℝ) + 1) * (2 * Real.pi * f * t)) +
        ((List.range (2 * H + 1)).map v).getD (2 + 2 * k) 0 * Real.sin (((k : ℝ) + 1) * (2 * Real.pi * f * t))) =
        ∑ k ∈ range H, A k * Real.cos (((k : ℝ) + 1) * (2 * Real.pi * f * t) - θ k) := by
      apply sum_congr rfl
      intro k hk
      have hk' := mem_range.mp hk
      rw [hg (1 + 2 * k) (by omega), hg (2 + 2 * k) (by omega), hv]
      simp only
      rw [if_neg (by omega), if_pos (by omega), if_neg (by omega), if_neg (by omega), show (1 + 2 * k) / 2 = k by omega, show (2 + 2 * k) / 2 - 1 = k by omega, Real.cos_sub]
      ring
    rw [hsum, hv]
    simp only [if_true]
    ring
  have huniq := lstsq_unique solve hs n (harmonicCols f H) (fun t => y t - colMean n y) ((List.range (2 * H + 1)).map v) hsol (by
    intro u hu
    rw [harmonicCols_length]
    apply harmonic_independent f H n hlen hfreq u
    intro t ht
    have := hu t ht
    rwa [sum_cols] at this)
  rw [← hW, harmonicCols_length] at huniq
  have hWc : ∀ k < H, W.getD (1 + 2 * k) 0 = A k * Real.cos (θ k) ∧ W.getD (2 + 2 * k) 0 = A k * Real.sin (θ k) := by
    intro k hk
    rw [huniq (1 + 2 * k) (by omega), huniq (2 + 2 * k) (by omega), hg (1 + 2 * k) (by omega), hg (2 + 2 * k) (by omega), hv]
    simp only
    rw [if_neg (by omega), if_pos (by omega), if_neg (by omega), if_neg (by omega), show (1 + 2 * k) / 2 = k by omega, show (2 + 2 * k) / 2 - 1 = k by omega]
    exact ⟨rfl, rfl⟩
  have hres : ∀ t < n, r.noiseResidual t = 0 := by
    intro t ht
    have e : r.noiseResidual t = (y t - colMean n y) - matVec (harmonicCols f H) W t := by rw [hr]; rfl
    rw [e, ← hsol t ht, sub_eq_zero]
    apply matVec_congr
    intro j hj
    rw [harmonicCols_length] at hj
    exact (huniq j hj).symm
  refine ⟨hres, ?_, ?_, ?_⟩
  · have e : r.residualRms = Real.sqrt (colMean n fun t => r.noiseResidual t ^ 2) * 2 * Real.sqrt 2 := by
      rw [hr]
      rfl
    rw [e]
    unfold colMean
    rw [sum_eq_zero fun t ht => by rw [hres t (mem_range.mp ht)]; norm_num, zero_div, Real.sqrt_zero]
    ring
  · intro k hk
    have e : r.magnitudes k = ‖(⟨W.getD (1 + 2 * k) 0, W.getD (2 + 2 * k) 0⟩ : ℂ)‖ * 2 := by rw [hr]; rfl
    rw [e, (hWc k hk).1, (hWc k hk).2, Complex.norm_def, Complex.normSq_apply]
    simp only
    rw [show A k * Real.cos (θ k) * (A k * Real.cos (θ k)) + A k * Real.sin (θ k) * (A k * Real.sin (θ k)) = A k ^ 2 by
      have := Real.sin_sq_add_cos_sq (θ k)
      linear_combination A k ^ 2 * this, Real.sqrt_sq (hA k hk)]
    ring
  · intro hA0 k hk hAk
    have e : r.phases k = wrapPhase ((⟨W.getD (1 + 2 * k) 0, W.getD (2 + 2 * k) 0⟩ : ℂ).arg - (⟨W.getD (1 + 2 * 0) 0, W.getD (2 + 2 * 0) 0⟩ : ℂ).arg * ((k : ℝ) + 1)) := by rw [hr]; rfl
    rw [e, (hWc k hk).1, (hWc k hk).2, (hWc 0 (by omega)).1, (hWc 0 (by omega)).2]
    obtain ⟨a, ha⟩ := arg_polar (A k) (θ k) hAk
    obtain ⟨b, hb⟩ := arg_polar (A 0) (θ 0) hA0
    obtain ⟨c, hc⟩ := wrap_congr ((⟨A k * Real.cos (θ k), A k * Real.sin (θ k)⟩ : ℂ).arg - (⟨A 0 * Real.cos (θ 0), A 0 * Real.sin (θ 0)⟩ : ℂ).arg * ((k : ℝ) + 1))
    refine ⟨a - b * (k + 1) + c, ?_⟩
    rw [hc, ha, hb]
    push_cast
    ring

/-- **C51 (time shift).** Two records of the same distorted sine taken at different times give the same magnitudes and the same relative
phases (for every harmonic that is present). -/
theorem C51_time_shift (solve : Lstsq) (hs : IsLstsq solve) (n : ℕ) (hn : n ≠ 1) (runs runs' : ℕ) (x x' : ℕ → ℕ → ℝ) (H : ℕ) (freq freq' : Option ℝ) (maxIter : ℤ) (tol : ℝ) (r r' : HarmonicSplit)
    (h : decomposeHarmonic solve runs n x H freq maxIter tol = .ok r) (h' : decomposeHarmonic solve runs' n x' H freq' maxIter tol = .ok r') (hlen : 2 * H + 1 ≤ n)
    (hff : r'.fundamentalFreq = r.fundamentalFreq) (hfreq : ∀ m : ℕ, 0 < m → m ≤ 2 * H → ∀ z : ℤ, r.fundamentalFreq * m ≠ z) (D : ℝ) (A θ : ℕ → ℝ) (hA : ∀ k < H, 0 ≤ A k) (shift : ℝ)
    (hy : ∀ t < n, averageRecord runs x t = distorted D r.fundamentalFreq H A θ t)
    (hy' : ∀ t < n, averageRecord runs' x' t = distorted D r.fundamentalFreq H A θ (t + shift)) :
    (∀ k < H, r'.magnitudes k = r.magnitudes k) ∧ (0 < A 0 → ∀ k < H, 0 < A k → r'.phases k = r.phases k) := by
  obtain ⟨_, _, hm, hp⟩ := C51_recovery solve hs runs n hn x H freq maxIter tol r h hlen hfreq D A θ hA hy
  obtain ⟨_, _, hm', hp'⟩ := C51_recovery solve hs runs' n hn x' H freq' maxIter tol r' h' hlen (by rw [hff]; exact hfreq) D A
    (fun k => θ k - ((k : ℝ) + 1) * (2 * Real.pi * r.fundamentalFreq * shift)) hA (by
      intro t ht
      rw [hy' t ht, hff]
      unfold distorted
      congr 1
      apply sum_congr rfl
      intro k _
      congr 2
      ring)
  refine ⟨fun k hk => by rw [hm k hk, hm' k hk], fun h0 k hk hAk => ?_⟩
  obtain ⟨a, ha⟩ := hp h0 k hk hAk
  obtain ⟨b, hb⟩ := hp' h0 k hk hAk
  obtain ⟨_, _, _, _, hmem, _⟩ := C51_reconstruction solve runs n hn x H freq maxIter tol r h
  obtain ⟨_, _, _, _, hmem', _⟩ := C51_reconstruction solve runs' n hn x' H freq' maxIter tol r' h'
  apply wrap_unique _ _ (hmem' k).2 (hmem k).2 (b - a)
  rw [ha, hb]
  push_cast
  ring

/-- **C51 (frequency and errors).** With `max_iterations = 0` and a given frequency, that frequency is the one used; without any harmonic the
call raises `ValueError`; with a frequency and at least one harmonic it succeeds. A single column is read as one record. -/
theorem C51_frequency (solve : Lstsq) (runs n : ℕ) (x : ℕ → ℕ → ℝ) (H : ℤ) (f tol : ℝ) (maxIter : ℤ) :
    (H ≤ 0 → decomposeHarmonic solve runs n x H (some f) maxIter tol = .error .valueError) ∧
    (0 < H → ∃ r, decomposeHarmonic solve runs n x H (some f) maxIter tol = .ok r ∧ (maxIter = 0 → r.fundamentalFreq = f)) ∧
    (∀ freq, 1 < runs → decomposeHarmonic solve runs 1 x H freq maxIter tol = decomposeHarmonic solve 1 runs (fun _ t => x t 0) H freq maxIter tol) := by
  refine ⟨fun hH => ?_, fun hH => ?_, fun freq hruns => ?_⟩
  · unfold decomposeHarmonic fitCore
    simp only [hH, if_true]
  · unfold decomposeHarmonic fitCore
    simp only
    rw [if_neg (by omega)]
    refine ⟨_, rfl, ?_⟩
    rintro rfl
    rfl
  · unfold decomposeHarmonic averageRuns
    rw [if_pos rfl, if_neg (by omega)]
    simp

/-- The fifth-harmonic default on sixteen samples of a sine with a third harmonic, at a frequency of 3/16. -/
example (solve : Lstsq) (hs : IsLstsq solve) : ∃ r, decomposeHarmonic solve 1 16 (fun _ t => distorted 2 (3 / 16) 5 (fun k => if k = 0 then 1 else if k = 2 then 1 / 10 else 0) (fun _ => 1) t)
    (5 : ℕ) (some (3 / 16)) 0 (1 / 10 ^ 9) = .ok r ∧ r.magnitudes 0 = 2 ∧ r.magnitudes 2 = 2 / 10 ∧ r.residualRms = 0 := by
  obtain ⟨r, hr, hf⟩ := (C51_frequency solve 1 16 (fun _ t => distorted 2 (3 / 16) 5 (fun k => if k = 0 then 1 else if k = 2 then 1 / 10 else 0) (fun _ => 1) t) (5 : ℕ) (3 / 16) (1 / 10 ^ 9) 0).2.1 (by norm_num)
  have hf := hf rfl
  obtain ⟨_, h2, h3, _⟩ := C51_recovery solve hs 1 16 (by norm_num) _ 5 (some (3 / 16)) 0 (1 / 10 ^ 9) r hr (by norm_num)
    (by
      intro m hm0 hm z hz
      rw [hf] at hz
      have h1 : (3 : ℝ) * m = 16 * z := by linarith
      have h2 : (3 : ℤ) * m = 16 * z := by exact_mod_cast h1
      omega) 2
    (fun k => if k = 0 then 1 else if k = 2 then 1 / 10 else 0) (fun _ => 1)
    (by
      intro k _
      beta_reduce
      split_ifs <;> norm_num)
    (by
      intro t _
      rw [hf]
      unfold averageRecord
      simp)
  refine ⟨r, hr, ?_, ?_, h2⟩
  · rw [h3 0 (by norm_num)]; norm_num
  · rw [h3 2 (by norm_num)]; norm_num

end Verif
