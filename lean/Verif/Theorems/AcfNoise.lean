import Verif.Theorems.ErrorAcf
import Verif.Theorems.ErrorByValueInl
import Verif.Theorems.CapMismatch

/-!
# C157: what the error autocorrelation shows of noise on a sine
-/

namespace Verif

open Model Finset MeasureTheory ProbabilityTheory

variable {n b : ℕ}

/-! ## Helpers -/

/-- The projection onto a constant and a sine of `b` periods in `n` samples. -/
private noncomputable def proj (n b t u : ℕ) : ℝ :=
  (1 + 2 * Real.cos (2 * Real.pi * ((b : ℝ) / n) * t - 2 * Real.pi * ((b : ℝ) / n) * u)) / n

private theorem proj_abs (hn : 0 < n) (t u : ℕ) : |proj n b t u| ≤ 3 / n := by
  have hnR : (0 : ℝ) < n := by exact_mod_cast hn
  unfold proj
  rw [abs_div, abs_of_pos hnR]
  refine div_le_div_of_nonneg_right ?_ hnR.le
  rw [abs_le]
  constructor <;> nlinarith [Real.neg_one_le_cos (2 * Real.pi * ((b : ℝ) / n) * t - 2 * Real.pi * ((b : ℝ) / n) * u),
    Real.cos_le_one (2 * Real.pi * ((b : ℝ) / n) * t - 2 * Real.pi * ((b : ℝ) / n) * u)]

private theorem proj_idem (hb : 0 < b) (hbn : 2 * b < n) (s t : ℕ) : ∑ u ∈ range n, proj n b s u * proj n b t u = proj n b s t := by
  have hnR : (0 : ℝ) < n := by exact_mod_cast (by omega : 0 < n)
  obtain ⟨θ, hθ⟩ : ∃ θ : ℕ → ℝ, ∀ t, θ t = 2 * Real.pi * ((b : ℝ) / n) * t := ⟨_, fun _ => rfl⟩
  obtain ⟨s1, s2, s3, s4, s5⟩ := coherent_sums_shift n b hb hbn (-θ s)
  simp only [← hθ] at s1 s2 s3 s4 s5
  have e : ∀ u ∈ range n, proj n b s u * proj n b t u = (1 + (2 + 2 * Real.cos (θ s - θ t)) * Real.cos (θ u + -θ s) - 2 * Real.sin (θ s - θ t) * Real.sin (θ u + -θ s)
      + 4 * Real.cos (θ s - θ t) * Real.cos (θ u + -θ s) ^ 2 - 4 * Real.sin (θ s - θ t) * (Real.sin (θ u + -θ s) * Real.cos (θ u + -θ s))) / (n : ℝ) ^ 2 := by
    intro u _
    unfold proj
    simp only [← hθ]
    have h1 : Real.cos (θ s - θ u) = Real.cos (θ u + -θ s) := by rw [← Real.cos_neg]; ring_nf
    have h2 : Real.cos (θ t - θ u) = Real.cos (θ u + -θ s) * Real.cos (θ s - θ t) - Real.sin (θ u + -θ s) * Real.sin (θ s - θ t) := by
      rw [← Real.cos_add, ← Real.cos_neg]; ring_nf
    rw [h1, h2]
    field_simp
    ring
  rw [sum_congr rfl e, ← sum_div, sum_sub_distrib, sum_add_distrib, sum_sub_distrib, sum_add_distrib, ← mul_sum, ← mul_sum, ← mul_sum, ← mul_sum, s1, s2, s3, s5]
  unfold proj
  simp only [← hθ, sum_const, card_range, nsmul_eq_mul]
  field_simp
  ring

/-- The residual of the fit is the noise less its projection. -/
private theorem residual_noise (solve : Lstsq) (hs : IsLstsq solve) (hb : 0 < b) (hbn : 2 * b < n) (A φ D tol : ℝ) (z : ℕ → ℝ) (fit : SineFit)
    (hf : fitCore solve n (fun t => sineAt A ((b : ℝ) / n) φ D t + z t) (some ((b : ℝ) / n)) 0 tol = .ok fit) (t : ℕ) :
    (sineAt A ((b : ℝ) / n) φ D t + z t) - fit.fitted t = z t - ∑ u ∈ range n, proj n b t u * z u := by
  have hnR : (0 : ℝ) < n := by exact_mod_cast (by omega : 0 < n)
  obtain ⟨c, P, Q, e1, e2, e3, e4⟩ := coherent_fit_parts solve hs n b hb hbn _ φ tol fit hf
  obtain ⟨s1, s2, s3, s4, s5⟩ := coherent_sums_shift n b hb hbn φ
  obtain ⟨θ, hθ⟩ : ∃ θ : ℕ → ℝ, ∀ t, θ t = 2 * Real.pi * ((b : ℝ) / n) * t := ⟨_, fun _ => rfl⟩
  unfold sineAt at e2 e3 e4 ⊢
  simp only [← hθ] at e1 e2 e3 e4 s1 s2 s3 s4 s5 ⊢
  have f2 : n * c = n * D + ∑ u ∈ range n, z u := by
    rw [← e2, sum_add_distrib, sum_add_distrib, ← mul_sum, s1]
    simp
  have f3 : n / 2 * P = n / 2 * A + ∑ u ∈ range n, z u * Real.cos (θ u + φ) := by
    rw [← e3, sum_congr rfl fun u _ => show (A * Real.cos (θ u + φ) + D + z u) * Real.cos (θ u + φ)
      = A * Real.cos (θ u + φ) ^ 2 + D * Real.cos (θ u + φ) + z u * Real.cos (θ u + φ) by ring, sum_add_distrib, sum_add_distrib, ← mul_sum, ← mul_sum, s1, s3]
    ring
  have f4 : n / 2 * Q = ∑ u ∈ range n, z u * Real.sin (θ u + φ) := by
    rw [← e4, sum_congr rfl fun u _ => show (A * Real.cos (θ u + φ) + D + z u) * Real.sin (θ u + φ)
      = A * (Real.sin (θ u + φ) * Real.cos (θ u + φ)) + D * Real.sin (θ u + φ) + z u * Real.sin (θ u + φ) by ring, sum_add_distrib, sum_add_distrib, ← mul_sum, ← mul_sum, s2, s5]
    ring
  have e : ∑ u ∈ range n, proj n b t u * z u = (∑ u ∈ range n, z u) / n + 2 / n * Real.cos (θ t + φ) * ∑ u ∈ range n, z u * Real.cos (θ u + φ)
      + 2 / n * Real.sin (θ t + φ) * ∑ u ∈ range n, z u * Real.sin (θ u + φ) := by
    rw [sum_div, mul_sum, mul_sum, ← sum_add_distrib, ← sum_add_distrib]
    refine sum_congr rfl fun u _ => ?_
    unfold proj
    simp only [← hθ]
    rw [show θ t - θ u = (θ t + φ) - (θ u + φ) by ring, Real.cos_sub]
    field_simp
    ring
  rw [e, e1, ← f4, show ∑ u ∈ range n, z u = n * c - n * D by linarith, show ∑ u ∈ range n, z u * Real.cos (θ u + φ) = n / 2 * P - n / 2 * A by linarith]
  field_simp
  ring

/-- Removing the mean does nothing to the residual. -/
private theorem centred_residual (hb : 0 < b) (hbn : 2 * b < n) (z : ℕ → ℝ) (e : ℕ → ℝ) (he : ∀ t, e t = z t - ∑ u ∈ range n, proj n b t u * z u) (t : ℕ) :
    centred n e t = e t := by
  have hnR : (0 : ℝ) < n := by exact_mod_cast (by omega : 0 < n)
  have h0 : ∑ s ∈ range n, e s = 0 := by
    rw [sum_congr rfl fun s _ => he s, sum_sub_distrib, sum_comm, sub_eq_zero]
    refine sum_congr rfl fun u _ => ?_
    rw [← sum_mul]
    have s1 := (coherent_sums_shift n b hb hbn (-(2 * Real.pi * ((b : ℝ) / n) * u))).1
    have : ∑ s ∈ range n, proj n b s u = 1 := by
      unfold proj
      simp only [sub_eq_add_neg]
      rw [← sum_div, sum_add_distrib, ← mul_sum, s1]
      simp only [sum_const, card_range, nsmul_eq_mul]
      field_simp
      ring
    rw [this, one_mul]
  unfold centred
  rw [h0]
  simp

variable {Ω : Type*} [MeasurableSpace Ω] (μ : Measure Ω)

/-- Second moments of linear combinations of noise. -/
private theorem bilinear (Z : ℕ → Ω → ℝ) (C : ℕ → ℕ → ℝ) (h2 : ∀ i, MemLp (Z i) 2 μ) (hcov : ∀ i j, ∫ ω, Z i ω * Z j ω ∂μ = C i j) (p q : ℕ → ℝ) :
    Integrable (fun ω => (∑ u ∈ range n, p u * Z u ω) * ∑ v ∈ range n, q v * Z v ω) μ ∧
    ∫ ω, (∑ u ∈ range n, p u * Z u ω) * ∑ v ∈ range n, q v * Z v ω ∂μ = ∑ u ∈ range n, ∑ v ∈ range n, p u * q v * C u v := by
  have e : (fun ω => (∑ u ∈ range n, p u * Z u ω) * ∑ v ∈ range n, q v * Z v ω) = fun ω => ∑ u ∈ range n, ∑ v ∈ range n, p u * q v * (Z u ω * Z v ω) := by
    funext ω
    rw [sum_mul_sum]
    exact sum_congr rfl fun s _ => sum_congr rfl fun t _ => by ring
  have hi : ∀ s t, Integrable (fun ω => p s * q t * (Z s ω * Z t ω)) μ := fun s t => ((h2 s).integrable_mul (h2 t)).const_mul _
  rw [e]
  refine ⟨integrable_finset_sum _ fun s _ => integrable_finset_sum _ fun t _ => hi s t, ?_⟩
  rw [integral_finset_sum _ fun s _ => integrable_finset_sum _ fun t _ => hi s t]
  refine sum_congr rfl fun s _ => ?_
  rw [integral_finset_sum _ fun t _ => hi s t]
  exact sum_congr rfl fun t _ => by rw [integral_const_mul, hcov]

/-- The matrix of the residual. -/
private noncomputable def resid (n b t u : ℕ) : ℝ := (if t = u then 1 else 0) - proj n b t u

private theorem resid_sum (t : ℕ) (ht : t < n) (z : ℕ → ℝ) : z t - ∑ u ∈ range n, proj n b t u * z u = ∑ u ∈ range n, resid n b t u * z u := by
  unfold resid
  simp only [sub_mul, ite_mul, one_mul, zero_mul]
  rw [sum_sub_distrib, sum_ite_eq, if_pos (mem_range.mpr ht)]

/-- The entry of the reported autocorrelation, in terms of the noise. -/
private theorem acf_noise (solve : Lstsq) (hs : IsLstsq solve) (hb : 0 < b) (hbn : 2 * b < n) (A φ D tol : ℝ) (z : ℕ → ℝ) (L : ℕ) (hL : L < n) (r : ErrorAcf)
    (h : errorAutocorr solve n (fun t => sineAt A ((b : ℝ) / n) φ D t + z t) (some ((b : ℝ) / n)) L false 0 tol = .ok r) (i : ℕ) (hi : i < 2 * L + 1) :
    r.acf[i]? = some (some ((∑ t ∈ range (n - ((i : ℤ) - L).natAbs), (∑ u ∈ range n, resid n b t u * z u) * ∑ u ∈ range n, resid n b (t + ((i : ℤ) - L).natAbs) u * z u)
      / ((n : ℝ) - ((i : ℤ) - L).natAbs))) := by
  obtain ⟨_, _, hv⟩ := C52_values solve n _ _ L hL false 0 tol r h
  obtain ⟨_, fit, hf, herr, _⟩ := acf_ok solve n _ _ L false 0 tol r h
  rw [(hv i hi).2]
  have hres : ∀ t, r.err t = z t - ∑ u ∈ range n, proj n b t u * z u := by
    intro t
    rw [herr]
    exact residual_noise solve hs hb hbn A φ D tol z fit hf t
  simp only [Bool.false_eq_true, if_false]
  unfold autocov
  congr 3
  refine sum_congr rfl fun t ht => ?_
  have := mem_range.mp ht
  rw [centred_residual hb hbn z r.err hres, centred_residual hb hbn z r.err hres, hres, hres, resid_sum t (by omega), resid_sum _ (by omega)]

/-- The expected entry. -/
private theorem expected_acf (solve : Lstsq) (hs : IsLstsq solve) (hb : 0 < b) (hbn : 2 * b < n) (A φ D tol : ℝ) (L : ℕ) (hL : L < n)
    (Z : ℕ → Ω → ℝ) (C : ℕ → ℕ → ℝ) (h2 : ∀ i, MemLp (Z i) 2 μ) (hcov : ∀ i j, ∫ ω, Z i ω * Z j ω ∂μ = C i j) (r : Ω → ErrorAcf)
    (hr : ∀ ω, errorAutocorr solve n (fun t => sineAt A ((b : ℝ) / n) φ D t + Z t ω) (some ((b : ℝ) / n)) L false 0 tol = .ok (r ω)) (i : ℕ) (hi : i < 2 * L + 1) :
    ∃ v : Ω → ℝ, (∀ ω, (r ω).acf[i]? = some (some (v ω))) ∧ Integrable v μ ∧
      ∫ ω, v ω ∂μ = (∑ t ∈ range (n - ((i : ℤ) - L).natAbs), ∑ u ∈ range n, ∑ w ∈ range n, resid n b t u * resid n b (t + ((i : ℤ) - L).natAbs) w * C u w)
        / ((n : ℝ) - ((i : ℤ) - L).natAbs) := by
  refine ⟨_, fun ω => acf_noise solve hs hb hbn A φ D tol (fun t => Z t ω) L hL (r ω) (hr ω) i hi, ?_, ?_⟩
  · exact (integrable_finset_sum _ fun t _ => (bilinear μ Z C h2 hcov _ _).1).div_const _
  · rw [integral_div, integral_finset_sum _ fun t _ => (bilinear μ Z C h2 hcov _ _).1]
    congr 1
    exact sum_congr rfl fun t _ => (bilinear μ Z C h2 hcov _ _).2

/-! ## Theorems -/

/-- **C157 (white noise).** Uncorrelated noise of rms `σ` on a coherent sine: the expected autocorrelation at lag 0 is `σ² (n - 3) / n`, and at any other lag `k` it is
`-σ² (1 + 2 cos(2π b k / n)) / n`, which vanishes with the length of the record. -/
theorem C157_white (solve : Lstsq) (hs : IsLstsq solve) (hb : 0 < b) (hbn : 2 * b < n) (A φ D tol : ℝ) (L : ℕ) (hL : L < n)
    (Z : ℕ → Ω → ℝ) (σ : ℝ) (h2 : ∀ i, MemLp (Z i) 2 μ) (hcov : ∀ i j, ∫ ω, Z i ω * Z j ω ∂μ = if i = j then σ ^ 2 else 0) (r : Ω → ErrorAcf)
    (hr : ∀ ω, errorAutocorr solve n (fun t => sineAt A ((b : ℝ) / n) φ D t + Z t ω) (some ((b : ℝ) / n)) L false 0 tol = .ok (r ω)) (i : ℕ) (hi : i < 2 * L + 1) :
    ∃ v : Ω → ℝ, (∀ ω, (r ω).acf[i]? = some (some (v ω))) ∧ Integrable v μ ∧
      ∫ ω, v ω ∂μ = if i = L then σ ^ 2 * ((n - 3) / n) else -(σ ^ 2 * (1 + 2 * Real.cos (2 * Real.pi * ((b : ℝ) / n) * ((i : ℝ) - L))) / n) := by
  obtain ⟨v, h1, h3, h4⟩ := expected_acf μ solve hs hb hbn A φ D tol L hL Z _ h2 hcov r hr i hi
  refine ⟨v, h1, h3, ?_⟩
  have hnR : (0 : ℝ) < n := by exact_mod_cast (by omega : 0 < n)
  obtain ⟨k, hk⟩ : ∃ k, k = ((i : ℤ) - L).natAbs := ⟨_, rfl⟩
  have hkn : k < n := by omega
  have hkR : (0 : ℝ) < (n : ℝ) - k := sub_pos.mpr (by exact_mod_cast hkn)
  rw [h4, ← hk]
  have e : ∀ t ∈ range (n - k), ∑ u ∈ range n, ∑ w ∈ range n, resid n b t u * resid n b (t + k) w * (if u = w then σ ^ 2 else 0)
      = σ ^ 2 * ((if k = 0 then 1 else 0) - (1 + 2 * Real.cos (2 * Real.pi * ((b : ℝ) / n) * k)) / n) := by
    intro t ht
    have htn := mem_range.mp ht
    have f1 : ∀ u ∈ range n, ∑ w ∈ range n, resid n b t u * resid n b (t + k) w * (if u = w then σ ^ 2 else 0) = σ ^ 2 * (resid n b t u * resid n b (t + k) u) := by
      intro u hu
      simp only [mul_ite, mul_zero]
      rw [sum_ite_eq, if_pos hu]
      ring
    rw [sum_congr rfl f1, ← mul_sum]
    congr 1
    have f2 : ∀ u ∈ range n, resid n b t u * resid n b (t + k) u = (if t = u then (if t + k = u then 1 else 0) - proj n b (t + k) u else 0)
        - (if t + k = u then proj n b t u else 0) + proj n b t u * proj n b (t + k) u := by
      intro u _
      unfold resid
      split_ifs <;> ring
    rw [sum_congr rfl f2, sum_add_distrib, sum_sub_distrib, sum_ite_eq, sum_ite_eq, if_pos (mem_range.mpr (by omega)), if_pos (mem_range.mpr (by omega)), proj_idem hb hbn]
    have f3 : proj n b (t + k) t = (1 + 2 * Real.cos (2 * Real.pi * ((b : ℝ) / n) * k)) / n := by
      unfold proj
      push_cast
      ring_nf
    rw [f3]
    have f4 : (t + k = t) ↔ k = 0 := by omega
    simp only [f4]
    ring
  rw [sum_congr rfl e, sum_const, card_range, nsmul_eq_mul, Nat.cast_sub hkn.le, mul_div_assoc, mul_div_assoc', mul_comm, mul_div_assoc, div_self hkR.ne', mul_one]
  by_cases hiL : i = L
  · have : k = 0 := by omega
    rw [if_pos hiL, this, if_pos rfl]
    simp only [Nat.cast_zero, mul_zero, Real.cos_zero]
    field_simp
    ring
  · rw [if_neg hiL, if_neg (by omega)]
    have hc : Real.cos (2 * Real.pi * ((b : ℝ) / n) * k) = Real.cos (2 * Real.pi * ((b : ℝ) / n) * ((i : ℝ) - L)) := by
      rcases le_total L i with h | h
      · have : (k : ℝ) = (i : ℝ) - L := by
          have : (k : ℤ) = (i : ℤ) - L := by omega
          exact_mod_cast this
        rw [this]
      · have : (k : ℝ) = -((i : ℝ) - L) := by
          have : (k : ℤ) = -((i : ℤ) - L) := by omega
          exact_mod_cast this
        rw [this, mul_neg, Real.cos_neg]
    rw [hc]
    ring

/-- **C157 (correlated noise).** Noise with any second moments `C i j` whose rows sum to at most `G` in absolute value, on a coherent sine: the expected autocorrelation at
lag `k` is the mean of `C t (t + k)` over the record, within `15 G / n`. -/
theorem C157_correlated (solve : Lstsq) (hs : IsLstsq solve) (hb : 0 < b) (hbn : 2 * b < n) (A φ D tol : ℝ) (L : ℕ) (hL : L < n)
    (Z : ℕ → Ω → ℝ) (C : ℕ → ℕ → ℝ) (G : ℝ) (h2 : ∀ i, MemLp (Z i) 2 μ) (hcov : ∀ i j, ∫ ω, Z i ω * Z j ω ∂μ = C i j) (hG : ∀ i < n, ∑ j ∈ range n, |C i j| ≤ G)
    (r : Ω → ErrorAcf)
    (hr : ∀ ω, errorAutocorr solve n (fun t => sineAt A ((b : ℝ) / n) φ D t + Z t ω) (some ((b : ℝ) / n)) L false 0 tol = .ok (r ω)) (i : ℕ) (hi : i < 2 * L + 1) :
    ∃ v : Ω → ℝ, (∀ ω, (r ω).acf[i]? = some (some (v ω))) ∧ Integrable v μ ∧
      |∫ ω, v ω ∂μ - (∑ t ∈ range (n - ((i : ℤ) - L).natAbs), C t (t + ((i : ℤ) - L).natAbs)) / ((n : ℝ) - ((i : ℤ) - L).natAbs)| ≤ 15 * G / n := by
  obtain ⟨v, h1, h3, h4⟩ := expected_acf μ solve hs hb hbn A φ D tol L hL Z C h2 hcov r hr i hi
  refine ⟨v, h1, h3, ?_⟩
  have hn : 0 < n := by omega
  have hnR : (0 : ℝ) < n := by exact_mod_cast hn
  obtain ⟨k, hk⟩ : ∃ k, k = ((i : ℤ) - L).natAbs := ⟨_, rfl⟩
  have hkn : k < n := by omega
  have hkR : (0 : ℝ) < (n : ℝ) - k := sub_pos.mpr (by exact_mod_cast hkn)
  have hsymm : ∀ i j, C i j = C j i := fun i j => by
    rw [← hcov, ← hcov]
    exact integral_congr_ae (Filter.Eventually.of_forall fun ω => mul_comm _ _)
  have hrow : ∀ (s : ℕ) (q : ℕ → ℝ), s < n → (∀ u, |q u| ≤ 3 / n) → |∑ u ∈ range n, q u * C s u| ≤ 3 / n * G := by
    intro s q hsn hq
    calc |∑ u ∈ range n, q u * C s u| ≤ ∑ u ∈ range n, 3 / n * |C s u| :=
          (abs_sum_le_sum_abs _ _).trans (sum_le_sum fun u _ => by rw [abs_mul]; exact mul_le_mul_of_nonneg_right (hq u) (abs_nonneg _))
      _ = 3 / n * ∑ u ∈ range n, |C s u| := by rw [mul_sum]
      _ ≤ 3 / n * G := mul_le_mul_of_nonneg_left (hG s hsn) (by positivity)
  have hterm : ∀ s t, s < n → t < n → |∑ u ∈ range n, ∑ w ∈ range n, resid n b s u * resid n b t w * C u w - C s t| ≤ 15 * G / n := by
    intro s t hsn htn
    have f1 : ∑ u ∈ range n, ∑ w ∈ range n, resid n b s u * resid n b t w * C u w
        = C s t - ∑ w ∈ range n, proj n b t w * C s w - ∑ u ∈ range n, proj n b s u * C t u + ∑ u ∈ range n, proj n b s u * ∑ w ∈ range n, proj n b t w * C u w := by
      have g1 : ∀ u ∈ range n, ∑ w ∈ range n, resid n b s u * resid n b t w * C u w = resid n b s u * (C u t - ∑ w ∈ range n, proj n b t w * C u w) := by
        intro u _
        rw [resid_sum t htn (fun w => C u w), mul_sum]
        exact sum_congr rfl fun w _ => by ring
      rw [sum_congr rfl g1, ← resid_sum s hsn (fun u => C u t - ∑ w ∈ range n, proj n b t w * C u w)]
      have g2 : ∑ u ∈ range n, proj n b s u * (C u t - ∑ w ∈ range n, proj n b t w * C u w)
          = ∑ u ∈ range n, proj n b s u * C t u - ∑ u ∈ range n, proj n b s u * ∑ w ∈ range n, proj n b t w * C u w := by
        rw [← sum_sub_distrib]
        exact sum_congr rfl fun u _ => by rw [hsymm t u]; ring
      rw [g2]
      ring
    have b1 := hrow s (proj n b t) hsn (proj_abs hn t)
    have b2 := hrow t (proj n b s) htn (proj_abs hn s)
    have b3 : |∑ u ∈ range n, proj n b s u * ∑ w ∈ range n, proj n b t w * C u w| ≤ 9 / n * G := by
      calc |∑ u ∈ range n, proj n b s u * ∑ w ∈ range n, proj n b t w * C u w| ≤ ∑ u ∈ range n, 3 / n * (3 / n * G) := by
            refine (abs_sum_le_sum_abs _ _).trans (sum_le_sum fun u hu => ?_)
            rw [abs_mul]
            exact mul_le_mul (proj_abs hn s u) (hrow u _ (mem_range.mp hu) (proj_abs hn t)) (abs_nonneg _) (by positivity)
        _ = 9 / n * G := by
            rw [sum_const, card_range, nsmul_eq_mul]
            field_simp
            ring
    rw [f1]
    have e15 : 15 * G / n = 3 / n * G + 3 / n * G + 9 / n * G := by ring
    rw [e15]
    rw [abs_le] at b1 b2 b3 ⊢
    constructor <;> linarith [b1.1, b1.2, b2.1, b2.2, b3.1, b3.2]
  rw [h4, ← hk, ← sub_div, ← sum_sub_distrib, abs_div, abs_of_pos hkR, div_le_iff₀ hkR]
  refine (abs_sum_le_sum_abs _ _).trans ((sum_le_sum fun t ht => hterm t (t + k) (by have := mem_range.mp ht; omega) (by have := mem_range.mp ht; omega)).trans (le_of_eq ?_))
  rw [sum_const, card_range, nsmul_eq_mul, Nat.cast_sub hkn.le]
  ring

/-! ## Examples -/

private theorem normal_cov {Ω : Type} [MeasurableSpace Ω] {μ : Measure Ω} [IsProbabilityMeasure μ] (Z : ℕ → Ω → ℝ) (h1 : ∀ i, MemLp (Z i) 2 μ) (h2 : ∀ i, ∫ ω, Z i ω ∂μ = 0)
    (h3 : ∀ i, Var[Z i; μ] = 1) (h4 : Pairwise fun i j => IndepFun (Z i) (Z j) μ) (i j : ℕ) : ∫ ω, Z i ω * Z j ω ∂μ = if i = j then 1 else 0 := by
  split_ifs with e
  · subst e
    have := variance_eq_sub (h1 i)
    rw [h2 i, h3 i] at this
    simp only [pow_two] at this ⊢
    simpa using this.symm
  · have := (h4 e).integral_fun_mul_eq_mul_integral (h1 i).1 (h1 j).1
    rw [this, h2 i, zero_mul]

/-- Normal draws of rms 1 on a sine of one period in twelve samples: the expected value at lag 6 is `-(1 + 2 cos π) / 12 = 1 / 12`. -/
example (solve : Lstsq) (hs : IsLstsq solve) : ∃ (Ω : Type) (_ : MeasurableSpace Ω) (μ : Measure Ω) (_ : IsProbabilityMeasure μ) (Z : ℕ → Ω → ℝ) (r : Ω → ErrorAcf) (v : Ω → ℝ),
    (∀ ω, errorAutocorr solve 12 (fun t => sineAt 3 (((1 : ℕ) : ℝ) / (12 : ℕ)) 1 2 t + Z t ω) (some (((1 : ℕ) : ℝ) / (12 : ℕ))) (6 : ℕ) false 0 (1 / 10 ^ 9) = .ok (r ω)) ∧
    (∀ ω, (r ω).acf[12]? = some (some (v ω))) ∧ ∫ ω, v ω ∂μ = 1 / 12 := by
  obtain ⟨Ω, m, μ, hμ, Z, h1, h2, h3, h4, _⟩ := exists_normal_draws
  have hex := fun ω => (C52_errors solve 12 (fun t => sineAt 3 (((1 : ℕ) : ℝ) / (12 : ℕ)) 1 2 t + Z t ω) (((1 : ℕ) : ℝ) / (12 : ℕ)) 6 false 0 (1 / 10 ^ 9)).1 (by norm_num)
  choose r hr using hex
  obtain ⟨v, hv, _, he⟩ := C157_white (n := 12) (b := 1) μ solve hs (by norm_num) (by norm_num) 3 1 2 (1 / 10 ^ 9) 6 (by norm_num) Z 1 h1
    (fun i j => by rw [normal_cov Z h1 h2 h3 h4]; simp) r hr 12 (by norm_num)
  refine ⟨Ω, m, μ, hμ, Z, r, v, hr, hv, ?_⟩
  rw [he, if_neg (by norm_num), show 2 * Real.pi * (((1 : ℕ) : ℝ) / (12 : ℕ)) * (((12 : ℕ) : ℝ) - (6 : ℕ)) = Real.pi by push_cast; ring, Real.cos_pi]
  norm_num

/-- Every draw is shared by two neighbouring samples: on a thousand samples the expected value at lag 1 is 1, within 0.06, and at lag 2 it is 0 within 0.06. -/
example (solve : Lstsq) (hs : IsLstsq solve) : ∃ (Ω : Type) (_ : MeasurableSpace Ω) (μ : Measure Ω) (_ : IsProbabilityMeasure μ) (Z : ℕ → Ω → ℝ) (r : Ω → ErrorAcf) (v w : Ω → ℝ),
    (∀ ω, errorAutocorr solve 1000 (fun t => sineAt 3 (((7 : ℕ) : ℝ) / (1000 : ℕ)) 1 2 t + (Z t ω + Z (t + 1) ω)) (some (((7 : ℕ) : ℝ) / (1000 : ℕ))) (50 : ℕ) false 0 (1 / 10 ^ 9)
      = .ok (r ω)) ∧
    (∀ ω, (r ω).acf[51]? = some (some (v ω)) ∧ (r ω).acf[52]? = some (some (w ω))) ∧ |∫ ω, v ω ∂μ - 1| ≤ 6 / 100 ∧ |∫ ω, w ω ∂μ| ≤ 6 / 100 := by
  obtain ⟨Ω, m, μ, hμ, Z, h1, h2, h3, h4, _⟩ := exists_normal_draws
  have hex := fun ω => (C52_errors solve 1000 (fun t => sineAt 3 (((7 : ℕ) : ℝ) / (1000 : ℕ)) 1 2 t + (Z t ω + Z (t + 1) ω)) (((7 : ℕ) : ℝ) / (1000 : ℕ)) 50 false 0 (1 / 10 ^ 9)).1
    (by norm_num)
  choose r hr using hex
  obtain ⟨C, hC⟩ : ∃ C : ℕ → ℕ → ℝ, ∀ i j, C i j = (if i = j then 1 else 0) + (if i = j + 1 then 1 else 0) + (if i + 1 = j then 1 else 0) + (if i = j then 1 else 0) := ⟨_, fun _ _ => rfl⟩
  have hcov : ∀ i j, ∫ ω, (Z i ω + Z (i + 1) ω) * (Z j ω + Z (j + 1) ω) ∂μ = C i j := by
    intro i j
    have hi : ∀ s t, Integrable (fun ω => Z s ω * Z t ω) μ := fun s t => (h1 s).integrable_mul (h1 t)
    have e : (fun ω => (Z i ω + Z (i + 1) ω) * (Z j ω + Z (j + 1) ω)) = fun ω => Z i ω * Z j ω + Z i ω * Z (j + 1) ω + Z (i + 1) ω * Z j ω + Z (i + 1) ω * Z (j + 1) ω := by
      funext ω; ring
    have a1 : Integrable (fun ω => Z i ω * Z j ω + Z i ω * Z (j + 1) ω) μ := (hi _ _).add (hi _ _)
    have a2 : Integrable (fun ω => Z i ω * Z j ω + Z i ω * Z (j + 1) ω + Z (i + 1) ω * Z j ω) μ := a1.add (hi _ _)
    rw [e, integral_add a2 (hi _ _), integral_add a1 (hi _ _), integral_add (hi _ _) (hi _ _)]
    simp only [normal_cov Z h1 h2 h3 h4]
    rw [hC]
    simp
  have hG : ∀ i < 1000, ∑ j ∈ range 1000, |C i j| ≤ 4 := by
    intro i _
    have hnn : ∀ j, |C i j| = C i j := fun j => abs_of_nonneg (by rw [hC]; split_ifs <;> norm_num)
    have hone : ∀ p : ℕ → Prop, (∀ j j', p j → p j' → j = j') → ∀ [DecidablePred p], ∑ j ∈ range 1000, (if p j then (1 : ℝ) else 0) ≤ 1 := by
      intro p hp _
      rw [sum_boole]
      have : ((range 1000).filter p).card ≤ 1 := card_le_one.mpr fun a ha c hc => hp a c (mem_filter.mp ha).2 (mem_filter.mp hc).2
      exact_mod_cast this
    rw [sum_congr rfl fun j _ => hnn j, sum_congr rfl fun j _ => hC i j, sum_add_distrib, sum_add_distrib, sum_add_distrib]
    have a1 := hone (fun j => i = j) (by intros; omega)
    have a2 := hone (fun j => i = j + 1) (by intros; omega)
    have a3 := hone (fun j => i + 1 = j) (by intros; omega)
    linarith
  have key := C157_correlated (n := 1000) (b := 7) μ solve hs (by norm_num) (by norm_num) 3 1 2 (1 / 10 ^ 9) 50 (by norm_num) (fun t ω => Z t ω + Z (t + 1) ω) C 4
    (fun i => (h1 i).add (h1 (i + 1))) hcov hG r hr
  obtain ⟨v, hv, _, hev⟩ := key 51 (by norm_num)
  obtain ⟨w, hw, _, hew⟩ := key 52 (by norm_num)
  refine ⟨Ω, m, μ, hμ, Z, r, v, w, hr, fun ω => ⟨hv ω, hw ω⟩, ?_, ?_⟩
  · rw [show (((51 : ℕ) : ℤ) - ((50 : ℕ) : ℤ)).natAbs = 1 by norm_num] at hev
    have e : ∀ t ∈ range (1000 - 1), C t (t + 1) = 1 := fun t _ => by
      rw [hC, if_neg (by omega), if_neg (by omega), if_pos rfl]
      norm_num
    rw [sum_congr rfl e, sum_const, card_range] at hev
    norm_num at hev ⊢
    exact hev
  · rw [show (((52 : ℕ) : ℤ) - ((50 : ℕ) : ℤ)).natAbs = 2 by norm_num] at hew
    have e : ∀ t ∈ range (1000 - 2), C t (t + 2) = 0 := fun t _ => by
      rw [hC, if_neg (by omega), if_neg (by omega), if_neg (by omega)]
      norm_num
    rw [sum_congr rfl e, sum_const_zero] at hew
    norm_num at hew ⊢
    exact hew

end Verif
