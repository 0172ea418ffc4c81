import Verif.Model.ErrorPlots
import Verif.Theorems.ErrorByPhase
import Verif.Theorems.ErrorByValue
import Verif.Theorems.NumText

/-!
# C99: the error-by-phase and error-by-value plots show the reported numbers
-/

namespace Verif

open Model Finset

/-! ## By phase -/

/-- The reported noise model is the best one: no choice of the three coefficients comes closer to the squared errors (specification). -/
def BestNoiseFit (n : ℕ) (r : PhaseBins) : Prop :=
  ∀ a p c : ℝ, ∑ t ∈ range n, (r.err t ^ 2 - noiseCurve r.coeffs.1 r.coeffs.2.1 r.coeffs.2.2 (r.phase t)) ^ 2 ≤
    ∑ t ∈ range n, (r.err t ^ 2 - noiseCurve a p c (r.phase t)) ^ 2

private theorem coeffs_nonneg (solve : Lstsq) (n : ℕ) (x : ℕ → ℝ) (freq : Option ℝ) (nBins : ℤ) (base : Bool) (maxIter : ℤ) (tol : ℝ) (r : PhaseBins)
    (h : rearrangeByPhase solve n x freq nBins base maxIter tol = .ok r) : 0 ≤ r.coeffs.1 ∧ 0 ≤ r.coeffs.2.1 ∧ 0 ≤ r.coeffs.2.2 := by
  obtain ⟨h1, h2, h3, _⟩ := C50_variances solve n x freq nBins base maxIter tol r h
  refine ⟨?_, ?_, ?_⟩
  · rw [← h1.2]; positivity
  · rw [← h2.2]; positivity
  · rw [← h3.2]; positivity

/-- **C99 (curves).** Every curve is the square root of a non-negative number, so none is NaN. Squared, the total curve is the reported noise model, the AM and PM curves are the reported
variances at full sensitivity plus the base, total² + base² = AM² + PM² at every phase, and the curves are ordered base ≤ AM, PM ≤ total. At phase 0 the AM curve, and at phase π/2 the PM
curve, reaches the legend value combined with the base noise. -/
theorem C99_curves (solve : Lstsq) (n : ℕ) (x : ℕ → ℝ) (freq : Option ℝ) (nBins : ℤ) (base : Bool) (maxIter : ℤ) (tol : ℝ) (r : PhaseBins)
    (h : rearrangeByPhase solve n x freq nBins base maxIter tol = .ok r) (φ : ℝ) :
    totalCurve r.coeffs φ ^ 2 = noiseCurve r.coeffs.1 r.coeffs.2.1 r.coeffs.2.2 φ ∧
    amCurve r.coeffs φ ^ 2 = noiseCurve r.coeffs.1 0 r.coeffs.2.2 φ ∧ pmCurve r.coeffs φ ^ 2 = noiseCurve 0 r.coeffs.2.1 r.coeffs.2.2 φ ∧
    totalCurve r.coeffs φ ^ 2 + r.baseRms ^ 2 = amCurve r.coeffs φ ^ 2 + pmCurve r.coeffs φ ^ 2 ∧
    r.baseRms ≤ amCurve r.coeffs φ ∧ r.baseRms ≤ pmCurve r.coeffs φ ∧ amCurve r.coeffs φ ≤ totalCurve r.coeffs φ ∧ pmCurve r.coeffs φ ≤ totalCurve r.coeffs φ ∧
    amCurve r.coeffs 0 ^ 2 = r.amRms ^ 2 + r.baseRms ^ 2 ∧ pmCurve r.coeffs (Real.pi / 2) ^ 2 = r.pmRms ^ 2 + r.baseRms ^ 2 ∧
    baseCurve base r.coeffs = (if base then some r.baseRms else none) := by
  obtain ⟨h1, h2, h3⟩ := coeffs_nonneg solve n x freq nBins base maxIter tol r h
  obtain ⟨v1, v2, v3, _⟩ := C50_variances solve n x freq nBins base maxIter tol r h
  have e1 : totalCurve r.coeffs φ ^ 2 = noiseCurve r.coeffs.1 r.coeffs.2.1 r.coeffs.2.2 φ := Real.sq_sqrt (by positivity)
  have e2 : amCurve r.coeffs φ ^ 2 = noiseCurve r.coeffs.1 0 r.coeffs.2.2 φ := by
    unfold amCurve noiseCurve
    rw [Real.sq_sqrt (by positivity)]
    ring
  have e3 : pmCurve r.coeffs φ ^ 2 = noiseCurve 0 r.coeffs.2.1 r.coeffs.2.2 φ := by
    unfold pmCurve noiseCurve
    rw [Real.sq_sqrt (by positivity)]
    ring
  have hb : r.baseRms = Real.sqrt r.coeffs.2.2 := by
    rw [← v3.2, Real.sqrt_sq v3.1]
  have p1 : 0 ≤ r.coeffs.1 * Real.cos φ ^ 2 := by positivity
  have p2 : 0 ≤ r.coeffs.2.1 * Real.sin φ ^ 2 := by positivity
  refine ⟨e1, e2, e3, ?_, ?_, ?_, ?_, ?_, ?_, ?_, ?_⟩
  · rw [e1, e2, e3, v3.2]
    unfold noiseCurve
    ring
  · rw [hb]
    exact Real.sqrt_le_sqrt (by linarith)
  · rw [hb]
    exact Real.sqrt_le_sqrt (by linarith)
  · exact Real.sqrt_le_sqrt (by linarith)
  · exact Real.sqrt_le_sqrt (by linarith)
  · unfold amCurve
    rw [Real.sq_sqrt (by positivity), Real.cos_zero, v1.2, v3.2]
    ring
  · unfold pmCurve
    rw [Real.sq_sqrt (by positivity), Real.sin_pi_div_two, v2.2, v3.2]
    ring
  · unfold baseCurve
    rw [hb]

private theorem curve_cos2' (a p c φ : ℝ) : noiseCurve a p c φ = (a - p) / 2 * Real.cos (2 * φ) + ((a + p) / 2 + c) := by
  unfold noiseCurve
  have hs := Real.sin_sq_add_cos_sq φ
  rw [show Real.sin φ ^ 2 = 1 - Real.cos φ ^ 2 by linarith, Real.cos_sq φ]
  ring

/-- The best fit has the right mean. -/
private theorem best_mean (n : ℕ) (hn : 0 < n) (r : PhaseBins) (hbest : BestNoiseFit n r) :
    ∑ t ∈ range n, r.err t ^ 2 = ∑ t ∈ range n, noiseCurve r.coeffs.1 r.coeffs.2.1 r.coeffs.2.2 (r.phase t) := by
  set d := fun t => r.err t ^ 2 - noiseCurve r.coeffs.1 r.coeffs.2.1 r.coeffs.2.2 (r.phase t) with hd
  have hnR : (0 : ℝ) < n := by exact_mod_cast hn
  have key : ∑ t ∈ range n, d t = 0 := by
    have hδ : ∀ δ : ℝ, ∑ t ∈ range n, d t ^ 2 ≤ ∑ t ∈ range n, d t ^ 2 - 2 * δ * ∑ t ∈ range n, d t + n * δ ^ 2 := by
      intro δ
      have h1 := hbest r.coeffs.1 r.coeffs.2.1 (r.coeffs.2.2 + δ)
      have h2 : ∑ t ∈ range n, (r.err t ^ 2 - noiseCurve r.coeffs.1 r.coeffs.2.1 (r.coeffs.2.2 + δ) (r.phase t)) ^ 2 =
          ∑ t ∈ range n, (d t ^ 2 - 2 * δ * d t + δ ^ 2) := by
        apply sum_congr rfl
        intro t _
        rw [hd]
        unfold noiseCurve
        ring
      rw [h2, sum_add_distrib, sum_sub_distrib, ← mul_sum, sum_const, card_range, nsmul_eq_mul] at h1
      exact h1
    have h3 := hδ ((∑ t ∈ range n, d t) / n)
    have h4 : 2 * ((∑ t ∈ range n, d t) / n) * ∑ t ∈ range n, d t - n * ((∑ t ∈ range n, d t) / n) ^ 2 = (∑ t ∈ range n, d t) ^ 2 / n := by
      field_simp
      ring
    have h5 : (∑ t ∈ range n, d t) ^ 2 / n ≤ 0 := by rw [← h4]; linarith
    have h6 : (∑ t ∈ range n, d t) ^ 2 ≤ 0 := by
      rw [div_le_iff₀ hnR, zero_mul] at h5
      exact h5
    exact pow_eq_zero_iff (two_ne_zero) |>.mp (le_antisymm h6 (sq_nonneg _))
  rw [hd, sum_sub_distrib] at key
  linarith

private theorem total_sq (solve : Lstsq) (n : ℕ) (hn : 0 < n) (x : ℕ → ℝ) (freq : Option ℝ) (nBins : ℤ) (base : Bool) (maxIter : ℤ) (tol : ℝ) (r : PhaseBins)
    (h : rearrangeByPhase solve n x freq nBins base maxIter tol = .ok r) : n * r.totalRms ^ 2 = ∑ t ∈ range n, r.err t ^ 2 := by
  have hnR : (0 : ℝ) < n := by exact_mod_cast hn
  have ht : r.totalRms = Real.sqrt (colMean n fun t => r.err t ^ 2) := by
    unfold rearrangeByPhase at h
    cases hf : fitCore solve n x freq maxIter tol with
    | error e => rw [hf] at h; cases h
    | ok fit =>
      rw [hf] at h
      simp only at h
      by_cases h0 : nBins = 0
      · rw [if_pos h0] at h; cases h
      · rw [if_neg h0] at h
        by_cases h1 : nBins < 0
        · rw [if_pos h1] at h; cases h
        · rw [if_neg h1] at h
          injection h with h
          rw [← h]
  rw [ht]
  unfold colMean
  rw [Real.sq_sqrt (div_nonneg (sum_nonneg fun t _ => sq_nonneg _) hnR.le)]
  field_simp

/-- Mean square of the total curve over equally spaced phases. -/
private theorem centers_cos2 (nb : ℕ) (hnb : 3 ≤ nb) : ∑ b ∈ range nb, Real.cos (2 * phaseCenter nb b) = 0 := by
  have hnR : (0 : ℝ) < nb := by exact_mod_cast (by omega : 0 < nb)
  have hpi := Real.pi_pos
  set w := 2 * Real.pi / (nb : ℝ) with hw
  have hs : 0 < Real.sin w := by
    apply Real.sin_pos_of_pos_of_lt_pi (by positivity)
    rw [hw, div_lt_iff₀ hnR]
    have : (3 : ℝ) ≤ nb := by exact_mod_cast hnb
    nlinarith
  have tele : ∀ m : ℕ, 2 * Real.sin w * ∑ b ∈ range m, Real.cos (2 * phaseCenter nb b) = Real.sin (2 * m * w) := by
    intro m
    induction m with
    | zero => simp
    | succ m ih =>
      rw [sum_range_succ, mul_add, ih]
      unfold phaseCenter
      rw [← hw, show 2 * ((m : ℝ) * w + w / 2) = 2 * m * w + w by ring, show 2 * ((m + 1 : ℕ) : ℝ) * w = (2 * m * w + w) + w by push_cast; ring]
      have e1 := Real.sin_add (2 * m * w + w) w
      have e2 := Real.sin_sub (2 * m * w + w) w
      rw [show 2 * (m : ℝ) * w + w - w = 2 * m * w by ring] at e2
      rw [e1, e2]
      ring
  have := tele nb
  rw [show 2 * (nb : ℝ) * w = ((2 : ℕ) : ℝ) * (2 * Real.pi) by rw [hw]; field_simp; norm_num, show (((2 : ℕ) : ℝ)) * (2 * Real.pi) = ((4 : ℕ) : ℝ) * Real.pi by push_cast; ring,
    Real.sin_nat_mul_pi] at this
  rcases mul_eq_zero.mp this with h | h
  · linarith
  · exact h

/-- **C99 (the total curve and its legend).** With at least three bins the mean square of the dashed total curve over the bins is half the AM and PM variances plus the base; when the reported
model is the best fit and the phases are balanced (`Σ cos 2φ = 0`, as for a coherent record), that is the square of the total RMS printed in the legend. -/
theorem C99_total_mean_square (solve : Lstsq) (n : ℕ) (hn : 0 < n) (x : ℕ → ℝ) (freq : Option ℝ) (nBins : ℕ) (hb : 3 ≤ nBins) (base : Bool) (maxIter : ℤ) (tol : ℝ)
    (r : PhaseBins) (h : rearrangeByPhase solve n x freq nBins base maxIter tol = .ok r) :
    (∑ b ∈ range nBins, totalCurve r.coeffs (r.centers b) ^ 2) / nBins = (r.amRms ^ 2 + r.pmRms ^ 2) / 2 + r.baseRms ^ 2 ∧
    (BestNoiseFit n r → ∑ t ∈ range n, Real.cos (2 * r.phase t) = 0 →
      (∑ b ∈ range nBins, totalCurve r.coeffs (r.centers b) ^ 2) / nBins = r.totalRms ^ 2) := by
  have hnR : (0 : ℝ) < n := by exact_mod_cast hn
  have hbR : (0 : ℝ) < nBins := by exact_mod_cast (by omega : 0 < nBins)
  obtain ⟨v1, v2, v3, _⟩ := C50_variances solve n x freq nBins base maxIter tol r h
  have hcen : r.centers = phaseCenter nBins := by
    unfold rearrangeByPhase at h
    cases hf : fitCore solve n x freq maxIter tol with
    | error e => rw [hf] at h; cases h
    | ok fit =>
      rw [hf] at h
      simp only at h
      rw [if_neg (by omega), if_neg (by omega)] at h
      injection h with h
      rw [← h]
      simp
  have hsum : ∑ b ∈ range nBins, totalCurve r.coeffs (r.centers b) ^ 2 = nBins * ((r.amRms ^ 2 + r.pmRms ^ 2) / 2 + r.baseRms ^ 2) := by
    have e : ∀ b ∈ range nBins, totalCurve r.coeffs (r.centers b) ^ 2 =
        (r.coeffs.1 - r.coeffs.2.1) / 2 * Real.cos (2 * phaseCenter nBins b) + ((r.coeffs.1 + r.coeffs.2.1) / 2 + r.coeffs.2.2) := by
      intro b _
      rw [(C99_curves solve n x freq nBins base maxIter tol r h (r.centers b)).1, curve_cos2', hcen]
    rw [sum_congr rfl e, sum_add_distrib, ← mul_sum, centers_cos2 nBins hb, mul_zero, zero_add, sum_const, card_range, nsmul_eq_mul, v1.2, v2.2, v3.2]
  have hmain : (∑ b ∈ range nBins, totalCurve r.coeffs (r.centers b) ^ 2) / nBins = (r.amRms ^ 2 + r.pmRms ^ 2) / 2 + r.baseRms ^ 2 := by
    rw [hsum]
    field_simp
  refine ⟨hmain, ?_⟩
  intro hbest hcos
  rw [hmain]
  have h1 := best_mean n hn r hbest
  have h2 := total_sq solve n hn x freq nBins base maxIter tol r h
  have h3 : ∑ t ∈ range n, noiseCurve r.coeffs.1 r.coeffs.2.1 r.coeffs.2.2 (r.phase t) = n * ((r.amRms ^ 2 + r.pmRms ^ 2) / 2 + r.baseRms ^ 2) := by
    rw [sum_congr rfl fun t _ => curve_cos2' _ _ _ _, sum_add_distrib, ← mul_sum, hcos, mul_zero, zero_add, sum_const, card_range, nsmul_eq_mul, v1.2, v2.2, v3.2]
  rw [h1, h3] at h2
  exact (mul_left_cancel₀ hnR.ne' h2).symm

/-- Sum of `cos 2φ` over equally spaced phases. -/
private theorem phase_sum_bound (φ0 d : ℝ) (n : ℕ) : |∑ t ∈ range n, Real.cos (2 * (φ0 + t * d))| * |Real.sin d| ≤ 1 := by
  have tele : 2 * Real.sin d * ∑ t ∈ range n, Real.cos (2 * (φ0 + t * d)) = Real.sin (2 * φ0 + (2 * n - 1) * d) - Real.sin (2 * φ0 - d) := by
    induction n with
    | zero =>
      simp
      rw [show 2 * φ0 + -d = 2 * φ0 - d by ring]
      ring
    | succ m ih =>
      rw [sum_range_succ, mul_add, ih]
      have e1 := Real.sin_add (2 * (φ0 + m * d)) d
      have e2 := Real.sin_sub (2 * (φ0 + m * d)) d
      rw [show 2 * φ0 + (2 * (m : ℝ) - 1) * d = 2 * (φ0 + m * d) - d by ring,
        show 2 * φ0 + (2 * ((m + 1 : ℕ) : ℝ) - 1) * d = 2 * (φ0 + m * d) + d by push_cast; ring, e1, e2]
      ring
  rw [← abs_mul]
  have h1 := Real.abs_sin_le_one (2 * φ0 + (2 * n - 1) * d)
  have h2 := Real.abs_sin_le_one (2 * φ0 - d)
  rw [abs_le] at h1 h2 ⊢
  constructor <;> nlinarith [tele]

private theorem nanMax_ge (nb : ℕ) (v : ℕ → Option ℝ) (b : ℕ) (hb : b < nb) (q : ℝ) (hq : v b = some q) : q ≤ nanMax nb v := by
  have hmem : q ∈ (List.range nb).filterMap v := List.mem_filterMap.mpr ⟨b, List.mem_range.mpr hb, hq⟩
  unfold nanMax
  cases hl : (List.range nb).filterMap v with
  | nil => rw [hl] at hmem; simp at hmem
  | cons a l =>
    rw [hl] at hmem
    exact le_maxOf a l q hmem

private theorem nanMax_mem (nb : ℕ) (v : ℕ → Option ℝ) (h : ∃ b < nb, v b ≠ none) : ∃ b < nb, v b = some (nanMax nb v) := by
  obtain ⟨b, hb, hv⟩ := h
  obtain ⟨q, hq⟩ := Option.ne_none_iff_exists'.mp hv
  have hmem : q ∈ (List.range nb).filterMap v := List.mem_filterMap.mpr ⟨b, List.mem_range.mpr hb, hq⟩
  unfold nanMax
  cases hl : (List.range nb).filterMap v with
  | nil => rw [hl] at hmem; simp at hmem
  | cons a l =>
    have := maxOf_mem a l
    rw [← hl] at this
    obtain ⟨c, hc, hcv⟩ := List.mem_filterMap.mp this
    exact ⟨c, List.mem_range.mp hc, hcv⟩

private theorem conserve_max (n nb : ℕ) (hn : 0 < n) (e : ℕ → ℝ) (count : ℕ → ℕ) (mean rms : ℕ → Option ℝ) (hc : Conserves n nb (fun _ => True) e count mean rms)
    (hpos : ∀ b q, rms b = some q → 0 ≤ q) : ∑ t ∈ range n, e t ^ 2 ≤ n * nanMax nb rms ^ 2 ∧ 0 ≤ nanMax nb rms := by
  have hcnt : ∑ b ∈ range nb, count b = n := by rw [hc.total]; simp
  have hex : ∃ b < nb, rms b ≠ none := by
    by_contra hcon
    push Not at hcon
    have : ∑ b ∈ range nb, count b = 0 := by
      apply sum_eq_zero
      intro b hb
      exact (hc.nan b).2.mp (by rw [hcon b (mem_range.mp hb)]; rfl)
    omega
  obtain ⟨b0, hb0, hq0⟩ := nanMax_mem nb rms hex
  have h0 : 0 ≤ nanMax nb rms := hpos b0 _ hq0
  refine ⟨?_, h0⟩
  have hs := hc.sumSq
  simp only [filter_true] at hs
  rw [← hs, show (n : ℝ) = ∑ b ∈ range nb, (count b : ℝ) by rw [← hcnt]; push_cast; rfl, sum_mul]
  apply sum_le_sum
  intro b hb
  apply mul_le_mul_of_nonneg_left _ (Nat.cast_nonneg _)
  cases hr : rms b with
  | none => simp; positivity
  | some q =>
    have h1 := nanMax_ge nb rms b (mem_range.mp hb) q hr
    have h2 := hpos b q hr
    simp only [Option.getD_some]
    nlinarith

private theorem rms_nonneg (n : ℕ) (idx : ℕ → ℕ) (mask : ℕ → Bool) (e : ℕ → ℝ) (b : ℕ) (q : ℝ) (h : binRms n idx mask e b = some q) : 0 ≤ q := by
  unfold binRms at h
  split_ifs at h
  injection h with h
  rw [← h]
  exact Real.sqrt_nonneg _

private theorem phase_rms_nonneg (solve : Lstsq) (n : ℕ) (x : ℕ → ℝ) (freq : Option ℝ) (nBins : ℤ) (base : Bool) (maxIter : ℤ) (tol : ℝ) (r : PhaseBins)
    (h : rearrangeByPhase solve n x freq nBins base maxIter tol = .ok r) (b : ℕ) (q : ℝ) (hq : r.rms b = some q) : 0 ≤ q := by
  unfold rearrangeByPhase at h
  cases hf : fitCore solve n x freq maxIter tol with
  | error e => rw [hf] at h; cases h
  | ok fit =>
    rw [hf] at h
    simp only at h
    by_cases h0 : nBins = 0
    · rw [if_pos h0] at h; cases h
    · rw [if_neg h0] at h
      by_cases h1 : nBins < 0
      · rw [if_pos h1] at h; cases h
      · rw [if_neg h1] at h
        injection h with h
        rw [← h] at hq
        exact rms_nonneg _ _ _ _ _ _ hq

/-- **C99 (bars fill the axis).** Every bar ends inside the axis, the highest at two thirds of it, and the axis reaches at least one and a half times the total RMS. -/
theorem C99_phase_bars (solve : Lstsq) (n : ℕ) (hn : 0 < n) (x : ℕ → ℝ) (freq : Option ℝ) (nBins : ℤ) (base : Bool) (maxIter : ℤ) (tol : ℝ) (r : PhaseBins)
    (h : rearrangeByPhase solve n x freq nBins base maxIter tol = .ok r) :
    (phaseBarLimits nBins.toNat r.rms).1 = 0 ∧
    (∀ b < nBins.toNat, ∀ q, r.rms b = some q → 0 ≤ q ∧ 3 / 2 * q ≤ (phaseBarLimits nBins.toNat r.rms).2) ∧
    (∃ b < nBins.toNat, ∃ q, r.rms b = some q ∧ (phaseBarLimits nBins.toNat r.rms).2 = 3 / 2 * q) ∧
    3 / 2 * r.totalRms ≤ (phaseBarLimits nBins.toNat r.rms).2 := by
  have hnR : (0 : ℝ) < n := by exact_mod_cast hn
  have hcons := (C50_bins solve n x freq nBins base maxIter tol r h).1
  have hpos := phase_rms_nonneg solve n x freq nBins base maxIter tol r h
  obtain ⟨hm, h0⟩ := conserve_max n nBins.toNat hn r.err r.count r.mean r.rms hcons hpos
  have htot := total_sq solve n hn x freq nBins base maxIter tol r h
  unfold phaseBarLimits
  refine ⟨rfl, ?_, ?_, ?_⟩
  · intro b hb q hq
    refine ⟨hpos b q hq, ?_⟩
    simp only
    linarith [nanMax_ge nBins.toNat r.rms b hb q hq]
  · have hex : ∃ b < nBins.toNat, r.rms b ≠ none := by
      by_contra hcon
      push Not at hcon
      have h1 : ∑ b ∈ range nBins.toNat, r.count b = 0 := by
        apply sum_eq_zero
        intro b hb
        exact (hcons.nan b).2.mp (by rw [hcon b (mem_range.mp hb)]; rfl)
      have h2 := (C50_bins solve n x freq nBins base maxIter tol r h).2.1
      omega
    obtain ⟨b, hb, hq⟩ := nanMax_mem nBins.toNat r.rms hex
    exact ⟨b, hb, _, hq, by simp only; ring⟩
  · simp only
    have h2 : r.totalRms ^ 2 ≤ nanMax nBins.toNat r.rms ^ 2 := by
      rw [← htot] at hm
      exact le_of_mul_le_mul_left hm hnR
    linarith [le_abs_self r.totalRms, abs_le_of_sq_le_sq h2 h0]

private theorem curve_le_max (a p c φ : ℝ) : noiseCurve a p c φ ≤ max a p + c := by
  unfold noiseCurve
  have hs := Real.sin_sq_add_cos_sq φ
  have m1 := mul_le_mul_of_nonneg_right (le_max_left a p) (sq_nonneg (Real.cos φ))
  have m2 := mul_le_mul_of_nonneg_right (le_max_right a p) (sq_nonneg (Real.sin φ))
  have m3 : max a p * Real.cos φ ^ 2 + max a p * Real.sin φ ^ 2 = max a p := by rw [← mul_add, add_comm, hs, mul_one]
  linarith

private theorem level_bound (n S T a p c : ℝ) (hn : 0 < n) (ha : 0 ≤ a) (hp : 0 ≤ p) (hc : 0 ≤ c) (hS : 9 * |S| ≤ n)
    (h : n * T ^ 2 = (a - p) / 2 * S + n * ((a + p) / 2 + c)) : 4 * (max a p + c) ≤ 9 * T ^ 2 := by
  have hS2 := abs_le.mp (show |S| ≤ n / 9 by linarith)
  have hn9 : 4 * (max a p + c) * n ≤ 9 * T ^ 2 * n := by
    have hcn := mul_nonneg hc hn.le
    rcases le_total a p with hle | hle
    · rw [max_eq_right hle]
      have h1 := mul_nonneg (sub_nonneg.mpr hle) (by linarith [hS2.2] : (0 : ℝ) ≤ n / 9 - S)
      have h2 := mul_nonneg ha hn.le
      have h3 := mul_nonneg hp hn.le
      nlinarith
    · rw [max_eq_left hle]
      have h1 := mul_nonneg (sub_nonneg.mpr hle) (by linarith [hS2.1] : (0 : ℝ) ≤ n / 9 + S)
      have h2 := mul_nonneg ha hn.le
      have h3 := mul_nonneg hp hn.le
      nlinarith
  exact le_of_mul_le_mul_right hn9 hn

/-- **C99 (curves fit the axis).** When the reported model is the best fit and the record holds at least `9 / |sin 2πf|` samples, no curve leaves the axis at any phase. -/
theorem C99_curves_in_axis (solve : Lstsq) (n : ℕ) (hn : 0 < n) (x : ℕ → ℝ) (freq : Option ℝ) (nBins : ℤ) (base : Bool) (maxIter : ℤ) (tol : ℝ) (r : PhaseBins)
    (h : rearrangeByPhase solve n x freq nBins base maxIter tol = .ok r) (hbest : BestNoiseFit n r)
    (hlong : 9 ≤ n * |Real.sin (r.phase 1 - r.phase 0)|) (φ : ℝ) :
    0 ≤ amCurve r.coeffs φ ∧ 0 ≤ pmCurve r.coeffs φ ∧ 0 ≤ totalCurve r.coeffs φ ∧
    amCurve r.coeffs φ ≤ (phaseBarLimits nBins.toNat r.rms).2 ∧ pmCurve r.coeffs φ ≤ (phaseBarLimits nBins.toNat r.rms).2 ∧
    totalCurve r.coeffs φ ≤ (phaseBarLimits nBins.toNat r.rms).2 := by
  have hnR : (0 : ℝ) < n := by exact_mod_cast hn
  obtain ⟨c1, c2, c3⟩ := coeffs_nonneg solve n x freq nBins base maxIter tol r h
  obtain ⟨e1, _, _, _, _, _, hat, hpt, _⟩ := C99_curves solve n x freq nBins base maxIter tol r h φ
  have hbar := (C99_phase_bars solve n hn x freq nBins base maxIter tol r h).2.2.2
  have htot := total_sq solve n hn x freq nBins base maxIter tol r h
  have ht0 : 0 ≤ r.totalRms := by
    obtain ⟨b, hb⟩ : ∃ y, r.totalRms = Real.sqrt y := by
      unfold rearrangeByPhase at h
      cases hf : fitCore solve n x freq maxIter tol with
      | error e => rw [hf] at h; cases h
      | ok fit =>
        rw [hf] at h
        simp only at h
        by_cases h0 : nBins = 0
        · rw [if_pos h0] at h; cases h
        · rw [if_neg h0] at h
          by_cases h1 : nBins < 0
          · rw [if_pos h1] at h; cases h
          · rw [if_neg h1] at h
            injection h with h
            rw [← h]
            exact ⟨_, rfl⟩
    rw [hb]
    exact Real.sqrt_nonneg _
  obtain ⟨_, _, _, _, _, hstep⟩ := C50_phase_reference solve n x freq nBins base maxIter tol r h
  have hphase : ∀ t : ℕ, r.phase t = r.phase 0 + t * (r.phase 1 - r.phase 0) := by
    intro t
    induction t with
    | zero => simp
    | succ t ih =>
      have := hstep t
      push_cast
      linarith
  set d := r.phase 1 - r.phase 0 with hd
  set S := ∑ t ∈ range n, Real.cos (2 * r.phase t) with hS
  have hSb : 9 * |S| ≤ n := by
    have h1 := phase_sum_bound (r.phase 0) d n
    have h2 : S = ∑ t ∈ range n, Real.cos (2 * (r.phase 0 + t * d)) := by
      rw [hS]
      exact sum_congr rfl fun t _ => by rw [hphase t]
    rw [← h2] at h1
    have h3 : 0 < |Real.sin d| := by
      rcases (abs_nonneg (Real.sin d)).eq_or_lt with h0 | h0
      · rw [← h0] at hlong
        linarith
      · exact h0
    have h4 : 9 * |S| * |Real.sin d| ≤ n * |Real.sin d| := by linarith
    exact le_of_mul_le_mul_right h4 h3
  have hmean := best_mean n hn r hbest
  have hm2 : ∑ t ∈ range n, noiseCurve r.coeffs.1 r.coeffs.2.1 r.coeffs.2.2 (r.phase t) =
      (r.coeffs.1 - r.coeffs.2.1) / 2 * S + n * ((r.coeffs.1 + r.coeffs.2.1) / 2 + r.coeffs.2.2) := by
    rw [sum_congr rfl fun t _ => curve_cos2' _ _ _ _, sum_add_distrib, ← mul_sum, sum_const, card_range, nsmul_eq_mul]
  rw [hmean, hm2] at htot
  have hT := level_bound _ _ _ _ _ _ hnR c1 c2 c3 hSb htot
  have hcurve := curve_le_max r.coeffs.1 r.coeffs.2.1 r.coeffs.2.2 φ
  have htc : totalCurve r.coeffs φ ≤ (phaseBarLimits nBins.toNat r.rms).2 := by
    have h1 : totalCurve r.coeffs φ ^ 2 ≤ (3 / 2 * r.totalRms) ^ 2 := by
      rw [e1]
      nlinarith
    have h2 := le_trans (le_abs_self _) (abs_le_of_sq_le_sq h1 (by positivity))
    linarith
  exact ⟨Real.sqrt_nonneg _, Real.sqrt_nonneg _, Real.sqrt_nonneg _, le_trans hat htc, le_trans hpt htc, htc⟩

/-- **C99 (when the model is the best fit).** The reported model is the best fit whenever the squared errors follow some AM/PM/base model exactly. -/
theorem C99_model_data_best_fit (solve : Lstsq) (hs : IsLstsq solve) (n : ℕ) (x : ℕ → ℝ) (freq : Option ℝ) (nBins : ℤ) (maxIter : ℤ) (tol : ℝ) (r : PhaseBins)
    (h : rearrangeByPhase solve n x freq nBins true maxIter tol = .ok r) (am pm c : ℝ) (ha : 0 ≤ am) (hp : 0 ≤ pm) (hc : 0 ≤ c)
    (hmodel : ∀ t < n, r.err t ^ 2 = noiseCurve am pm c (r.phase t)) (i j : ℕ) (hi : i < n) (hj : j < n)
    (hij : Real.cos (2 * r.phase i) ≠ Real.cos (2 * r.phase j)) : BestNoiseFit n r := by
  have hco := C50_recovery solve hs n x freq nBins maxIter tol r h am pm c ha hp hc hmodel i j hi hj hij
  intro a p c'
  have h0 : ∑ t ∈ range n, (r.err t ^ 2 - noiseCurve r.coeffs.1 r.coeffs.2.1 r.coeffs.2.2 (r.phase t)) ^ 2 = 0 := by
    apply sum_eq_zero
    intro t ht
    rw [hmodel t (mem_range.mp ht), hco]
    simp only
    have : noiseCurve (am - min am pm) (pm - min am pm) (c + min am pm) (r.phase t) = noiseCurve am pm c (r.phase t) := by
      unfold noiseCurve
      have hs := Real.sin_sq_add_cos_sq (r.phase t)
      have : min am pm * Real.cos (r.phase t) ^ 2 + min am pm * Real.sin (r.phase t) ^ 2 = min am pm := by rw [← mul_add, add_comm, hs, mul_one]
      linarith
    rw [this]
    ring
  rw [h0]
  exact sum_nonneg fun t _ => sq_nonneg _

/-- **C99 (dots over their bars).** Every sample's dot lies in [0°, 360°) and within half a slot of the centre of the bin it was counted in; the bars of neighbouring bins leave a fifth of a slot between them
and all bars lie inside [0°, 360°]. -/
theorem C99_phase_positions (solve : Lstsq) (n : ℕ) (x : ℕ → ℝ) (freq : Option ℝ) (nBins : ℕ) (base : Bool) (maxIter : ℤ) (tol : ℝ) (r : PhaseBins)
    (h : rearrangeByPhase solve n x freq nBins base maxIter tol = .ok r) :
    (∀ t, 0 ≤ phaseDeg (r.phase t) ∧ phaseDeg (r.phase t) < 360) ∧
    (∀ t, ∀ b < nBins, InSlot nBins b (r.phase t) → |phaseDeg (r.phase t) - binDeg (r.centers b)| ≤ 180 / nBins) ∧
    (∀ b, binDeg (r.centers (b + 1)) - binDeg (r.centers b) = 360 / nBins ∧
      binDeg (r.centers b) + phaseBarWidth nBins / 2 + 360 / nBins / 5 = binDeg (r.centers (b + 1)) - phaseBarWidth nBins / 2) ∧
    (∀ b < nBins, 0 ≤ binDeg (r.centers b) - phaseBarWidth nBins / 2 ∧ binDeg (r.centers b) + phaseBarWidth nBins / 2 ≤ 360) := by
  have hcen : r.centers = phaseCenter nBins ∧ 0 < nBins := by
    unfold rearrangeByPhase at h
    cases hf : fitCore solve n x freq maxIter tol with
    | error e => rw [hf] at h; cases h
    | ok fit =>
      rw [hf] at h
      simp only at h
      by_cases h0 : (nBins : ℤ) = 0
      · rw [if_pos h0] at h; cases h
      · rw [if_neg h0, if_neg (by omega)] at h
        injection h with h
        rw [← h]
        simp
        omega
  obtain ⟨hcen, hpos⟩ := hcen
  have hbR : (0 : ℝ) < nBins := by exact_mod_cast hpos
  have hpi := Real.pi_pos
  have hdeg : ∀ b : ℕ, binDeg (r.centers b) = ((b : ℝ) + 1 / 2) * (360 / nBins) := by
    intro b
    rw [hcen]
    unfold binDeg phaseCenter
    field_simp
    ring
  have hrange : ∀ t, 0 ≤ phaseDeg (r.phase t) ∧ phaseDeg (r.phase t) < 360 := fun t => ⟨pmod_nonneg _ (by norm_num), pmod_lt _ (by norm_num)⟩
  refine ⟨hrange, ?_, ?_, ?_⟩
  · intro t b hb hslot
    obtain ⟨k, h1, h2⟩ := hslot
    have hb1 : ((b : ℝ) + 1) ≤ nBins := by exact_mod_cast hb
    set u := r.phase t - k * (2 * Real.pi) with hu
    have hphi : r.phase t = u + k * (2 * Real.pi) := by rw [hu]; ring
    have hw : (nBins : ℝ) * (2 * Real.pi / nBins) = 2 * Real.pi := by field_simp
    have hu0 : 0 ≤ u := le_trans (by positivity) h1
    have hu1 : u < 2 * Real.pi := lt_of_lt_of_le h2 (le_of_le_of_eq (mul_le_mul_of_nonneg_right hb1 (by positivity)) hw)
    have hd : phaseDeg (r.phase t) = u * 180 / Real.pi := by
      unfold phaseDeg pmod
      have hq : r.phase t * 180 / Real.pi / 360 = u / (2 * Real.pi) + k := by
        rw [hphi]
        field_simp
        ring
      have hfl : ⌊r.phase t * 180 / Real.pi / 360⌋ = k := by
        rw [hq, Int.floor_add_intCast, Int.floor_eq_zero_iff.mpr ⟨by positivity, by rw [div_lt_one (by positivity)]; exact hu1⟩, zero_add]
      rw [hfl, hphi]
      field_simp
      ring
    rw [hd, hdeg, abs_le]
    have e1 : (b : ℝ) * (360 / nBins) ≤ u * 180 / Real.pi := by
      have := mul_le_mul_of_nonneg_right h1 (by positivity : (0 : ℝ) ≤ 180 / Real.pi)
      calc (b : ℝ) * (360 / nBins) = (b : ℝ) * (2 * Real.pi / nBins) * (180 / Real.pi) := by field_simp; ring
        _ ≤ u * (180 / Real.pi) := this
        _ = _ := by ring
    have e2 : u * 180 / Real.pi ≤ ((b : ℝ) + 1) * (360 / nBins) := by
      have := mul_le_mul_of_nonneg_right h2.le (by positivity : (0 : ℝ) ≤ 180 / Real.pi)
      calc u * 180 / Real.pi = u * (180 / Real.pi) := by ring
        _ ≤ ((b : ℝ) + 1) * (2 * Real.pi / nBins) * (180 / Real.pi) := this
        _ = _ := by field_simp; ring
    have e3 : (360 : ℝ) / nBins = 2 * (180 / nBins) := by ring
    constructor <;> nlinarith
  · intro b
    rw [hdeg, hdeg]
    unfold phaseBarWidth
    push_cast
    constructor <;> ring
  · intro b hb
    have hb1 : ((b : ℝ) + 1) ≤ nBins := by exact_mod_cast hb
    have hw0 : (0 : ℝ) < 360 / nBins := by positivity
    have hw : (nBins : ℝ) * (360 / nBins) = 360 := by field_simp
    rw [hdeg]
    unfold phaseBarWidth
    have hb0 : (0 : ℝ) ≤ b := Nat.cast_nonneg b
    have m1 := mul_nonneg hb0 hw0.le
    have m2 := mul_le_mul_of_nonneg_right hb1 hw0.le
    constructor <;> nlinarith

private theorem rec_bounds (n : ℕ) (e : ℕ → ℝ) (t : ℕ) (ht : t < n) : recMin n e ≤ e t ∧ e t ≤ recMax n e := by
  have hmem : e t ∈ e 0 :: (List.range n).map e := List.mem_cons_of_mem _ (List.mem_map_of_mem (List.mem_range.mpr ht))
  exact ⟨minOf_le _ _ _ hmem, le_maxOf _ _ _ hmem⟩

/-- **C99 (dot axes).** Every error dot lies strictly inside its axis, a tenth of the spread from either end, or one unit when all errors are equal; every sample of the fitted signal lies within its axis. -/
theorem C99_dot_axes (n : ℕ) (e : ℕ → ℝ) (t : ℕ) (ht : t < n) :
    (errorLimits n e).1 < e t ∧ e t < (errorLimits n e).2 ∧
    (∀ u < n, ∀ v < n, (e u - e v) / 10 ≤ e t - (errorLimits n e).1 ∧ (e u - e v) / 10 ≤ (errorLimits n e).2 - e t) ∧
    ((∀ u < n, e u = e 0) → errorLimits n e = (e 0 - 1, e 0 + 1)) ∧
    (signalLimits n e).1 ≤ e t ∧ e t ≤ (signalLimits n e).2 := by
  obtain ⟨h1, h2⟩ := rec_bounds n e t ht
  have hle : recMin n e ≤ recMax n e := le_trans h1 h2
  have hmargin : 0 < (if recMax n e - recMin n e ≠ 0 then (recMax n e - recMin n e) * (1 / 10) else 1) ∧
      (recMax n e - recMin n e) * (1 / 10) ≤ (if recMax n e - recMin n e ≠ 0 then (recMax n e - recMin n e) * (1 / 10) else 1) := by
    by_cases h0 : recMax n e - recMin n e ≠ 0
    · rw [if_pos h0]
      have : 0 < recMax n e - recMin n e := lt_of_le_of_ne (by linarith) (Ne.symm h0)
      exact ⟨by linarith, le_refl _⟩
    · rw [if_neg h0]
      rw [not_not] at h0
      rw [h0]
      norm_num
  unfold errorLimits signalLimits
  simp only
  refine ⟨by linarith [hmargin.1], by linarith [hmargin.1], ?_, ?_, by linarith, by linarith⟩
  · intro u hu v hv
    have hu' := rec_bounds n e u hu
    have hv' := rec_bounds n e v hv
    constructor <;> linarith [hmargin.2, hu'.2, hv'.1]
  · intro hconst
    have hmx : recMax n e = e 0 := maxOf_eq _ _ _ (by simp) (by
      intro v hv
      rcases List.mem_cons.mp hv with rfl | hv
      · exact le_refl _
      · obtain ⟨u, hu, rfl⟩ := List.mem_map.mp hv
        exact (hconst u (List.mem_range.mp hu)).le)
    have hmn : recMin n e = e 0 := minOf_eq _ _ _ (by simp) (by
      intro v hv
      rcases List.mem_cons.mp hv with rfl | hv
      · exact le_refl _
      · obtain ⟨u, hu, rfl⟩ := List.mem_map.mp hv
        exact (hconst u (List.mem_range.mp hu)).ge)
    rw [hmx, hmn]
    simp

open Classical in
/-- **C99 (mean line).** The mean line stays inside the axis of the error dots. -/
theorem C99_mean_line (solve : Lstsq) (n : ℕ) (x : ℕ → ℝ) (freq : Option ℝ) (nBins : ℕ) (base : Bool) (maxIter : ℤ) (tol : ℝ) (r : PhaseBins)
    (h : rearrangeByPhase solve n x freq nBins base maxIter tol = .ok r) (b : ℕ) (hb : b < nBins) (m : ℝ) (hm : r.mean b = some m) :
    (errorLimits n r.err).1 < m ∧ m < (errorLimits n r.err).2 := by
  obtain ⟨_, h2, h3⟩ := C50_bin_members solve n x freq nBins base maxIter tol r h b hb
  rcases Finset.eq_empty_or_nonempty ((range n).filter fun t => InSlot nBins b (r.phase t)) with he | hne
  · rw [(h3 he).1] at hm
    cases hm
  · have h4 := (h2 hne).1
    rw [hm] at h4
    injection h4 with h4
    have hc : (0 : ℝ) < ((range n).filter fun t => InSlot nBins b (r.phase t)).card := by exact_mod_cast card_pos.mpr hne
    have hmem : ∀ t ∈ (range n).filter fun t => InSlot nBins b (r.phase t), t < n := fun t ht => mem_range.mp (mem_filter.mp ht).1
    rw [h4, lt_div_iff₀ hc, div_lt_iff₀ hc]
    constructor
    · rw [mul_comm, ← nsmul_eq_mul, ← sum_const]
      exact sum_lt_sum_of_nonempty hne fun t ht => (C99_dot_axes n r.err t (hmem t ht)).1
    · rw [mul_comm, ← nsmul_eq_mul, ← sum_const]
      exact sum_lt_sum_of_nonempty hne fun t ht => (C99_dot_axes n r.err t (hmem t ht)).2.1

/-- **C99 (phase noise text).** The printed phase noise, in microradians, is exact to 0.005 µrad; only values below 10⁻¹² rad are printed as zero outright. -/
theorem C99_pm_text (rad : ℝ) (h0 : 0 ≤ rad) :
    |((pmRadText rad).digits : ℝ) / 10 ^ (pmRadText rad).decimals - rad * 10 ^ 6| ≤ 1 / 200 ∧ (rad < 1 / 10 ^ 12 → (pmRadText rad).digits = 0) := by
  unfold pmRadText
  by_cases h : rad < 1 / 10 ^ 12
  · rw [if_pos h]
    refine ⟨?_, fun _ => rfl⟩
    simp only [Int.cast_zero, zero_div, zero_sub, abs_neg]
    rw [abs_of_nonneg (by positivity)]
    norm_num at h ⊢
    linarith
  · rw [if_neg h]
    refine ⟨?_, fun hc => absurd hc h⟩
    have := fmt_error (rad * 10 ^ 6) 2 " urad" 1 (by simp [unitOf]) one_pos
    unfold readText at this
    rw [show unitOf (K := ℝ) (fmtFixed (rad * 10 ^ 6) 2 " urad").suffix = 1 by simp [unitOf, fmtFixed], mul_one, mul_one] at this
    exact le_trans this (by norm_num)

/-! ## By value -/

private theorem center_step (m : ℕ) (lo hi : ℝ) (hm : 1 ≤ m) (b : ℕ) :
    valueCenter (m + 1) lo hi b = lo + b * ((hi - lo) / m) := by
  unfold valueCenter
  push_cast
  rw [add_sub_cancel_right]

private theorem value_limits (m : ℕ) (hm : 1 ≤ m) (lo hi : ℝ) (h : lo < hi) :
    recMin (m + 1) (valueCenter (m + 1) lo hi) = lo ∧ recMax (m + 1) (valueCenter (m + 1) lo hi) = hi := by
  have hmR : (0 : ℝ) < m := by exact_mod_cast hm
  have hd : 0 < (hi - lo) / m := div_pos (by linarith) hmR
  have h0 : valueCenter (m + 1) lo hi 0 = lo := by rw [center_step m lo hi hm]; simp
  have hl : valueCenter (m + 1) lo hi m = hi := by
    rw [center_step m lo hi hm, mul_div_cancel₀ _ hmR.ne']
    ring
  have hmem : ∀ v, v ∈ valueCenter (m + 1) lo hi 0 :: (List.range (m + 1)).map (valueCenter (m + 1) lo hi) → lo ≤ v ∧ v ≤ hi := by
    have hb : ∀ b ≤ m, lo ≤ valueCenter (m + 1) lo hi b ∧ valueCenter (m + 1) lo hi b ≤ hi := by
      intro b hb
      have hbR : (b : ℝ) ≤ m := by exact_mod_cast hb
      have := mul_le_mul_of_nonneg_right hbR hd.le
      rw [mul_div_cancel₀ _ hmR.ne'] at this
      rw [center_step m lo hi hm]
      exact ⟨by nlinarith [mul_nonneg (Nat.cast_nonneg (α := ℝ) b) hd.le], by linarith⟩
    intro v hv
    rcases List.mem_cons.mp hv with rfl | hv
    · exact hb 0 (by omega)
    · obtain ⟨b, hb', rfl⟩ := List.mem_map.mp hv
      exact hb b (by have := List.mem_range.mp hb'; omega)
  constructor
  · apply le_antisymm
    · exact le_trans (minOf_le _ _ _ List.mem_cons_self) h0.le
    · exact (hmem _ (minOf_mem _ _)).1
  · apply le_antisymm
    · exact (hmem _ (maxOf_mem _ _)).2
    · exact le_trans hl.ge (le_maxOf _ _ _ (List.mem_cons_of_mem _ (List.mem_map_of_mem (List.mem_range.mpr (Nat.lt_succ_self m)))))

/-- **C99 (bars by value).** With two or more bins the centres are evenly spaced, each bar is nine tenths of the spacing wide so that neighbours never touch, and every centre lies strictly inside
the horizontal axis. The first and last bars are fully visible exactly when there are at least 24 bins; a single bin is always fully visible. -/
theorem C99_value_bars (solve : Lstsq) (n : ℕ) (x : ℕ → ℝ) (freq : Option ℝ) (nBins : ℤ) (clipPercent : ℝ) (given : Option (ℝ × ℝ)) (maxIter : ℤ) (tol : ℝ)
    (r : ValueBins) (h : rearrangeByValue solve n x freq nBins clipPercent given maxIter tol = .ok r) :
    (2 ≤ nBins → 0 < r.centers 1 - r.centers 0 ∧ (∀ b, r.centers (b + 1) - r.centers b = r.centers 1 - r.centers 0) ∧
      valueBarWidth r.nBins r.centers = 9 / 10 * (r.centers 1 - r.centers 0) ∧
      (∀ b, r.centers b + valueBarWidth r.nBins r.centers / 2 + (r.centers 1 - r.centers 0) / 10 = r.centers (b + 1) - valueBarWidth r.nBins r.centers / 2) ∧
      (∀ b < r.nBins, (valueXLimits r.nBins r.centers).1 < r.centers b ∧ r.centers b < (valueXLimits r.nBins r.centers).2) ∧
      (24 ≤ nBins ↔ ∀ b < r.nBins, (valueXLimits r.nBins r.centers).1 ≤ r.centers b - valueBarWidth r.nBins r.centers / 2 ∧
        r.centers b + valueBarWidth r.nBins r.centers / 2 ≤ (valueXLimits r.nBins r.centers).2)) ∧
    (nBins = 1 → (valueXLimits r.nBins r.centers).1 < r.centers 0 - valueBarWidth r.nBins r.centers / 2 ∧
      r.centers 0 + valueBarWidth r.nBins r.centers / 2 < (valueXLimits r.nBins r.centers).2) := by
  obtain ⟨lo, hi, fit, _, h2, _, _, h5, _, _, _, rfl⟩ := value_ok solve n x freq nBins clipPercent given maxIter tol r h
  simp only
  constructor
  · intro hb
    obtain ⟨m, rfl⟩ : ∃ m : ℕ, nBins = m + 1 := ⟨(nBins - 1).toNat, by omega⟩
    have hm : 1 ≤ m := by omega
    have hnb : ((m : ℤ) + 1).toNat = m + 1 := by omega
    rw [hnb]
    have hmR : (1 : ℝ) ≤ m := by exact_mod_cast hm
    set d := (hi - lo) / m with hd
    have hd0 : 0 < d := div_pos (by linarith) (by linarith)
    have hdm : m * d = hi - lo := mul_div_cancel₀ _ (by linarith)
    have hc : ∀ b, valueCenter (m + 1) lo hi b = lo + b * d := center_step m lo hi hm
    have hstep : ∀ b, valueCenter (m + 1) lo hi (b + 1) - valueCenter (m + 1) lo hi b = d := by
      intro b
      rw [hc, hc]
      push_cast
      ring
    have h10 : valueCenter (m + 1) lo hi 1 - valueCenter (m + 1) lo hi 0 = d := hstep 0
    have hw : valueBarWidth (m + 1) (valueCenter (m + 1) lo hi) = 9 / 10 * d := by
      unfold valueBarWidth
      rw [if_pos (by omega), Nat.add_sub_cancel]
      have hne : (List.range m).map (fun i => valueCenter (m + 1) lo hi (i + 1) - valueCenter (m + 1) lo hi i) ≠ [] := by
        simp only [ne_eq, List.map_eq_nil_iff, List.range_eq_nil]
        omega
      have hall : ∀ v ∈ (List.range m).map (fun i => valueCenter (m + 1) lo hi (i + 1) - valueCenter (m + 1) lo hi i), v = d := by
        intro v hv
        obtain ⟨i, _, rfl⟩ := List.mem_map.mp hv
        exact hstep i
      obtain ⟨b1, b2⟩ := median_bounds _ hne d d (fun v hv => (hall v hv).ge) (fun v hv => (hall v hv).le)
      rw [le_antisymm b2 b1]
    obtain ⟨hlo, hhi⟩ := value_limits m hm lo hi h5
    have hx : valueXLimits (m + 1) (valueCenter (m + 1) lo hi) = (lo - 2 / 100 * (m * d), hi + 2 / 100 * (m * d)) := by
      unfold valueXLimits
      simp only
      rw [hlo, hhi, if_pos h5, hdm]
    have hmd : 0 < m * d := by rw [hdm]; linarith
    have hcb : ∀ b < m + 1, lo ≤ valueCenter (m + 1) lo hi b ∧ valueCenter (m + 1) lo hi b ≤ hi := by
      intro b hb
      have hbR : (b : ℝ) ≤ m := by exact_mod_cast (by omega : b ≤ m)
      rw [hc]
      have h1 := mul_le_mul_of_nonneg_right hbR hd0.le
      have h2 := mul_nonneg (Nat.cast_nonneg (α := ℝ) b) hd0.le
      exact ⟨by linarith, by linarith⟩
    rw [h10, hw, hx]
    simp only
    refine ⟨hd0, hstep, trivial, ?_, ?_, ?_⟩
    · intro b
      have := hstep b
      linarith
    · intro b hb
      have := hcb b hb
      exact ⟨by linarith [this.1], by linarith [this.2]⟩
    · constructor
      · intro h24 b hb
        have hm23 : (23 : ℝ) ≤ m := by exact_mod_cast (by omega : 23 ≤ m)
        have := mul_le_mul_of_nonneg_right hm23 hd0.le
        have := hcb b hb
        exact ⟨by linarith [this.1], by linarith [this.2]⟩
      · intro hall
        have := (hall 0 (by omega)).1
        rw [hc] at this
        by_contra hcon
        have hm22 : (m : ℝ) ≤ 22 := by exact_mod_cast (by omega : m ≤ 22)
        have h3 := mul_le_mul_of_nonneg_right hm22 hd0.le
        simp only [Nat.cast_zero, zero_mul, add_zero] at this
        linarith
  · rintro rfl
    have e1 : recMin 1 (valueCenter 1 lo hi) = valueCenter 1 lo hi 0 := by
      apply le_antisymm
      · exact minOf_le _ _ _ List.mem_cons_self
      · have := minOf_mem (valueCenter 1 lo hi 0) ((List.range 1).map (valueCenter 1 lo hi))
        simp only [List.range_one, List.map_cons, List.map_nil, List.mem_cons, List.not_mem_nil, or_false, or_self] at this
        exact this.ge
    have e2 : recMax 1 (valueCenter 1 lo hi) = valueCenter 1 lo hi 0 := by
      apply le_antisymm
      · have := maxOf_mem (valueCenter 1 lo hi 0) ((List.range 1).map (valueCenter 1 lo hi))
        simp only [List.range_one, List.map_cons, List.map_nil, List.mem_cons, List.not_mem_nil, or_false, or_self] at this
        exact this.le
      · exact le_maxOf _ _ _ List.mem_cons_self
    have hnb : (1 : ℤ).toNat = 1 := rfl
    rw [hnb]
    unfold valueXLimits valueBarWidth
    simp only
    rw [e1, e2, if_neg (lt_irrefl _), if_neg (by omega)]
    constructor <;> linarith

/-- **C99 (dots by value).** Every dot stands at the centre nearest to the sample, inside the horizontal axis; for a sample between the first and the last centre it is at most half a spacing off. -/
theorem C99_value_dots (solve : Lstsq) (n : ℕ) (x : ℕ → ℝ) (freq : Option ℝ) (nBins : ℤ) (clipPercent : ℝ) (given : Option (ℝ × ℝ)) (maxIter : ℤ) (tol : ℝ)
    (r : ValueBins) (h : rearrangeByValue solve n x freq nBins clipPercent given maxIter tol = .ok r) (hb : 2 ≤ nBins) (t : ℕ) :
    (valueXLimits r.nBins r.centers).1 < valueDot r t ∧ valueDot r t < (valueXLimits r.nBins r.centers).2 ∧
    (∀ j < r.nBins, |x t - valueDot r t| ≤ |x t - r.centers j|) ∧
    (r.centers 0 ≤ x t → x t ≤ r.centers (r.nBins - 1) → |x t - valueDot r t| ≤ (r.centers 1 - r.centers 0) / 2) := by
  obtain ⟨hnb, hnear⟩ := C49_nearest_bin solve n x freq nBins clipPercent given maxIter tol r h
  obtain ⟨hlt, hn⟩ := hnear t
  obtain ⟨_, hstep, _, _, hin, _⟩ := (C99_value_bars solve n x freq nBins clipPercent given maxIter tol r h).1 hb
  have hr := (C49_range solve n x freq nBins clipPercent given maxIter tol r h hb).2.2 t
  have hspan : ∀ m : ℕ, r.centers m - r.centers 0 = m * (r.centers 1 - r.centers 0) := by
    intro m
    induction m with
    | zero => simp
    | succ m ih =>
      have := hstep m
      push_cast
      linarith
  refine ⟨(hin _ hlt).1, (hin _ hlt).2, hn, fun h1 h2 => le_trans (hr h1 h2) (le_of_eq ?_)⟩
  rw [hspan, ← hnb]
  push_cast [Nat.cast_sub (by omega : 1 ≤ r.nBins)]
  have : (0 : ℝ) < (r.nBins : ℝ) - 1 := by
    have : (2 : ℝ) ≤ r.nBins := by exact_mod_cast (by omega : 2 ≤ r.nBins)
    linarith
  field_simp

/-- **C99 (bar heights by value).** Every bar ends inside the axis and the highest ends at 1/1.15 of it. -/
theorem C99_value_heights (solve : Lstsq) (n : ℕ) (x : ℕ → ℝ) (freq : Option ℝ) (nBins : ℤ) (clipPercent : ℝ) (given : Option (ℝ × ℝ)) (maxIter : ℤ) (tol : ℝ)
    (r : ValueBins) (h : rearrangeByValue solve n x freq nBins clipPercent given maxIter tol = .ok r) :
    (valueBarLimits r.nBins r.rms).1 = 0 ∧
    (∀ b < r.nBins, ∀ q, r.rms b = some q → 0 ≤ q ∧ 23 / 20 * q ≤ (valueBarLimits r.nBins r.rms).2) ∧
    (∃ b < r.nBins, ∃ q, r.rms b = some q ∧ (valueBarLimits r.nBins r.rms).2 = 23 / 20 * q) := by
  classical
  obtain ⟨hcons, _, ⟨t, ht, hk⟩, _⟩ := C49_conservation solve n x freq nBins clipPercent given maxIter tol r h (fun t => KeptBin r.nBins clipPercent (r.index t)) (fun _ => Iff.rfl)
  have hlt := ((C49_nearest_bin solve n x freq nBins clipPercent given maxIter tol r h).2 t).1
  have hsome : r.rms (r.index t) ≠ none := by
    obtain ⟨h1, h2⟩ := (C49_bin_members solve n x freq nBins clipPercent given maxIter tol r h (r.index t)).1 hk
    rw [(h2 ⟨t, mem_filter.mpr ⟨mem_range.mpr ht, rfl⟩⟩).2]
    simp
  have hpos : ∀ b q, r.rms b = some q → 0 ≤ q := by
    intro b q hq
    obtain ⟨lo, hi, fit, _, _, _, _, _, _, _, _, rfl⟩ := value_ok solve n x freq nBins clipPercent given maxIter tol r h
    exact rms_nonneg _ _ _ _ _ _ hq
  unfold valueBarLimits
  refine ⟨rfl, ?_, ?_⟩
  · intro b hb q hq
    refine ⟨hpos b q hq, ?_⟩
    simp only
    linarith [nanMax_ge r.nBins r.rms b hb q hq]
  · obtain ⟨b, hb, hq⟩ := nanMax_mem r.nBins r.rms ⟨_, hlt, hsome⟩
    exact ⟨b, hb, _, hq, by simp only; ring⟩

/-! ## Non-trivial cases -/

/-- The record of `am_record` has an AM curve of 1/10 at the crest and a zero PM curve; its curves stay inside the axis, and its bars average to the total. -/
example (solve : Lstsq) (hs : IsLstsq solve) : ∃ r : PhaseBins, rearrangeByPhase solve 16 (fun t => sineAt 1 (1 / 4) 0 0 t + amError (1 / 10) t) (some (1 / 4)) 8 true (0 : ℕ) 0 = .ok r ∧
    amCurve r.coeffs 0 = 1 / 10 ∧ pmCurve r.coeffs 1 = 0 ∧ (∀ φ, totalCurve r.coeffs φ ≤ (phaseBarLimits 8 r.rms).2) ∧
    (∑ b ∈ range 8, totalCurve r.coeffs (r.centers b) ^ 2) / (8 : ℕ) = r.amRms ^ 2 / 2 + 0 := by
  obtain ⟨r, hr, r1, r3, r4, r5⟩ := am_record solve hs
  have hbest : BestNoiseFit 16 r := C99_model_data_best_fit solve hs 16 _ _ 8 _ 0 r hr ((1 / 10) ^ 2) 0 0 (by norm_num) le_rfl le_rfl
    (by
      intro t ht
      rw [r4 t ht, r3]
      exact (am_error_facts (1 / 10)).2.2.2 t ht) 0 1 (by norm_num) (by norm_num)
    (by
      rw [r3, r3]
      have e1 : (2 * (2 * Real.pi * (1 / 4) * ((0 : ℕ) : ℝ) + 0)) = 0 := by norm_num
      have e2 : (2 * (2 * Real.pi * (1 / 4) * ((1 : ℕ) : ℝ) + 0)) = Real.pi := by push_cast; ring
      rw [e1, e2, Real.cos_zero, Real.cos_pi]
      norm_num)
  have hsin : |Real.sin (r.phase 1 - r.phase 0)| = 1 := by
    rw [r3, r3]
    have : 2 * Real.pi * (1 / 4) * ((1 : ℕ) : ℝ) + 0 - (2 * Real.pi * (1 / 4) * ((0 : ℕ) : ℝ) + 0) = Real.pi / 2 := by push_cast; ring
    rw [this, Real.sin_pi_div_two, abs_one]
  refine ⟨r, hr, ?_, ?_, ?_, ?_⟩
  · unfold amCurve
    rw [r5, Real.cos_zero, one_pow, mul_one, add_zero, Real.sqrt_sq (by norm_num)]
  · unfold pmCurve
    rw [r5]
    simp
  · intro φ
    exact (C99_curves_in_axis solve 16 (by norm_num) _ _ 8 _ _ 0 r hr hbest (by rw [hsin]; norm_num) φ).2.2.2.2.2
  · rw [(C99_total_mean_square solve 16 (by norm_num) _ _ 8 (by norm_num) _ _ 0 r hr).1]
    obtain ⟨_, v2, v3, _⟩ := C50_variances solve 16 _ _ 8 _ _ 0 r hr
    rw [v2.2, v3.2, r5]
    ring

/-- With 10 bins over the range 0 to 9 the spacing is 1, the bars are 0.9 wide and the first one is cut by the axis. -/
example (solve : Lstsq) (x : ℕ → ℝ) : ∃ r, rearrangeByValue solve 8 x (some (1 / 8)) 10 0 (some (0, 9)) 1 (1 / 10 ^ 9) = .ok r ∧
    valueBarWidth r.nBins r.centers = 9 / 10 ∧ r.centers 0 - valueBarWidth r.nBins r.centers / 2 < (valueXLimits r.nBins r.centers).1 := by
  obtain ⟨r, hr⟩ := (C49_errors solve 8 x (some (1 / 8)) 10 0 (some (0, 9)) 1 (1 / 10 ^ 9)).2.2 (by norm_num) (by norm_num) rfl ⟨0, 9, rfl, by norm_num⟩
  obtain ⟨h1, h2, h3, _, _, h6⟩ := (C99_value_bars solve 8 x _ 10 0 _ 1 _ r hr).1 (by norm_num)
  obtain ⟨hc, _⟩ := C49_range solve 8 x _ 10 0 _ 1 _ r hr (by norm_num)
  obtain ⟨c0, c9⟩ := hc 0 9 rfl
  have hnb : r.nBins = 10 := by
    have := (C49_nearest_bin solve 8 x _ 10 0 _ 1 _ r hr).1
    omega
  obtain ⟨lo, hi, fit, _, _, _, hinf, h5, _, _, _, rfl⟩ := value_ok solve 8 x _ 10 0 _ 1 _ r hr
  simp only at c0 c9 h1 h2 h3 hnb ⊢
  have hlohi : lo = 0 ∧ hi = 9 := by
    simp only [show (10 : ℤ).toNat = 9 + 1 from rfl] at c0 c9
    rw [center_step 9 lo hi (by norm_num)] at c0 c9
    norm_num at c0 c9
    rw [c0] at c9
    constructor <;> linarith
  obtain ⟨rfl, rfl⟩ := hlohi
  have hd : valueCenter (10 : ℤ).toNat 0 9 1 - valueCenter (10 : ℤ).toNat 0 9 0 = 1 := by
    simp only [show (10 : ℤ).toNat = 9 + 1 from rfl]
    rw [center_step 9 0 9 (by norm_num), center_step 9 0 9 (by norm_num)]
    norm_num
  rw [hd] at h3
  refine ⟨_, hr, h3.trans (by norm_num), ?_⟩
  simp only
  rw [h3, c0]
  have := value_limits 9 (by norm_num) 0 9 (by norm_num)
  unfold valueXLimits
  simp only [show (10 : ℤ).toNat = 9 + 1 from rfl]
  rw [this.1, this.2]
  norm_num

/-- Two errors 0 and 1: the axis runs beyond both by a tenth. -/
example : ∀ t < 2, (1 : ℝ) / 10 ≤ (fun t : ℕ => (t : ℝ)) t - (errorLimits 2 fun t => (t : ℝ)).1 := by
  intro t ht
  have := ((C99_dot_axes 2 (fun t => (t : ℝ)) t ht).2.2.1 1 (by norm_num) 0 (by norm_num)).1
  norm_num at this ⊢
  linarith

/-- A milliradian is not printed as zero. -/
example : (pmRadText (1 / 1000)).digits ≠ 0 := by
  have h := (C99_pm_text (1 / 1000) (by norm_num)).1
  intro h0
  rw [h0] at h
  norm_num at h

end Verif
