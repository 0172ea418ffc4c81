import Verif.Theorems.CalibrationNoise
import Verif.Theorems.Sinad

/-!
# C140: calibrating and then analysing the calibrated signal
-/

namespace Verif

open Model Finset

private theorem orth_of_min (N : ℕ) (e d : ℕ → ℝ) (h : ∀ t : ℝ, ∑ n ∈ range N, e n ^ 2 ≤ ∑ n ∈ range N, (e n - t * d n) ^ 2) :
    ∑ n ∈ range N, e n * d n = 0 := by
  set E := ∑ n ∈ range N, e n * d n with hE
  set D := ∑ n ∈ range N, d n ^ 2 with hD
  have hD0 : 0 ≤ D := sum_nonneg fun _ _ => sq_nonneg _
  have key := h (E / (D + 1))
  have ex : ∑ n ∈ range N, (e n - E / (D + 1) * d n) ^ 2 = ∑ n ∈ range N, e n ^ 2 - 2 * (E / (D + 1)) * E + (E / (D + 1)) ^ 2 * D := by
    rw [hE, hD, mul_sum, mul_sum, ← sum_sub_distrib, ← sum_add_distrib]
    exact sum_congr rfl fun n _ => by ring
  rw [ex] at key
  have h2 : 2 * (E / (D + 1)) * E - (E / (D + 1)) ^ 2 * D = E ^ 2 * (D + 2) / (D + 1) ^ 2 := by
    field_simp
    ring
  have h3 : E ^ 2 * (D + 2) / (D + 1) ^ 2 ≤ 0 := by rw [← h2]; linarith
  by_contra hne
  have : 0 < E ^ 2 * (D + 2) / (D + 1) ^ 2 := by positivity
  linarith

/-! ## The error of the least-squares fit -/

/-- What the least-squares fit of one record with one harmonic says about the error waveform. -/
private theorem fit_facts (solve : Lstsq) (hs : IsLstsq solve) (est : List ℝ) (segs : List (List (List ℝ))) (f : ℝ) (hf0 : f ≠ 0)
    (hf : f ≤ 1 / 2) (force : Option Bool) (hforce : force ≠ some true) (given : Option (List ℝ)) (lr reltol : ℝ) (maxIter : ℕ)
    (rows : List (List ℝ)) (width : ℕ) (nominal : List ℝ) (hprep : prepareInput segs given = .ok ([rows], width, nominal))
    (hind : ∀ (w : ℕ → ℝ) (c : ℝ), (∀ n < rows.length, ∑ j ∈ range width, w j * (rows.getD n []).getD j 0 = c) → (∀ j < width, w j = 0) ∧ c = 0) :
    ∃ (r : CalResult) (p q κ : ℝ) (e : ℕ → ℝ), calibrate solve est segs (.scalar f) force given 1 lr reltol maxIter = .ok r ∧ p ^ 2 + q ^ 2 = 1 ∧
      r.resid = [(List.range rows.length).map e] ∧
      (∀ n, ∑ j ∈ range width, r.weight.getD j 0 * (rows.getD n []).getD j 0
        = r.offset + p * Real.cos (2 * Real.pi * f * n) + q * Real.sin (2 * Real.pi * f * n) + e n) ∧
      1 ≤ κ ∧ κ ≤ 2 ∧ ∑ n ∈ range rows.length, e n = 0 ∧
      p * (∑ n ∈ range rows.length, e n * Real.cos (2 * Real.pi * f * n)) + q * (∑ n ∈ range rows.length, e n * Real.sin (2 * Real.pi * f * n))
        = -∑ n ∈ range rows.length, e n ^ 2 ∧
      (∑ n ∈ range rows.length, e n * Real.cos (2 * Real.pi * f * n)) ^ 2 + (∑ n ∈ range rows.length, e n * Real.sin (2 * Real.pi * f * n)) ^ 2
        = κ * (∑ n ∈ range rows.length, e n ^ 2) ^ 2 ∧
      ∀ (w : ℕ → ℝ) (c : ℝ) (a b : ℕ → ℝ), (a 0 ^ 2 + b 0 ^ 2) * ∑ n ∈ range rows.length, e n ^ 2
        ≤ 2 * ∑ n ∈ range rows.length, Spec.misfit (fun j n => (rows.getD n []).getD j 0) width f 1 w c a b n ^ 2 := by
  obtain ⟨r, p, q, h1, _, h3, _, h5, h6, κ, hκ1, hκp, hκ⟩ := calibrate_fit solve hs est segs f hf0 hf force hforce given 1 one_pos lr reltol maxIter rows
    width nominal hprep (rank_of_indep rows width hind)
  set N := rows.length with hN
  set bit : ℕ → ℕ → ℝ := fun j n => (rows.getD n []).getD j 0 with hbit
  set W : ℕ → ℝ := fun j => r.weight.getD j 0 with hW
  set e : ℕ → ℝ := fun n => Spec.misfit bit width f 1 W r.offset p q n with he
  set G := ∑ n ∈ range N, e n ^ 2 with hG
  have hG0 : 0 ≤ G := sum_nonneg fun _ _ => sq_nonneg _
  have ang : ∀ n : ℕ, 2 * Real.pi * f * ((n : ℝ) * (((0 : ℕ) : ℝ) + 1)) = 2 * Real.pi * f * n := fun n => by push_cast; ring
  have hy : ∀ n, ∑ j ∈ range width, W j * bit j n = r.offset + p 0 * Real.cos (2 * Real.pi * f * n) + q 0 * Real.sin (2 * Real.pi * f * n) + e n := by
    intro n
    rw [he]
    simp only
    unfold Spec.misfit
    rw [sum_range_one, ang]
    ring
  -- directions
  have hone : ∀ n, Spec.misfit bit width f 1 (fun _ => 0) 1 (fun _ => 0) (fun _ => 0) n = -1 := by
    intro n; unfold Spec.misfit; simp
  have hcos : ∀ n, Spec.misfit bit width f 1 (fun _ => 0) 0 (fun _ => 1) (fun _ => 0) n = -Real.cos (2 * Real.pi * f * n) := by
    intro n; unfold Spec.misfit; rw [sum_range_one, ang]; simp
  have hsin : ∀ n, Spec.misfit bit width f 1 (fun _ => 0) 0 (fun _ => 0) (fun _ => 1) n = -Real.sin (2 * Real.pi * f * n) := by
    intro n; unfold Spec.misfit; rw [sum_range_one, ang]; simp
  have hself : ∀ n, Spec.misfit bit width f 1 W r.offset (fun _ => 0) (fun _ => 0) n
      = p 0 * Real.cos (2 * Real.pi * f * n) + q 0 * Real.sin (2 * Real.pi * f * n) + e n := by
    intro n
    have := hy n
    unfold Spec.misfit
    rw [this]
    simp
    ring
  have orth : ∀ (w' : ℕ → ℝ) (c' : ℝ) (a' b' : ℕ → ℝ), (κ * p 0 ^ 2 = 1 ∧ a' 0 = 0) ∨ (κ * q 0 ^ 2 = 1 ∧ b' 0 = 0) →
      ∑ n ∈ range N, e n * Spec.misfit bit width f 1 w' c' a' b' n = 0 := by
    intro w' c' a' b' hcase
    apply orth_of_min
    intro t
    have hk := hκ (fun j => W j - t * w' j) (r.offset - t * c') (fun h => p h - t * a' h) (fun h => q h - t * b' h)
    have hexp : ∑ n ∈ range N, Spec.misfit bit width f 1 (fun j => W j - t * w' j) (r.offset - t * c') (fun h => p h - t * a' h) (fun h => q h - t * b' h) n ^ 2
        = ∑ n ∈ range N, (e n - t * Spec.misfit bit width f 1 w' c' a' b' n) ^ 2 :=
      sum_congr rfl fun n _ => by rw [misfit_add]
    rw [hexp] at hk
    rcases hcase with ⟨hc, h0⟩ | ⟨hc, h0⟩
    · have := hk.1
      simp only [h0, mul_zero, sub_zero] at this
      rw [hc, one_mul] at this
      exact this
    · have := hk.2
      simp only [h0, mul_zero, sub_zero] at this
      rw [hc, one_mul] at this
      exact this
  have hE1 : ∑ n ∈ range N, e n = 0 := by
    have := orth (fun _ => 0) 1 (fun _ => 0) (fun _ => 0) (by tauto)
    simp only [hone, mul_neg, mul_one, sum_neg_distrib, neg_eq_zero] at this
    exact this
  set C := ∑ n ∈ range N, e n * Real.cos (2 * Real.pi * f * n) with hC
  set D := ∑ n ∈ range N, e n * Real.sin (2 * Real.pi * f * n) with hD
  have hS : p 0 * C + q 0 * D = -G := by
    have := orth W r.offset (fun _ => 0) (fun _ => 0) (by tauto)
    simp only [hself] at this
    have ex : ∑ n ∈ range N, e n * (p 0 * Real.cos (2 * Real.pi * f * n) + q 0 * Real.sin (2 * Real.pi * f * n) + e n) = p 0 * C + q 0 * D + G := by
      rw [hC, hD, hG, mul_sum, mul_sum, ← sum_add_distrib, ← sum_add_distrib]
      exact sum_congr rfl fun n _ => by ring
    rw [ex] at this
    linarith
  have hCD : C ^ 2 + D ^ 2 = κ * G ^ 2 := by
    rcases hκp with hc | hc
    · have hD0 : D = 0 := by
        have := orth (fun _ => 0) 0 (fun _ => 0) (fun _ => 1) (Or.inl ⟨hc, rfl⟩)
        simp only [hsin, mul_neg, sum_neg_distrib, neg_eq_zero] at this
        exact this
      rw [hD0] at hS ⊢
      have h7 : p 0 * C = -G := by linarith
      have h8 : G ^ 2 = p 0 ^ 2 * C ^ 2 := by rw [← mul_pow, h7, neg_sq]
      rw [h8]
      linear_combination -C ^ 2 * hc
    · have hC0 : C = 0 := by
        have := orth (fun _ => 0) 0 (fun _ => 1) (fun _ => 0) (Or.inr ⟨hc, rfl⟩)
        simp only [hcos, mul_neg, sum_neg_distrib, neg_eq_zero] at this
        exact this
      rw [hC0] at hS ⊢
      have h7 : q 0 * D = -G := by linarith
      have h8 : G ^ 2 = q 0 ^ 2 * D ^ 2 := by rw [← mul_pow, h7, neg_sq]
      rw [h8]
      linear_combination -D ^ 2 * hc
  have hnear : ∀ (w : ℕ → ℝ) (c : ℝ) (a b : ℕ → ℝ), (a 0 ^ 2 + b 0 ^ 2) * G ≤ 2 * ∑ n ∈ range N, Spec.misfit bit width f 1 w c a b n ^ 2 := by
    intro w c a b
    obtain ⟨g1, g2⟩ := h6 w c a b
    have : (a 0 ^ 2 + b 0 ^ 2) * G = a 0 ^ 2 * G + b 0 ^ 2 * G := by ring
    rw [this]
    linarith
  by_cases hGz : G = 0
  · refine ⟨r, p 0, q 0, 1, e, h1, h3, h5, hy, le_refl _, by norm_num, hE1, hS, ?_, hnear⟩
    have h9 : C ^ 2 + D ^ 2 = 1 * G ^ 2 := by rw [hCD, hGz]; simp
    exact h9
  · refine ⟨r, p 0, q 0, κ, e, h1, h3, h5, hy, hκ1, ?_, hE1, hS, hCD, hnear⟩
    have hGp : 0 < G := lt_of_le_of_ne hG0 (Ne.symm hGz)
    obtain ⟨g1, g2⟩ := hκ W r.offset p q
    have k1 : κ * p 0 ^ 2 ≤ 1 := by
      by_contra hc
      push Not at hc
      have : 1 * G < κ * p 0 ^ 2 * G := mul_lt_mul_of_pos_right hc hGp
      linarith
    have k2 : κ * q 0 ^ 2 ≤ 1 := by
      by_contra hc
      push Not at hc
      have : 1 * G < κ * q 0 ^ 2 * G := mul_lt_mul_of_pos_right hc hGp
      linarith
    nlinarith

/-! ## The calibrated signal in the spectrum -/

private theorem meanSq_map (N : ℕ) (e : ℕ → ℝ) : meanSq ((List.range N).map e) = (∑ n ∈ range N, e n ^ 2) / N := by
  unfold meanSq
  rw [List.map_map, List.length_map, List.length_range, ← list_sum_map_range]
  rfl

private theorem bin_sine_parts (N b : ℕ) (hb : 0 < b) (hbN : 2 * b < N) (p q c : ℝ) (e : ℕ → ℝ) (x : ℕ → ℝ)
    (hx : ∀ n < N, x n = c + p * Real.cos (2 * Real.pi * ((b : ℝ) / N) * n) + q * Real.sin (2 * Real.pi * ((b : ℝ) / N) * n) + e n) :
    ∃ A φ, 0 ≤ A ∧ A ^ 2 = p ^ 2 + q ^ 2 ∧ (∀ n < N, x n = sineAt A ((b : ℝ) / N) φ c n + e n) ∧
      binCos N b x = p + 2 / N * ∑ n ∈ range N, e n * Real.cos (2 * Real.pi * ((b : ℝ) / N) * n) ∧
      binSin N b x = q + 2 / N * ∑ n ∈ range N, e n * Real.sin (2 * Real.pi * ((b : ℝ) / N) * n) := by
  obtain ⟨A, φ, hA, h1, h2⟩ := exists_polar p q
  have ang : ∀ n : ℕ, 2 * Real.pi * ((b : ℝ) / N) * n = 2 * Real.pi * (b * n / N) := fun n => by ring
  have hxs : ∀ n < N, x n = sineAt A ((b : ℝ) / N) φ c n + e n := by
    intro n hn
    rw [hx n hn, sineAt_parts, h1, h2, ang]
    ring
  obtain ⟨c1, c2⟩ := bin_congr N b x (fun n => sineAt A ((b : ℝ) / N) φ c n + e n) hxs
  obtain ⟨a1, a2⟩ := bin_add N b (sineAt A ((b : ℝ) / N) φ c) e
  obtain ⟨b1, b2⟩ := bin_sine N b hb hbN A φ c
  refine ⟨A, φ, hA, ?_, hxs, ?_, ?_⟩
  · rw [← h1, ← h2]
    linear_combination -A ^ 2 * Real.sin_sq_add_cos_sq φ
  · rw [c1, a1, b1, h1]
    unfold binCos
    exact congrArg _ (congrArg _ (sum_congr rfl fun n _ => by rw [ang n]))
  · rw [c2, a2, b2, h2]
    unfold binSin
    exact congrArg _ (congrArg _ (sum_congr rfl fun n _ => by rw [ang n]))

section
variable (solve : Lstsq) (hs : IsLstsq solve) (est : List ℝ) (segs : List (List (List ℝ))) (b : ℕ) (force : Option Bool) (hforce : force ≠ some true)
  (given : Option (List ℝ)) (lr reltol : ℝ) (maxIter : ℕ) (rows : List (List ℝ)) (width : ℕ) (nominal : List ℝ)
  (hb : 0 < b) (hbN : 2 * b < rows.length) (hprep : prepareInput segs given = .ok ([rows], width, nominal))
  (hind : ∀ (w : ℕ → ℝ) (c : ℝ), (∀ n < rows.length, ∑ j ∈ range width, w j * (rows.getD n []).getD j 0 = c) → (∀ j < width, w j = 0) ∧ c = 0)
include hs hforce hb hbN hprep hind

private theorem report_core :
    ∃ (r : CalResult) (κ : ℝ), calibrate solve est segs (.scalar ((b : ℝ) / rows.length)) force given 1 lr reltol maxIter = .ok r ∧ 1 ≤ κ ∧ κ ≤ 2 ∧
      (r.signal.getD 0 []).length = rows.length ∧
      (0 < meanSq (r.resid.getD 0 []) → r.snr.getD 0 0 = 10 * Real.logb 10 (1 / (2 * meanSq (r.resid.getD 0 [])))) ∧
      (∀ (w : ℕ → ℝ) (c : ℝ) (p q : ℕ → ℝ), (p 0 ^ 2 + q 0 ^ 2) * meanSq (r.resid.getD 0 []) ≤ 2 *
        ((∑ n ∈ range rows.length, Spec.misfit (fun j n => (rows.getD n []).getD j 0) width ((b : ℝ) / rows.length) 1 w c p q n ^ 2) / rows.length)) ∧
      (meanSq (r.resid.getD 0 []) < 1 / 4 → ∀ (lib : WinLib) (a : SpectrumArgs), PlainCall a → ∀ V : ℝ, 0 < V →
        peakAmplitude [r.signal.getD 0 []] a.scale = .ok V →
        ∃ s, computeSpectrum lib [r.signal.getD 0 []] a = .ok s ∧ s.fundamentalBin = b ∧
          s.sndr = dB ((1 / 2 - 2 * meanSq (r.resid.getD 0 []) + 2 * κ * meanSq (r.resid.getD 0 []) ^ 2)
            / (meanSq (r.resid.getD 0 []) - 2 * κ * meanSq (r.resid.getD 0 []) ^ 2 + V ^ 2 / 2 / 10 ^ 20)) ∧
          s.sigPwr = 10 * Real.logb 10 (max ((1 - 4 * meanSq (r.resid.getD 0 []) + 4 * κ * meanSq (r.resid.getD 0 []) ^ 2) / V ^ 2) (1 / 10 ^ 30)) ∧
          dB (max (1 / 2 / (meanSq (r.resid.getD 0 []) + V ^ 2 / 2 / 10 ^ 20) - 1) 0) ≤ s.sndr) := by
  have hN0 : (0 : ℝ) < rows.length := by exact_mod_cast (by omega : 0 < rows.length)
  have hbR : (0 : ℝ) < b := by exact_mod_cast hb
  have hf0 : (b : ℝ) / rows.length ≠ 0 := (div_pos hbR hN0).ne'
  have hf : (b : ℝ) / rows.length ≤ 1 / 2 := by
    rw [div_le_iff₀ hN0]
    have : (2 * b : ℝ) < rows.length := by exact_mod_cast hbN
    linarith
  obtain ⟨r, p, q, κ, e, h1, hpq, hres, hy, hk1, hk2, hE, hS, hCD, hnear⟩ := fit_facts solve hs est segs _ hf0 hf force hforce given lr reltol maxIter rows width
    nominal hprep hind
  obtain ⟨segs', width', nominal', hp', l1, l2, l3, l4, hseg, _⟩ := C41_decomposition solve est segs _ force given 1 lr reltol maxIter r h1
  rw [hprep] at hp'
  simp only [Except.ok.injEq, Prod.mk.injEq] at hp'
  obtain ⟨rfl, rfl, rfl⟩ := hp'
  obtain ⟨m1, m2, m3, m4, m5, _⟩ := hseg 0 (by simp)
  simp only [List.getD_cons_zero] at m1 m2 m3 m4
  have hsig : ∀ n < rows.length, (r.signal.getD 0 []).getD n 0
      = r.offset + p * Real.cos (2 * Real.pi * ((b : ℝ) / rows.length) * n) + q * Real.sin (2 * Real.pi * ((b : ℝ) / rows.length) * n) + e n := by
    intro n hn
    rw [(m4 n hn).2, ← hy n]
    simp [segStart]
  have hrho : meanSq (r.resid.getD 0 []) = (∑ n ∈ range rows.length, e n ^ 2) / rows.length := by
    rw [hres]
    exact meanSq_map _ _
  have hresn : ∀ n < rows.length, (r.resid.getD 0 []).getD n 0 = e n := by
    intro n hn
    rw [hres]
    exact getD_range_map _ _ _ _ hn
  have hid : meanSq (r.ideal.getD 0 []) = 1 / 2 := by
    have hl : r.ideal.getD 0 [] = (List.range rows.length).map fun (n : ℕ) =>
        p * Real.cos (2 * Real.pi * (b * n / rows.length)) + q * Real.sin (2 * Real.pi * (b * n / rows.length)) := by
      apply list_ext_getD
      · rw [m2, List.length_map, List.length_range]
      · intro n hn
        rw [m2] at hn
        rw [getD_range_map _ _ _ _ hn]
        have := (m4 n hn).1
        rw [hsig n hn, hresn n hn] at this
        rw [show 2 * Real.pi * (b * n / rows.length : ℝ) = 2 * Real.pi * ((b : ℝ) / rows.length) * n by ring]
        linarith
    rw [hl, meanSq_map]
    obtain ⟨s1, s2, s3, s4, s5⟩ := bin_sums (N := rows.length) (b := b) hb hbN
    have ex : ∑ n ∈ range rows.length, (p * Real.cos (2 * Real.pi * (b * n / rows.length)) + q * Real.sin (2 * Real.pi * (b * n / rows.length))) ^ 2
        = p ^ 2 * ∑ n ∈ range rows.length, Real.cos (2 * Real.pi * (b * n / rows.length)) ^ 2
          + q ^ 2 * ∑ n ∈ range rows.length, Real.sin (2 * Real.pi * (b * n / rows.length)) ^ 2
          + 2 * p * q * ∑ n ∈ range rows.length, Real.cos (2 * Real.pi * (b * n / rows.length)) * Real.sin (2 * Real.pi * (b * n / rows.length)) := by
      rw [mul_sum, mul_sum, mul_sum, ← sum_add_distrib, ← sum_add_distrib]
      exact sum_congr rfl fun n _ => by ring
    rw [ex, s3, s4, s5, div_eq_iff hN0.ne']
    linear_combination (rows.length : ℝ) / 2 * hpq
  obtain ⟨A, φ, hA, hA2, hrow, hbc, hbs⟩ := bin_sine_parts rows.length b hb hbN p q r.offset e (fun n => (r.signal.getD 0 []).getD n 0) hsig
  have hA1 : A = 1 := by
    rw [hpq] at hA2
    nlinarith
  subst hA1
  refine ⟨r, κ, h1, hk1, hk2, m1, ?_⟩
  rw [hrho]
  set G := ∑ n ∈ range rows.length, e n ^ 2 with hG
  have hG0 : 0 ≤ G := sum_nonneg fun _ _ => sq_nonneg _
  set C := ∑ n ∈ range rows.length, e n * Real.cos (2 * Real.pi * ((b : ℝ) / rows.length) * n) with hC
  set D := ∑ n ∈ range rows.length, e n * Real.sin (2 * Real.pi * ((b : ℝ) / rows.length) * n) with hD
  refine ⟨?_, ?_, ?_⟩
  · intro hpos
    have := m5
    rw [hrho, if_pos hpos, hid] at this
    rw [this]
    congr 2
    field_simp
  · intro w c p' q'
    have := hnear w c p' q'
    rw [← mul_div_assoc, ← mul_div_assoc]
    exact div_le_div_of_nonneg_right this hN0.le
  · intro hq lib a ha V hV hpk
    have hrho0 : 0 ≤ G / rows.length := div_nonneg hG0 hN0.le
    have hsq := Real.sq_sqrt hrho0
    obtain ⟨s, t1, t2, _, t4⟩ := C95_bounded_error lib a ha (r.signal.getD 0 []) V hV hpk b hb (by rw [m1]; exact hbN) 1 φ r.offset (Real.sqrt (G / rows.length)) e
      (by rw [m1]; exact hrow) (Real.sqrt_nonneg _) (by
        rw [m1, hsq, mul_div_cancel₀ _ hN0.ne']) (by
        have hs0 := Real.sqrt_nonneg (G / rows.length)
        nlinarith)
    rw [hsq, one_pow] at t4
    obtain ⟨A', φ', C', hA'0, hbest⟩ := exists_bestSine rows.length b hb hbN (fun n => (r.signal.getD 0 []).getD n 0)
    obtain ⟨u1, u2⟩ := best_sine rows.length b hb hbN _ A' φ' C' hbest
    obtain ⟨v1, v2⟩ := C95_sndr_is_sinad lib a ha (r.signal.getD 0 []) V hV.ne' hpk s t1 (by rw [t2]; exact hb) (by rw [t2, m1]; exact hbN) A' φ' C'
      (by rw [t2, m1]; exact hbest)
    have hA' : A' ^ 2 = 1 - 4 * (G / rows.length) + 4 * κ * (G / rows.length) ^ 2 := by
      rw [u1, hbc, hbs]
      have : (p + 2 / (rows.length : ℝ) * C) ^ 2 + (q + 2 / (rows.length : ℝ) * D) ^ 2
          = (p ^ 2 + q ^ 2) + 4 / (rows.length : ℝ) * (p * C + q * D) + 4 / (rows.length : ℝ) ^ 2 * (C ^ 2 + D ^ 2) := by ring
      rw [this, hpq, hS, hCD]
      field_simp
      ring
    have hR : residualPower rows.length b (fun n => (r.signal.getD 0 []).getD n 0) A' φ' C' = G / rows.length - 2 * κ * (G / rows.length) ^ 2 := by
      unfold residualPower
      rw [u2]
      have hpy := bin_pythagoras (fun n => (r.signal.getD 0 []).getD n 0) hb hbN p q r.offset
      have hes : ∑ n ∈ range rows.length, ((r.signal.getD 0 []).getD n 0 - (p * Real.cos (2 * Real.pi * (b * n / rows.length)) + q * Real.sin (2 * Real.pi * (b * n / rows.length)) + r.offset)) ^ 2
          = G := by
        rw [hG]
        refine sum_congr rfl fun n hn => ?_
        rw [hsig n (mem_range.mp hn), show 2 * Real.pi * (b * n / rows.length : ℝ) = 2 * Real.pi * ((b : ℝ) / rows.length) * n by ring]
        ring
      have hmean : recMean rows.length (fun n => (r.signal.getD 0 []).getD n 0) = r.offset := by
        unfold recMean
        obtain ⟨s1, s2, _, _, _⟩ := bin_sums (N := rows.length) (b := b) hb hbN
        have ex : ∑ n ∈ range rows.length, (r.signal.getD 0 []).getD n 0 = ∑ n ∈ range rows.length, r.offset
            + p * ∑ n ∈ range rows.length, Real.cos (2 * Real.pi * (b * n / rows.length))
            + q * ∑ n ∈ range rows.length, Real.sin (2 * Real.pi * (b * n / rows.length)) + ∑ n ∈ range rows.length, e n := by
          rw [mul_sum, mul_sum, ← sum_add_distrib, ← sum_add_distrib, ← sum_add_distrib]
          refine sum_congr rfl fun n hn => ?_
          rw [hsig n (mem_range.mp hn), show 2 * Real.pi * (b * n / rows.length : ℝ) = 2 * Real.pi * ((b : ℝ) / rows.length) * n by ring]
        rw [ex, s1, s2, hE, sum_const, card_range, nsmul_eq_mul]
        field_simp
        ring
      rw [hes, hmean, hbc, hbs] at hpy
      have hbin : (p - (p + 2 / (rows.length : ℝ) * C)) ^ 2 + (q - (q + 2 / (rows.length : ℝ) * D)) ^ 2 = 4 / (rows.length : ℝ) ^ 2 * (κ * G ^ 2) := by
        rw [← hCD]; ring
      rw [hbin, sub_self] at hpy
      rw [hmean, hbc, hbs, div_eq_iff hN0.ne']
      have h7 : (G / rows.length - 2 * κ * (G / rows.length) ^ 2) * rows.length = G - (rows.length : ℝ) / 2 * (4 / (rows.length : ℝ) ^ 2 * (κ * G ^ 2)) := by
        field_simp
        ring
      rw [h7]
      linarith
    refine ⟨s, t1, t2, ?_, ?_, t4⟩
    · rw [v1, t2, m1, hR, hA']
      congr 2
      ring
    · rw [v2, div_pow, hA']

/-- **C140 (the two reports).** One record at a coherent frequency, calibrated with one harmonic: the reported SNR is `1/(2 ρ)` with `ρ` the mean
square of the returned error, and when `ρ < 1/4` every plain `compute_spectrum` of the calibrated signal finds the tone and reports exactly
`(1/2 - 2ρ + 2κρ²) / (ρ - 2κρ²)`, for one number `κ` between 1 and 2. -/
theorem C140_report :
    ∃ (r : CalResult) (κ : ℝ), calibrate solve est segs (.scalar ((b : ℝ) / rows.length)) force given 1 lr reltol maxIter = .ok r ∧ 1 ≤ κ ∧ κ ≤ 2 ∧
      (0 < meanSq (r.resid.getD 0 []) → r.snr.getD 0 0 = 10 * Real.logb 10 (1 / (2 * meanSq (r.resid.getD 0 [])))) ∧
      (meanSq (r.resid.getD 0 []) < 1 / 4 → ∀ (lib : WinLib) (a : SpectrumArgs), PlainCall a → ∀ V : ℝ, 0 < V →
        peakAmplitude [r.signal.getD 0 []] a.scale = .ok V →
        ∃ s, computeSpectrum lib [r.signal.getD 0 []] a = .ok s ∧ s.fundamentalBin = b ∧
          s.sndr = dB ((1 / 2 - 2 * meanSq (r.resid.getD 0 []) + 2 * κ * meanSq (r.resid.getD 0 []) ^ 2)
            / (meanSq (r.resid.getD 0 []) - 2 * κ * meanSq (r.resid.getD 0 []) ^ 2 + V ^ 2 / 2 / 10 ^ 20)) ∧
          s.sigPwr = 10 * Real.logb 10 (max ((1 - 4 * meanSq (r.resid.getD 0 []) + 4 * κ * meanSq (r.resid.getD 0 []) ^ 2) / V ^ 2) (1 / 10 ^ 30))) := by
  obtain ⟨r, κ, h1, h2, h3, _, h5, _, h7⟩ := report_core solve hs est segs b force hforce given lr reltol maxIter rows width nominal hb hbN hprep hind
  refine ⟨r, κ, h1, h2, h3, h5, fun hq lib a ha V hV hpk => ?_⟩
  obtain ⟨s, t1, t2, t3, t4, _⟩ := h7 hq lib a ha V hV hpk
  exact ⟨s, t1, t2, t3, t4⟩

/-- **C140 (how far apart).** The SNDR in the spectrum is above the calibration's `1/(2ρ)` less one (and the floor of 1e-20 of full scale), and
below it plus `4ρ/(1 - 4ρ)`. -/
theorem C140_bounds :
    ∃ r : CalResult, calibrate solve est segs (.scalar ((b : ℝ) / rows.length)) force given 1 lr reltol maxIter = .ok r ∧
      (meanSq (r.resid.getD 0 []) < 1 / 4 → ∀ (lib : WinLib) (a : SpectrumArgs), PlainCall a → ∀ V : ℝ, 0 < V →
        peakAmplitude [r.signal.getD 0 []] a.scale = .ok V →
        ∃ s, computeSpectrum lib [r.signal.getD 0 []] a = .ok s ∧
          dB (max (1 / 2 / (meanSq (r.resid.getD 0 []) + V ^ 2 / 2 / 10 ^ 20) - 1) 0) ≤ s.sndr ∧
          (0 < meanSq (r.resid.getD 0 []) →
            s.sndr ≤ dB (1 / (2 * meanSq (r.resid.getD 0 [])) + 4 * meanSq (r.resid.getD 0 []) / (1 - 4 * meanSq (r.resid.getD 0 []))))) := by
  obtain ⟨r, κ, h1, h2, h3, _, h5, _, h7⟩ := report_core solve hs est segs b force hforce given lr reltol maxIter rows width nominal hb hbN hprep hind
  refine ⟨r, h1, fun hq lib a ha V hV hpk => ?_⟩
  obtain ⟨s, t1, _, t3, _, t5⟩ := h7 hq lib a ha V hV hpk
  refine ⟨s, t1, t5, fun hpos => ?_⟩
  rw [t3]
  generalize meanSq (r.resid.getD 0 []) = ρ at *
  have d1 : 0 < 1 - 2 * ρ * κ := by nlinarith
  have d2 : 0 < ρ - 2 * κ * ρ ^ 2 := by nlinarith
  have d3 : 0 ≤ 1 / 2 - 2 * ρ + 2 * κ * ρ ^ 2 := by nlinarith [sq_nonneg (ρ - 1 / 2)]
  have d4 : 0 < 1 - 4 * ρ := by linarith
  have dV : 0 < V ^ 2 / 2 / 10 ^ 20 := by positivity
  apply dB_mono (by positivity)
  have e1 : (1 / 2 - 2 * ρ + 2 * κ * ρ ^ 2) / (ρ - 2 * κ * ρ ^ 2 + V ^ 2 / 2 / 10 ^ 20) ≤ (1 / 2 - 2 * ρ + 2 * κ * ρ ^ 2) / (ρ - 2 * κ * ρ ^ 2) :=
    div_le_div_of_nonneg_left d3 d2 (by linarith)
  refine e1.trans ?_
  have e2 : (1 / 2 - 2 * ρ + 2 * κ * ρ ^ 2) / (ρ - 2 * κ * ρ ^ 2) = 1 / (2 * ρ) + (κ - 2 + 2 * ρ * κ) / (1 - 2 * ρ * κ) := by
    rw [show ρ - 2 * κ * ρ ^ 2 = ρ * (1 - 2 * ρ * κ) by ring]
    field_simp
    ring
  rw [e2]
  have e3 : (κ - 2 + 2 * ρ * κ) / (1 - 2 * ρ * κ) ≤ 4 * ρ / (1 - 4 * ρ) := by
    rw [div_le_div_iff₀ d1 d4]
    nlinarith
  linarith

/-- **C140 (no weights are much better).** Compare with any other converter: any weights and offset and any sine of amplitude `A` that miss the
record by `ν` rms. The spectrum of the calibrated signal reports at least `A²/(4 ν²) - 1`, that is, less than 3 dB (and one) below the
`A²/(2 ν²)` of that converter. -/
theorem C140_any_weights :
    ∃ r : CalResult, calibrate solve est segs (.scalar ((b : ℝ) / rows.length)) force given 1 lr reltol maxIter = .ok r ∧
      ∀ (w : ℕ → ℝ) (c : ℝ) (p q : ℕ → ℝ) (A ν : ℝ), 0 < A → A ^ 2 = p 0 ^ 2 + q 0 ^ 2 →
        ∑ n ∈ range rows.length, Spec.misfit (fun j n => (rows.getD n []).getD j 0) width ((b : ℝ) / rows.length) 1 w c p q n ^ 2 ≤ rows.length * ν ^ 2 →
        8 * ν ^ 2 < A ^ 2 → ∀ (lib : WinLib) (a : SpectrumArgs), PlainCall a → ∀ V : ℝ, 0 < V →
        peakAmplitude [r.signal.getD 0 []] a.scale = .ok V →
        ∃ s, computeSpectrum lib [r.signal.getD 0 []] a = .ok s ∧ s.fundamentalBin = b ∧
          dB (max (A ^ 2 / 2 / (2 * ν ^ 2 + A ^ 2 * (V ^ 2 / 2 / 10 ^ 20)) - 1) 0) ≤ s.sndr := by
  obtain ⟨r, κ, h1, h2, h3, _, h5, h6, h7⟩ := report_core solve hs est segs b force hforce given lr reltol maxIter rows width nominal hb hbN hprep hind
  refine ⟨r, h1, fun w c p q A ν hA hApq hmis hlt lib a ha V hV hpk => ?_⟩
  have hN0 : (0 : ℝ) < rows.length := by exact_mod_cast (by omega : 0 < rows.length)
  have hA2 : 0 < A ^ 2 := by positivity
  have hle : A ^ 2 * meanSq (r.resid.getD 0 []) ≤ 2 * ν ^ 2 := by
    rw [hApq]
    refine (h6 w c p q).trans ?_
    apply mul_le_mul_of_nonneg_left _ (by norm_num)
    rw [div_le_iff₀ hN0]
    linarith
  have hq : meanSq (r.resid.getD 0 []) < 1 / 4 := by
    by_contra hc
    push Not at hc
    have := mul_le_mul_of_nonneg_left hc hA2.le
    linarith
  obtain ⟨s, t1, t2, _, _, t5⟩ := h7 hq lib a ha V hV hpk
  refine ⟨s, t1, t2, le_trans ?_ t5⟩
  have hρ0 : 0 ≤ meanSq (r.resid.getD 0 []) := by
    unfold meanSq
    apply div_nonneg _ (Nat.cast_nonneg _)
    apply List.sum_nonneg
    intro v hv
    obtain ⟨u, _, rfl⟩ := List.mem_map.mp hv
    exact sq_nonneg u
  generalize meanSq (r.resid.getD 0 []) = ρ at *
  have dV : 0 < V ^ 2 / 2 / 10 ^ 20 := by positivity
  apply dB_mono (le_max_right _ _)
  apply max_le_max _ le_rfl
  apply sub_le_sub_right
  have e1 : A ^ 2 / 2 / (2 * ν ^ 2 + A ^ 2 * (V ^ 2 / 2 / 10 ^ 20)) ≤ A ^ 2 / 2 / (A ^ 2 * ρ + A ^ 2 * (V ^ 2 / 2 / 10 ^ 20)) :=
    div_le_div_of_nonneg_left (by positivity) (by positivity) (by linarith)
  refine e1.trans (le_of_eq ?_)
  rw [← mul_add]
  field_simp

end

/-! ## Fitting harmonics -/

private theorem sixth (k : ℕ) : Real.cos (2 * Real.pi * (1 / 6) * k) = (if k % 6 = 0 then 1 else if k % 6 = 1 then 1 / 2 else if k % 6 = 2 then -1 / 2
      else if k % 6 = 3 then -1 else if k % 6 = 4 then -1 / 2 else 1 / 2) ∧
    Real.sin (2 * Real.pi * (1 / 6) * k) = (if k % 6 = 0 then 0 else if k % 6 = 1 then Real.sqrt 3 / 2 else if k % 6 = 2 then Real.sqrt 3 / 2
      else if k % 6 = 3 then 0 else if k % 6 = 4 then -(Real.sqrt 3 / 2) else -(Real.sqrt 3 / 2)) := by
  have hk : 2 * Real.pi * (1 / 6) * k = Real.pi / 3 * ((k % 6 : ℕ) : ℝ) + ((k / 6 : ℕ) : ℝ) * (2 * Real.pi) := by
    have : (k : ℝ) = 6 * ((k / 6 : ℕ) : ℝ) + ((k % 6 : ℕ) : ℝ) := by exact_mod_cast (Nat.div_add_mod k 6).symm
    rw [this]
    push_cast
    ring
  rw [hk, Real.cos_add_nat_mul_two_pi, Real.sin_add_nat_mul_two_pi]
  have hlt : k % 6 < 6 := Nat.mod_lt _ (by norm_num)
  generalize k % 6 = m at *
  interval_cases m
  · simp
  · simp [Real.cos_pi_div_three, Real.sin_pi_div_three]
  · have : Real.pi / 3 * ((2 : ℕ) : ℝ) = Real.pi - Real.pi / 3 := by push_cast; ring
    rw [this, Real.cos_pi_sub, Real.sin_pi_sub, Real.cos_pi_div_three, Real.sin_pi_div_three]
    norm_num
  · have : Real.pi / 3 * ((3 : ℕ) : ℝ) = Real.pi := by push_cast; ring
    rw [this]
    simp
  · have : Real.pi / 3 * ((4 : ℕ) : ℝ) = Real.pi / 3 + Real.pi := by push_cast; ring
    rw [this, Real.cos_add_pi, Real.sin_add_pi, Real.cos_pi_div_three, Real.sin_pi_div_three]
    norm_num
  · have : Real.pi / 3 * ((5 : ℕ) : ℝ) = 2 * Real.pi - Real.pi / 3 := by push_cast; ring
    rw [this, Real.cos_two_pi_sub, Real.sin_two_pi_sub, Real.cos_pi_div_three, Real.sin_pi_div_three]
    norm_num

/-- The output of a comparator that sees a cosine of six samples per period. -/
private def comparator : List (List ℝ) := [[1], [1], [0], [0], [0], [1]]

private theorem comparator_prep : prepareInput [comparator] none = .ok ([comparator], 1, [1]) := by
  have : orientSegment comparator = comparator := by
    unfold orientSegment comparator
    simp
  unfold comparator at this ⊢
  simp [prepareInput, stackSegments, this, nominalWeights]

private theorem comparator_misfit (w : ℕ → ℝ) (c : ℝ) (a b : ℕ → ℝ) (n : ℕ) :
    Spec.misfit (fun j n => (comparator.getD n []).getD j 0) 1 (1 / 6) 3 w c a b n = w 0 * (comparator.getD n []).getD 0 0 -
      (c + ((a 0 * Real.cos (2 * Real.pi * (1 / 6) * (n : ℕ)) + b 0 * Real.sin (2 * Real.pi * (1 / 6) * (n : ℕ)))
        + (a 1 * Real.cos (2 * Real.pi * (1 / 6) * (n * 2 : ℕ)) + b 1 * Real.sin (2 * Real.pi * (1 / 6) * (n * 2 : ℕ)))
        + (a 2 * Real.cos (2 * Real.pi * (1 / 6) * (n * 3 : ℕ)) + b 2 * Real.sin (2 * Real.pi * (1 / 6) * (n * 3 : ℕ))))) := by
  unfold Spec.misfit
  rw [sum_range_one, sum_range_succ, sum_range_succ, sum_range_one]
  push_cast
  norm_num

/-- **C140 (with harmonics the two reports differ).** A one-bit record calibrated with three harmonics: the residual is zero, the calibration reports
200 dB, and the spectrum of the same calibrated signal never reports more than a ratio of 8 (9 dB), because the fitted harmonics are part of the
calibration's signal. -/
theorem C140_harmonics_false :
    ∃ rows : List (List ℝ), ∀ (solve : Lstsq), IsLstsq solve → ∀ (lr reltol : ℝ) (maxIter : ℕ),
      ∃ r : CalResult, calibrate solve [] [rows] (.scalar (1 / 6)) none none 3 lr reltol maxIter = .ok r ∧ r.snr.getD 0 0 = 200 ∧
        ∀ (lib : WinLib) (a : SpectrumArgs), PlainCall a → ∀ V : ℝ, 0 < V → peakAmplitude [r.signal.getD 0 []] a.scale = .ok V →
          ∃ s, computeSpectrum lib [r.signal.getD 0 []] a = .ok s ∧ s.sndr ≤ dB 8 := by
  refine ⟨comparator, fun solve hs lr reltol maxIter => ?_⟩
  have hl : comparator.length = 6 := rfl
  obtain ⟨r, p, q, h1, hw1, h3, hpos, h5, h6, -⟩ := calibrate_fit solve hs [] [comparator] (1 / 6) (by norm_num) (by norm_num) none (by simp) none 3
    (by norm_num) lr reltol maxIter comparator 1 [1] comparator_prep (rank_of_indep comparator 1 (by
      intro w c h
      have e0 := h 0 (by rw [hl]; norm_num)
      have e2 := h 2 (by rw [hl]; norm_num)
      rw [sum_range_one] at e0 e2
      norm_num [comparator] at e0 e2
      refine ⟨fun j hj => ?_, by linarith⟩
      obtain rfl : j = 0 := by omega
      linarith))
  have hz := (h6 (fun _ => 1) (1 / 2) (fun h => if h = 0 then 2 / 3 else if h = 1 then 0 else -1 / 6) (fun _ => 0)).1
  rw [hl] at hz h5
  have hzero : ∑ n ∈ range 6, Spec.misfit (fun j n => (comparator.getD n []).getD j 0) 1 (1 / 6) 3 (fun _ => 1) (1 / 2)
      (fun h => if h = 0 then 2 / 3 else if h = 1 then 0 else -1 / 6) (fun _ => 0) n ^ 2 = 0 := by
    apply sum_eq_zero
    intro n hn
    rw [comparator_misfit]
    simp only [(sixth _).1, (sixth _).2]
    have := mem_range.mp hn
    interval_cases n <;> norm_num [comparator]
  rw [hzero] at hz
  obtain ⟨w, hw⟩ := List.length_eq_one_iff.mp hw1
  have hmis : ∀ n < 6, Spec.misfit (fun j n => (comparator.getD n []).getD j 0) 1 (1 / 6) 3 (fun j => r.weight.getD j 0) r.offset p q n = 0 := by
    have hG : ∑ n ∈ range 6, Spec.misfit (fun j n => (comparator.getD n []).getD j 0) 1 (1 / 6) 3 (fun j => r.weight.getD j 0) r.offset p q n ^ 2 = 0 := by
      apply le_antisymm _ (sum_nonneg fun _ _ => sq_nonneg _)
      simp only [if_true] at hz
      linarith
    intro n hn
    have := (sum_eq_zero_iff_of_nonneg fun _ _ => sq_nonneg _).mp hG n (mem_range.mpr hn)
    exact pow_eq_zero_iff (two_ne_zero) |>.mp this
  have hw0 : 0 < w := by
    rw [hw] at hpos
    simp only [List.sum_cons, List.sum_nil, add_zero] at hpos
    refine lt_of_le_of_ne hpos fun hc => ?_
    have hv : r.weight.getD 0 0 = 0 := by rw [hw]; exact hc.symm
    have h30 : Real.sqrt 3 ≠ 0 := by positivity
    have e0 := hmis 0 (by norm_num)
    have e1 := hmis 1 (by norm_num)
    have e2 := hmis 2 (by norm_num)
    have e3 := hmis 3 (by norm_num)
    have e4 := hmis 4 (by norm_num)
    have e5 := hmis 5 (by norm_num)
    rw [comparator_misfit, hv] at e0 e1 e2 e3 e4 e5
    simp only [(sixth _).1, (sixth _).2] at e0 e1 e2 e3 e4 e5
    norm_num at e0 e1 e2 e3 e4 e5
    have hp0 : p 0 = 0 := by linarith
    have hq0 : Real.sqrt 3 * q 0 = 0 := by linarith
    rw [hp0, (mul_eq_zero.mp hq0).resolve_left h30] at h3
    norm_num at h3
  obtain ⟨segs', width', nominal', hp', l1, l2, l3, l4, hseg, _⟩ := C41_decomposition solve [] [comparator] _ none none 3 lr reltol maxIter r h1
  rw [comparator_prep] at hp'
  simp only [Except.ok.injEq, Prod.mk.injEq] at hp'
  obtain ⟨rfl, rfl, rfl⟩ := hp'
  obtain ⟨m1, m2, m3, m4, m5, _⟩ := hseg 0 (by simp)
  simp only [List.getD_cons_zero] at m1 m2 m3 m4
  have hrz : meanSq (r.resid.getD 0 []) = 0 := by
    rw [h5]
    change meanSq ((List.range 6).map _) = 0
    rw [meanSq_map, sum_eq_zero, zero_div]
    intro n hn
    rw [hmis n (mem_range.mp hn)]
    norm_num
  rw [hrz, if_neg (lt_irrefl _)] at m5
  refine ⟨r, h1, m5, fun lib a ha V hV hpk => ?_⟩
  have hsig : ∀ n < 6, (r.signal.getD 0 []).getD n 0 = w * (comparator.getD n []).getD 0 0 := by
    intro n hn
    rw [(m4 n (by rw [hl]; exact hn)).2, sum_range_one, hw]
    simp [segStart]
  rw [hl] at m1
  set row := r.signal.getD 0 [] with hrow
  have hcos : ∀ n : ℕ, Real.cos (2 * Real.pi * (((1 : ℕ) : ℝ) * n / (6 : ℕ))) = Real.cos (2 * Real.pi * (1 / 6) * n) := fun n => by congr 1; push_cast; ring
  have hsin : ∀ n : ℕ, Real.sin (2 * Real.pi * (((1 : ℕ) : ℝ) * n / (6 : ℕ))) = Real.sin (2 * Real.pi * (1 / 6) * n) := fun n => by congr 1; push_cast; ring
  have hbc : binCos 6 1 (fun n => row.getD n 0) = 2 / 3 * w := by
    rw [(bin_congr 6 1 _ (fun n => w * (comparator.getD n []).getD 0 0) hsig).1]
    unfold binCos
    simp only [sum_range_succ, range_zero, sum_empty, hcos, (sixth _).1]
    norm_num [comparator]
    ring
  have hbs : binSin 6 1 (fun n => row.getD n 0) = 0 := by
    rw [(bin_congr 6 1 _ (fun n => w * (comparator.getD n []).getD 0 0) hsig).2]
    unfold binSin
    simp only [sum_range_succ, range_zero, sum_empty, hsin, (sixth _).2]
    norm_num [comparator]
  have hmean : recMean 6 (fun n => row.getD n 0) = w / 2 := by
    unfold recMean
    rw [sum_congr rfl fun n hn => hsig n (mem_range.mp hn)]
    simp only [sum_range_succ, range_zero, sum_empty]
    norm_num [comparator]
    ring
  have hvar : ∑ n ∈ range 6, (row.getD n 0 - w / 2) ^ 2 = 3 / 2 * w ^ 2 := by
    rw [sum_congr rfl fun n hn => by rw [hsig n (mem_range.mp hn)]]
    simp only [sum_range_succ, range_zero, sum_empty]
    norm_num [comparator]
    ring
  obtain ⟨s, t1, t2, _, _⟩ := C95_bounded_error lib a ha row V hV hpk 1 one_pos (by rw [m1]; norm_num) (2 / 3 * w) 0 (w / 2) (w / 6)
    (fun n => row.getD n 0 - sineAt (2 / 3 * w) (((1 : ℕ) : ℝ) / row.length) 0 (w / 2) n) (fun n _ => by ring) (by positivity) (by
      have hpy := bin_pythagoras (N := 6) (b := 1) (fun n => row.getD n 0) one_pos (by norm_num) (2 / 3 * w) 0 (w / 2)
      rw [hbc, hbs, hmean, hvar] at hpy
      rw [m1]
      have he : ∀ n ∈ range 6, (row.getD n 0 - sineAt (2 / 3 * w) (((1 : ℕ) : ℝ) / (6 : ℕ)) 0 (w / 2) n) ^ 2
          = (row.getD n 0 - (2 / 3 * w * Real.cos (2 * Real.pi * (((1 : ℕ) : ℝ) * n / (6 : ℕ))) + 0 * Real.sin (2 * Real.pi * (((1 : ℕ) : ℝ) * n / (6 : ℕ))) + w / 2)) ^ 2 := by
        intro n _
        rw [sineAt_parts]
        simp
      rw [sum_congr rfl he, hpy]
      push_cast
      nlinarith) (by linarith)
  refine ⟨s, t1, ?_⟩
  obtain ⟨A', φ', C', _, hbest⟩ := exists_bestSine 6 1 one_pos (by norm_num) (fun n => row.getD n 0)
  obtain ⟨u1, u2⟩ := best_sine 6 1 one_pos (by norm_num) _ A' φ' C' hbest
  obtain ⟨v1, _⟩ := C95_sndr_is_sinad lib a ha row V hV.ne' hpk s t1 (by rw [t2]; norm_num) (by rw [t2, m1]; norm_num) A' φ' C' (by rw [t2, m1]; exact hbest)
  rw [v1, t2, m1]
  unfold residualPower
  rw [u2, hmean, hvar, u1, hbc, hbs]
  have hV2 : 0 < V ^ 2 / 2 / 10 ^ 20 := by positivity
  have hw2 : 0 < w ^ 2 := by positivity
  have hden : 0 < (3 / 2 * w ^ 2 - ((6 : ℕ) : ℝ) / 2 * ((2 / 3 * w) ^ 2 + 0 ^ 2)) / ((6 : ℕ) : ℝ) := by push_cast; nlinarith
  apply dB_mono (by positivity)
  rw [div_le_iff₀ (by linarith)]
  push_cast
  nlinarith

/-! ## A two-bit record with decision errors -/

example (solve : Lstsq) (hs : IsLstsq solve) (lib : WinLib) : ∃ (r : CalResult) (s : SpectrumResult),
    calibrate solve [] [decisionRows] (.scalar (1 / 4)) none none 1 (1 / 2) 0 100 = .ok r ∧
    computeSpectrum lib [r.signal.getD 0 []] { win := "boxcar", sideBin := some 0, scale := .scalar 1 } = .ok s ∧ s.fundamentalBin = 2 ∧
    dB 1 ≤ s.sndr := by
  have hl : decisionRows.length = 8 := rfl
  have hf : (((2 : ℕ) : ℝ) / decisionRows.length) = 1 / 4 := by rw [hl]; norm_num
  obtain ⟨r, h1, h2⟩ := C140_any_weights solve hs [] [decisionRows] 2 none (by simp) none (1 / 2) 0 100 decisionRows 2 [2, 1] (by norm_num) (by rw [hl]; norm_num)
    decision_prep (by
      intro w c hw
      obtain ⟨z1, z2, _⟩ := decision_pinned w c (fun _ => 0) (fun _ => 0) (by
        intro n hn
        unfold Spec.misfit
        rw [hw n hn]
        simp) (by simp)
      exact ⟨z1, z2⟩)
  rw [hf] at h1 h2
  obtain ⟨s, t1, t2, t3⟩ := h2 (fun j => if j = 0 then 4 / 3 else 2 / 3) 1 (fun _ => 1) (fun _ => 0) 1 (1 / 3) one_pos (by norm_num) (by
      rw [hl]
      simp only [sum_range_succ, sum_range_zero, decision_misfit]
      norm_num [decisionRows]) (by norm_num) lib { win := "boxcar", sideBin := some 0, scale := .scalar 1 }
    ⟨Or.inl rfl, rfl, rfl, rfl, rfl, rfl, by norm_num, by norm_num, by norm_num⟩ 1 one_pos rfl
  refine ⟨r, s, h1, t1, t2, le_trans (dB_mono zero_le_one ?_) t3⟩
  apply le_max_of_le_left
  norm_num

end Verif
