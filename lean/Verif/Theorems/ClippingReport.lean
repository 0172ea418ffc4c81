import Verif.Proofs.PhaseCount
import Verif.Theorems.Clipping
import Verif.Theorems.Sinad
import Verif.Theorems.SpectrumReport
import Mathlib.Analysis.Real.Pi.Bounds

/-!
# C149: clipping in the spectrum report
-/

namespace Verif

open Model Finset Spec

private theorem countRec_card (N : ℕ) (x : ℕ → ℝ) (p : ℝ → Bool) : countRec N x p = ((range N).filter fun n => p (x n) = true).card := by
  unfold countRec
  induction N with
  | zero => simp
  | succ N ih =>
    rw [List.range_succ, List.map_append, List.filter_append, List.length_append, ih, range_add_one, filter_insert]
    by_cases h : p (x N) = true
    · rw [if_pos h, card_insert_of_notMem (by simp)]
      simp [h]
    · rw [if_neg h]
      simp [h]

/-- **C149.** `apply_clipping` at `pct` percent on a sine with `b` periods in `N` samples, `b` and `N` coprime, analysed without window. With
`K = ⌈pct/100 (N - 1)⌉` samples clipped at most on either side, the clipping levels are within `A (1 - cos(π (K+1) / N))` of the peaks, and the SNDR is at least
`N / (4 K (1 - cos(π (K+1) / N))^2) - 1`. -/
theorem C149_clipping_sndr (lib : WinLib) (a : SpectrumArgs) (ha : PlainCall a) (g : Gen) (input : Option (ℕ → ℝ)) (pct : ℝ) (h0 : 0 ≤ pct) (h50 : pct ≤ 50) (b K : ℕ)
    (hb : 0 < b) (hbN : 2 * b < g.n) (hcop : Nat.Coprime b g.n) (hK : ⌈pct / 100 * ((g.n : ℝ) - 1)⌉.toNat = K) (A φ D : ℝ) (hA : 0 < A)
    (hsine : ∀ n < g.n, g.resolve input n = sineAt A ((b : ℝ) / g.n) φ D n) (ε : ℝ) (hε : 1 - Real.cos (Real.pi * (K + 1) / g.n) = ε) (hsmall : 8 * K * ε ^ 2 < g.n) :
    ∃ y lo hi, g.clipping input pct = .ok y ∧ (∀ n < g.n, y n = max lo (min hi (g.resolve input n))) ∧ lo ≤ D - A * (1 - ε) ∧ D + A * (1 - ε) ≤ hi ∧
      ∀ V, 0 < V → peakAmplitude [(List.range g.n).map y] a.scale = .ok V →
        ∃ r, computeSpectrum lib [(List.range g.n).map y] a = .ok r ∧ r.fundamentalBin = b ∧
          dB (max (A ^ 2 / 2 / (2 * K / g.n * (A * ε) ^ 2 + V ^ 2 / 2 / 10 ^ 20) - 1) 0) ≤ r.sndr := by
  have hn : 0 < g.n := by omega
  have hNR : (0 : ℝ) < g.n := by exact_mod_cast hn
  have hN1 : (1 : ℝ) ≤ g.n := by exact_mod_cast hn
  obtain ⟨y, lo, hi, hy, hlohi, hrange, hsame, hsat, _, _, _, c1, c2⟩ := C70_clipping g input hn pct h0 h50
  rw [hK, countRec_card] at c1 c2
  have hKN : K + 1 ≤ g.n := by
    have h1 : ⌈pct / 100 * ((g.n : ℝ) - 1)⌉ ≤ (g.n : ℤ) - 1 := by
      rw [Int.ceil_le]
      push_cast
      have : pct / 100 ≤ 1 := by linarith
      exact mul_le_of_le_one_left (by linarith) this
    omega
  have hup := near_peak g.n b hn hcop φ K hKN
  have hdn := near_peak g.n b hn hcop (φ + Real.pi) K hKN
  have hcos : Real.cos (Real.pi * (K + 1) / g.n) = 1 - ε := by linarith
  rw [hcos] at hup hdn
  have hhi : D + A * (1 - ε) ≤ hi := by
    by_contra hlt
    push Not at hlt
    have : ((range g.n).filter fun n : ℕ => 1 - ε ≤ Real.cos (2 * Real.pi * ((b : ℝ) / g.n) * n + φ)).card
        ≤ ((range g.n).filter fun n => decide (hi < g.resolve input n) = true).card := by
      apply card_le_card
      intro n hn'
      rw [mem_filter, mem_range] at hn' ⊢
      refine ⟨hn'.1, ?_⟩
      rw [decide_eq_true_eq, hsine n hn'.1]
      unfold sineAt
      have := mul_le_mul_of_nonneg_left hn'.2 hA.le
      linarith
    omega
  have hlo : lo ≤ D - A * (1 - ε) := by
    by_contra hlt
    push Not at hlt
    have : ((range g.n).filter fun n : ℕ => 1 - ε ≤ Real.cos (2 * Real.pi * ((b : ℝ) / g.n) * n + (φ + Real.pi))).card
        ≤ ((range g.n).filter fun n => decide (g.resolve input n < lo) = true).card := by
      apply card_le_card
      intro n hn'
      rw [mem_filter, mem_range] at hn' ⊢
      refine ⟨hn'.1, ?_⟩
      rw [decide_eq_true_eq, hsine n hn'.1]
      unfold sineAt
      have h2 := hn'.2
      rw [← add_assoc, Real.cos_add_pi] at h2
      have := mul_le_mul_of_nonneg_left h2 hA.le
      linarith
    omega
  have hε0 : 0 ≤ ε := by have := Real.cos_le_one (Real.pi * (K + 1) / g.n); linarith
  have hyeq : ∀ n < g.n, y n = max lo (min hi (g.resolve input n)) := by
    intro n _
    rcases le_total (g.resolve input n) lo with t | t
    · rw [(hsat n).1 t, max_eq_left ((min_le_right _ _).trans t)]
    · rcases le_total hi (g.resolve input n) with u | u
      · rw [(hsat n).2 u, min_eq_left u, max_eq_right hlohi]
      · rw [hsame n t u, min_eq_right u, max_eq_right t]
  refine ⟨y, lo, hi, hy, hyeq, hlo, hhi, fun V hV hpk => ?_⟩
  have hlen : ((List.range g.n).map y).length = g.n := by simp
  have hget : ∀ n < g.n, ((List.range g.n).map y).getD n 0 = y n := by
    intro n hn'
    rw [List.getD_eq_getElem?_getD, List.getElem?_map, List.getElem?_range hn']
    rfl
  obtain ⟨σ, hσ⟩ : ∃ σ, σ = Real.sqrt (2 * K / g.n * (A * ε) ^ 2) := ⟨_, rfl⟩
  have hσ2 : σ ^ 2 = 2 * K / g.n * (A * ε) ^ 2 := by rw [hσ]; exact Real.sq_sqrt (by positivity)
  have hx : ∀ n < g.n, |g.resolve input n - D| ≤ A := by
    intro n hn'
    rw [hsine n hn']
    unfold sineAt
    rw [add_sub_cancel_right, abs_mul, abs_of_pos hA]
    exact mul_le_of_le_one_right hA.le (Real.abs_cos_le_one _)
  have hsum : ∑ n ∈ range g.n, (y n - sineAt A ((b : ℝ) / g.n) φ D n) ^ 2 ≤ g.n * σ ^ 2 := by
    have hle : ∀ n ∈ range g.n, (y n - sineAt A ((b : ℝ) / g.n) φ D n) ^ 2 ≤ (if decide (g.resolve input n < lo) = true then (A * ε) ^ 2 else 0)
        + (if decide (hi < g.resolve input n) = true then (A * ε) ^ 2 else 0) := by
      intro n hn'
      rw [mem_range] at hn'
      have hab := abs_le.mp (hx n hn')
      rw [← hsine n hn', hyeq n hn']
      by_cases t1 : g.resolve input n < lo
      · rw [if_pos (by simpa using t1), if_neg (by simp; linarith), add_zero, min_eq_right (by linarith), max_eq_left t1.le]
        exact sq_le_sq' (by linarith) (by linarith)
      · by_cases t2 : hi < g.resolve input n
        · rw [if_neg (by simpa using t1), if_pos (by simpa using t2), zero_add, min_eq_left t2.le, max_eq_right hlohi]
          exact sq_le_sq' (by linarith) (by linarith)
        · push Not at t1 t2
          rw [if_neg (by simpa using t1), if_neg (by simpa using t2), min_eq_right t2, max_eq_right t1]
          simp
    refine (sum_le_sum hle).trans ?_
    rw [sum_add_distrib, ← sum_filter, ← sum_filter, sum_const, sum_const, nsmul_eq_mul, nsmul_eq_mul, hσ2]
    have d1 : ((((range g.n).filter fun n => decide (g.resolve input n < lo) = true).card : ℕ) : ℝ) ≤ K := by exact_mod_cast c1
    have d2 : ((((range g.n).filter fun n => decide (hi < g.resolve input n) = true).card : ℕ) : ℝ) ≤ K := by exact_mod_cast c2
    have e1 := mul_le_mul_of_nonneg_right d1 (sq_nonneg (A * ε))
    have e2 := mul_le_mul_of_nonneg_right d2 (sq_nonneg (A * ε))
    have e3 : (g.n : ℝ) * (2 * K / g.n * (A * ε) ^ 2) = K * (A * ε) ^ 2 + K * (A * ε) ^ 2 := by field_simp; ring
    rw [e3]
    exact add_le_add e1 e2
  obtain ⟨r, h1, h2, _, h3⟩ := C95_bounded_error lib a ha ((List.range g.n).map y) V hV hpk b hb (by rw [hlen]; exact hbN) A φ D σ
    (fun n => y n - sineAt A ((b : ℝ) / g.n) φ D n) (by
      rw [hlen]
      intro n hn'
      rw [hget n hn']
      ring) (by rw [hσ]; exact Real.sqrt_nonneg _) (by rw [hlen]; exact hsum) (by
      apply lt_of_pow_lt_pow_left₀ 2 hA.le
      rw [mul_pow, hσ2]
      have : 8 * K * ε ^ 2 / g.n < 1 := by rw [div_lt_one hNR]; exact hsmall
      have h4 := mul_lt_mul_of_pos_right this (by positivity : 0 < A ^ 2)
      have e : (2 : ℝ) ^ 2 * (2 * K / g.n * (A * ε) ^ 2) = 8 * K * ε ^ 2 / g.n * A ^ 2 := by ring
      rw [e]
      linarith)
  rw [hσ2] at h3
  exact ⟨r, h1, h2, h3⟩

/-- **C149 (law).** In terms of the share `κ = (K + 1) / N` of samples clipped on either side, at most 1/5: the SNDR is at least `1 / (π^4 κ^5) - 1`; halving the
clipped share gains 15 dB. -/
theorem C149_clipping_law (lib : WinLib) (a : SpectrumArgs) (ha : PlainCall a) (g : Gen) (input : Option (ℕ → ℝ)) (pct : ℝ) (h0 : 0 ≤ pct) (h50 : pct ≤ 50) (b K : ℕ)
    (hb : 0 < b) (hbN : 2 * b < g.n) (hcop : Nat.Coprime b g.n) (hK : ⌈pct / 100 * ((g.n : ℝ) - 1)⌉.toNat = K) (A φ D κ : ℝ) (hA : 0 < A)
    (hsine : ∀ n < g.n, g.resolve input n = sineAt A ((b : ℝ) / g.n) φ D n) (hκ : ((K : ℝ) + 1) / g.n = κ) (hκ1 : κ ≤ 1 / 5) :
    ∃ y, g.clipping input pct = .ok y ∧ ∀ V, 0 < V → peakAmplitude [(List.range g.n).map y] a.scale = .ok V →
      ∃ r, computeSpectrum lib [(List.range g.n).map y] a = .ok r ∧ r.fundamentalBin = b ∧
        dB (max (1 / (Real.pi ^ 4 * κ ^ 5 + (V / A) ^ 2 / 10 ^ 20) - 1) 0) ≤ r.sndr := by
  have hNR : (0 : ℝ) < g.n := by exact_mod_cast (by omega : 0 < g.n)
  have hK0 : (0 : ℝ) ≤ K := Nat.cast_nonneg K
  have hκ0 : 0 < κ := by rw [← hκ]; positivity
  have harg : Real.pi * (K + 1) / g.n = Real.pi * κ := by rw [← hκ]; ring
  obtain ⟨ε, hε⟩ : ∃ ε, ε = 1 - Real.cos (Real.pi * (K + 1) / g.n) := ⟨_, rfl⟩
  have hε0 : 0 ≤ ε := by have := Real.cos_le_one (Real.pi * (K + 1) / g.n); linarith
  have hε1 : ε ≤ (Real.pi * κ) ^ 2 / 2 := by
    have := Real.one_sub_sq_div_two_le_cos (x := Real.pi * κ)
    rw [hε, harg]
    linarith
  have hpi := Real.pi_pos
  have hpi4 := Real.pi_lt_d2
  have hp : Real.pi * κ ≤ 63 / 100 := by
    calc Real.pi * κ ≤ Real.pi * (1 / 5) := mul_le_mul_of_nonneg_left hκ1 hpi.le
      _ ≤ 63 / 100 := by linarith
  have hε2 : ε ≤ 1 / 5 := by
    have : (Real.pi * κ) ^ 2 ≤ (63 / 100) ^ 2 := pow_le_pow_left₀ (by positivity) hp 2
    norm_num at this
    linarith
  have hKN : (K : ℝ) / g.n ≤ κ := by
    rw [← hκ]
    apply div_le_div_of_nonneg_right _ hNR.le
    linarith
  have hKn : (K : ℝ) ≤ κ * g.n := by rwa [div_le_iff₀ hNR] at hKN
  obtain ⟨y, lo, hi, hy, _, _, _, h⟩ := C149_clipping_sndr lib a ha g input pct h0 h50 b K hb hbN hcop hK A φ D hA hsine ε hε.symm (by
    have h1 : ε ^ 2 ≤ (1 / 5) ^ 2 := pow_le_pow_left₀ hε0 hε2 2
    have h2 : 8 * K * ε ^ 2 ≤ 8 * (1 / 5 * g.n) * (1 / 5) ^ 2 := by
      apply mul_le_mul _ h1 (sq_nonneg _) (by positivity)
      have := mul_le_mul_of_nonneg_right hκ1 hNR.le
      linarith
    norm_num at h2
    linarith)
  refine ⟨y, hy, fun V hV hpk => ?_⟩
  obtain ⟨r, h1, h2, h3⟩ := h V hV hpk
  refine ⟨r, h1, h2, le_trans ?_ h3⟩
  apply dB_mono (le_max_right _ _)
  apply max_le_max _ le_rfl
  have e : 1 / (Real.pi ^ 4 * κ ^ 5 + (V / A) ^ 2 / 10 ^ 20) = A ^ 2 / 2 / (2 * κ * (A * ((Real.pi * κ) ^ 2 / 2)) ^ 2 + V ^ 2 / 2 / 10 ^ 20) := by
    field_simp
  rw [e]
  have hle : 2 * K / g.n * (A * ε) ^ 2 ≤ 2 * κ * (A * ((Real.pi * κ) ^ 2 / 2)) ^ 2 := by
    apply mul_le_mul _ _ (sq_nonneg _) (by positivity)
    · rw [mul_div_assoc]
      linarith
    · exact pow_le_pow_left₀ (by positivity) (mul_le_mul_of_nonneg_left hε1 hA.le) 2
  have : A ^ 2 / 2 / (2 * κ * (A * ((Real.pi * κ) ^ 2 / 2)) ^ 2 + V ^ 2 / 2 / 10 ^ 20) ≤ A ^ 2 / 2 / (2 * K / g.n * (A * ε) ^ 2 + V ^ 2 / 2 / 10 ^ 20) := by
    apply div_le_div_of_nonneg_left (by positivity) (by positivity)
    linarith
  linarith

/-! ## A concrete case -/

/-- 1% of 1024 samples on either side, 5 periods. -/
example (lib : WinLib) : ∃ y r, (Gen.mk 1024 1 (5 / 1024) 1 0).clipping (some (sineAt 1 ((5 : ℕ) / (1024 : ℕ)) 0 0)) 1 = .ok y ∧
    computeSpectrum lib [(List.range 1024).map y] { win := "boxcar", sideBin := some 0, scale := .scalar 1 } = .ok r ∧ r.fundamentalBin = 5 := by
  obtain ⟨y, hy, h⟩ := C149_clipping_law lib { win := "boxcar", sideBin := some 0, scale := .scalar 1 }
    ⟨Or.inl rfl, rfl, rfl, rfl, rfl, rfl, by norm_num, by norm_num, by norm_num⟩ (Gen.mk 1024 1 (5 / 1024) 1 0) (some (sineAt 1 ((5 : ℕ) / (1024 : ℕ)) 0 0)) 1
    (by norm_num) (by norm_num) 5 11 (by norm_num) (by norm_num) (by norm_num) (by
      have : ⌈(1 : ℝ) / 100 * (((1024 : ℕ) : ℝ) - 1)⌉ = 11 := by
        rw [Int.ceil_eq_iff]
        norm_num
      simp only
      rw [this]
      rfl) 1 0 0 _ one_pos (fun n _ => rfl) rfl (by norm_num)
  obtain ⟨r, h1, h2, _⟩ := h 1 one_pos (by simp [peakAmplitude])
  exact ⟨y, r, hy, h1, h2⟩

end Verif
