import Verif.Theorems.Sinad
import Verif.Theorems.SpectrumReport
import Verif.Theorems.Pipeline
import Verif.Theorems.Settling
import Mathlib.Analysis.Complex.ExponentialBounds

/-!
# C148: memory, settling, residue gain and reference droop in the spectrum report
-/

namespace Verif

open Model Finset Spec

/-! ## From records to reports -/

private theorem map_getD (y : ℕ → ℝ) (N n : ℕ) (hn : n < N) : ((List.range N).map y).getD n 0 = y n := by
  rw [List.getD_eq_getElem?_getD, List.getElem?_map, List.getElem?_range hn]
  rfl

/-- A record close to a coherent sine in the mean square. -/
private theorem report_rms (lib : WinLib) (a : SpectrumArgs) (ha : PlainCall a) (N : ℕ) (y : ℕ → ℝ) (V : ℝ) (hV : 0 < V)
    (hpk : peakAmplitude [(List.range N).map y] a.scale = .ok V) (b : ℕ) (hb : 0 < b) (hbN : 2 * b < N) (A φ D σ : ℝ) (hσ : 0 ≤ σ)
    (he : ∑ n ∈ range N, (y n - sineAt A ((b : ℝ) / N) φ D n) ^ 2 ≤ N * σ ^ 2) (hA : 2 * σ < A) :
    ∃ r, computeSpectrum lib [(List.range N).map y] a = .ok r ∧ r.fundamentalBin = b ∧
      dB (max (A ^ 2 / 2 / (σ ^ 2 + V ^ 2 / 2 / 10 ^ 20) - 1) 0) ≤ r.sndr := by
  have hlen : ((List.range N).map y).length = N := by simp
  obtain ⟨r, h1, h2, _, h3⟩ := C95_bounded_error lib a ha ((List.range N).map y) V hV hpk b hb (by rw [hlen]; exact hbN) A φ D σ
    (fun n => y n - sineAt A ((b : ℝ) / N) φ D n) (by
      rw [hlen]
      intro n hn
      rw [map_getD y N n hn]
      ring) hσ (by rw [hlen]; exact he) hA
  exact ⟨r, h1, h2, h3⟩

/-- A record within a band of width `w` around a coherent sine. -/
private theorem report_band (lib : WinLib) (a : SpectrumArgs) (ha : PlainCall a) (N : ℕ) (y : ℕ → ℝ) (V : ℝ) (hV : 0 < V)
    (hpk : peakAmplitude [(List.range N).map y] a.scale = .ok V) (b : ℕ) (hb : 0 < b) (hbN : 2 * b < N) (A φ D lo w : ℝ) (hw : 0 ≤ w)
    (he : ∀ n < N, lo ≤ y n - sineAt A ((b : ℝ) / N) φ D n ∧ y n - sineAt A ((b : ℝ) / N) φ D n ≤ lo + w) (hA : w < A) :
    ∃ r, computeSpectrum lib [(List.range N).map y] a = .ok r ∧ r.fundamentalBin = b ∧
      dB (max (A ^ 2 / 2 / (w ^ 2 / 4 + V ^ 2 / 2 / 10 ^ 20) - 1) 0) ≤ r.sndr := by
  have h := report_rms lib a ha N y V hV hpk b hb hbN A φ (D + (lo + w / 2)) (w / 2) (by linarith) (by
    refine (sum_le_sum (g := fun _ => (w / 2) ^ 2) fun n hn => ?_).trans (le_of_eq (by rw [sum_const, card_range, nsmul_eq_mul]))
    obtain ⟨t1, t2⟩ := he n (mem_range.mp hn)
    have : sineAt A ((b : ℝ) / N) φ (D + (lo + w / 2)) n = sineAt A ((b : ℝ) / N) φ D n + (lo + w / 2) := by
      unfold sineAt; ring
    rw [this]
    exact sq_le_sq' (by linarith) (by linarith)) (by linarith)
  rwa [show (w / 2) ^ 2 = w ^ 2 / 4 by ring] at h

private theorem sndr_mono (A A' s V : ℝ) (hA : 0 ≤ A) (h : A ≤ A') (hV : 0 < V) (hs : 0 ≤ s) :
    dB (max (A ^ 2 / 2 / (s + V ^ 2 / 2 / 10 ^ 20) - 1) 0) ≤ dB (max (A' ^ 2 / 2 / (s + V ^ 2 / 2 / 10 ^ 20) - 1) 0) := by
  apply dB_mono (le_max_right _ _)
  apply max_le_max _ le_rfl
  have : 0 < s + V ^ 2 / 2 / 10 ^ 20 := by positivity
  have h2 : A ^ 2 ≤ A' ^ 2 := pow_le_pow_left₀ hA h 2
  have := div_le_div_of_nonneg_right (div_le_div_of_nonneg_right h2 (by norm_num : (0 : ℝ) ≤ 2)) this.le
  linarith

/-- Bits from the ratio of amplitude to residual: an amplitude of at least `2^n` steps of `2σ`. -/
private theorem bits_of_ratio (n : ℕ) (h1 : 1 ≤ n) (h28 : n ≤ 28) (A V s : ℝ) (hA : 0 < A) (hV : V ≤ 2 * A) (hV0 : 0 < V) (hs : 4 * 4 ^ n * s ≤ A ^ 2) (hs0 : 0 ≤ s) :
    3 / 2 * 4 ^ n ≤ A ^ 2 / 2 / (s + V ^ 2 / 2 / 10 ^ 20) - 1 := by
  have h4 : (4 : ℝ) ≤ 4 ^ n := by
    calc (4 : ℝ) = 4 ^ 1 := by norm_num
      _ ≤ 4 ^ n := pow_le_pow_right₀ (by norm_num) h1
  have h4' : (4 : ℝ) ^ n ≤ 4 ^ 28 := pow_le_pow_right₀ (by norm_num) h28
  have hV2 : V ^ 2 ≤ 4 * A ^ 2 := by nlinarith
  rw [le_sub_iff_add_le, le_div_iff₀ (by positivity)]
  generalize (4 : ℝ) ^ n = z at *
  have hz : z * (V ^ 2 / 2 / 10 ^ 20) ≤ A ^ 2 / 100 := by
    have : z * (V ^ 2 / 2 / 10 ^ 20) ≤ 4 ^ 28 * (4 * A ^ 2 / 2 / 10 ^ 20) := by
      apply mul_le_mul h4' _ (by positivity) (by norm_num)
      apply div_le_div_of_nonneg_right _ (by norm_num)
      apply div_le_div_of_nonneg_right hV2 (by norm_num)
    have h2 : (4 : ℝ) ^ 28 * (4 * A ^ 2 / 2 / 10 ^ 20) = 2 * 4 ^ 28 / 10 ^ 20 * A ^ 2 := by ring
    have h3 : (2 : ℝ) * 4 ^ 28 / 10 ^ 20 ≤ 1 / 100 := by norm_num
    have h5 := mul_le_mul_of_nonneg_right h3 (sq_nonneg A)
    linarith
  have hf : V ^ 2 / 2 / 10 ^ 20 ≤ z * (V ^ 2 / 2 / 10 ^ 20) / 4 := by
    have : 0 ≤ V ^ 2 / 2 / 10 ^ 20 := by positivity
    nlinarith
  have hs4 : s ≤ z * s / 4 := by nlinarith
  nlinarith

/-! ## Residue gain -/

private theorem tb (x : ℝ) (B : ℕ) : 0 ≤ x - truncBits x B ∧ x - truncBits x B ≤ 1 / 2 ^ B := by
  obtain ⟨h1, h2⟩ := truncBits_bounds x B
  constructor <;> linarith

/-- **C148 (residue gain).** A coherent sine through the two-stage model with inter-stage gain `gain`: with the gain in the coarse path the report shows a sine of
`gain` times the amplitude, with it in the residue path one of the full amplitude, and in both cases an SNDR of at least `2 (amplitude / w)^2 - 1` with
`w = 2^-max(m, l) + |gain - 1| 2^-m`, the fine step plus the gain error of one coarse step. -/
theorem C148_residue_gain (lib : WinLib) (a : SpectrumArgs) (ha : PlainCall a) (g : Gen) (input : Option (ℕ → ℝ)) (gain : ℝ) (m l : ℕ) (N b : ℕ) (hb : 0 < b)
    (hbN : 2 * b < N) (A φ D : ℝ) (hsine : ∀ n < N, g.resolve input n = sineAt A ((b : ℝ) / N) φ D n) :
    (0 < gain → 1 / 2 ^ max m l + |gain - 1| / 2 ^ m < gain * A →
      ∃ y, g.raGainError input gain m l .coarsePath = .ok y ∧ ∀ V, 0 < V → peakAmplitude [(List.range N).map y] a.scale = .ok V →
        ∃ r, computeSpectrum lib [(List.range N).map y] a = .ok r ∧ r.fundamentalBin = b ∧
          dB (max ((gain * A) ^ 2 / 2 / ((1 / 2 ^ max m l + |gain - 1| / 2 ^ m) ^ 2 / 4 + V ^ 2 / 2 / 10 ^ 20) - 1) 0) ≤ r.sndr) ∧
    (1 / 2 ^ max m l + |gain - 1| / 2 ^ m < A →
      ∃ y, g.raGainError input gain m l .residuePath = .ok y ∧ ∀ V, 0 < V → peakAmplitude [(List.range N).map y] a.scale = .ok V →
        ∃ r, computeSpectrum lib [(List.range N).map y] a = .ok r ∧ r.fundamentalBin = b ∧
          dB (max (A ^ 2 / 2 / ((1 / 2 ^ max m l + |gain - 1| / 2 ^ m) ^ 2 / 4 + V ^ 2 / 2 / 10 ^ 20) - 1) 0) ≤ r.sndr) := by
  obtain ⟨⟨y1, hy1, e1⟩, ⟨y2, hy2, e2⟩, _⟩ := C68_gain_error g input gain m l
  have hw : (0 : ℝ) ≤ 1 / 2 ^ max m l + |gain - 1| / 2 ^ m := by positivity
  have prod : ∀ t : ℝ, 0 ≤ t → t ≤ 1 / 2 ^ m → min 0 ((gain - 1) / 2 ^ m) ≤ (gain - 1) * t ∧ (gain - 1) * t ≤ min 0 ((gain - 1) / 2 ^ m) + |gain - 1| / 2 ^ m := by
    intro t h0 h1
    have hp : (0 : ℝ) < 2 ^ m := by positivity
    rcases le_total 0 (gain - 1) with hg | hg
    · rw [abs_of_nonneg hg, min_eq_left (by positivity), zero_add]
      refine ⟨mul_nonneg hg h0, ?_⟩
      have := mul_le_mul_of_nonneg_left h1 hg
      rwa [mul_one_div] at this
    · rw [abs_of_nonpos hg, min_eq_right (div_nonpos_of_nonpos_of_nonneg hg hp.le), neg_div, add_neg_cancel]
      refine ⟨?_, mul_nonpos_of_nonpos_of_nonneg hg h0⟩
      have := mul_le_mul_of_nonpos_left h1 hg
      rwa [mul_one_div] at this
  constructor
  · intro hg hA
    refine ⟨y1, hy1, fun V hV hpk => ?_⟩
    refine report_band lib a ha N y1 V hV hpk b hb hbN (gain * A) φ (g.dc + gain * (D - g.dc))
      (-(1 / 2 ^ max m l) - (min 0 ((gain - 1) / 2 ^ m) + |gain - 1| / 2 ^ m)) _ hw ?_ hA
    intro n hn
    have h := e1 n
    rw [hsine n hn] at h
    obtain ⟨t1, t2⟩ := tb (sineAt A ((b : ℝ) / N) φ D n - g.dc) (max m l)
    obtain ⟨t3, t4⟩ := tb (sineAt A ((b : ℝ) / N) φ D n - g.dc) m
    obtain ⟨t5, t6⟩ := prod _ t3 t4
    have e : sineAt (gain * A) ((b : ℝ) / N) φ (g.dc + gain * (D - g.dc)) n = g.dc + gain * (sineAt A ((b : ℝ) / N) φ D n - g.dc) := by
      unfold sineAt; ring
    rw [e]
    generalize sineAt A ((b : ℝ) / N) φ D n - g.dc = x at *
    have ey : y1 n - (g.dc + gain * x) = -(x - truncBits x (max m l)) - (gain - 1) * (x - truncBits x m) := by linarith
    rw [ey]
    constructor <;> linarith
  · intro hA
    refine ⟨y2, hy2, fun V hV hpk => ?_⟩
    refine report_band lib a ha N y2 V hV hpk b hb hbN A φ D (-(1 / 2 ^ max m l) + min 0 ((gain - 1) / 2 ^ m)) _ hw ?_ hA
    intro n hn
    obtain ⟨res, hr0, hr1, _, h⟩ := e2 n
    rw [hsine n hn] at h
    obtain ⟨t1, t2⟩ := tb (sineAt A ((b : ℝ) / N) φ D n - g.dc) (max m l)
    obtain ⟨t5, t6⟩ := prod res hr0 hr1.le
    constructor <;> linarith

/-! ## Memory -/

private theorem sine_pair (N b : ℕ) (A φ D s : ℝ) (hA : 0 ≤ A) (hs : |s| ≤ 1) : ∃ A' φ', A * (1 - |s|) ≤ A' ∧
    ∀ n, sineAt A ((b : ℝ) / N) φ D n + s * sineAt A ((b : ℝ) / N) (φ - 2 * Real.pi * (b / N)) D n = sineAt A' ((b : ℝ) / N) φ' (D + s * D) n := by
  obtain ⟨A', φ', h0, h1, h2⟩ := exists_polar (A * Real.cos φ + s * (A * Real.cos (φ - 2 * Real.pi * (b / N))))
    (-(A * Real.sin φ) + s * -(A * Real.sin (φ - 2 * Real.pi * (b / N))))
  refine ⟨A', φ', ?_, ?_⟩
  · apply le_of_sq_le_sq _ h0
    have e : A' ^ 2 = (A * Real.cos φ + s * (A * Real.cos (φ - 2 * Real.pi * (b / N)))) ^ 2
        + (-(A * Real.sin φ) + s * -(A * Real.sin (φ - 2 * Real.pi * (b / N)))) ^ 2 := by
      rw [← h1, ← h2]
      linear_combination (-A' ^ 2) * Real.sin_sq_add_cos_sq φ'
    generalize φ - 2 * Real.pi * (b / N) = ψ at e
    have hc : Real.cos (φ - ψ) = Real.cos φ * Real.cos ψ + Real.sin φ * Real.sin ψ := Real.cos_sub φ ψ
    have e' : A' ^ 2 = A ^ 2 * (1 + s ^ 2 + 2 * (s * Real.cos (φ - ψ))) := by
      rw [e, hc]
      linear_combination A ^ 2 * Real.sin_sq_add_cos_sq φ + A ^ 2 * s ^ 2 * Real.sin_sq_add_cos_sq ψ
    have hb : -|s| ≤ s * Real.cos (φ - ψ) := by
      have h3 : |s * Real.cos (φ - ψ)| ≤ |s| := by
        rw [abs_mul]
        exact mul_le_of_le_one_right (abs_nonneg _) (Real.abs_cos_le_one _)
      have := neg_abs_le (s * Real.cos (φ - ψ))
      linarith
    rw [e', mul_pow]
    apply mul_le_mul_of_nonneg_left _ (sq_nonneg A)
    have := sq_abs s
    nlinarith
  · intro n
    rw [sineAt_parts, sineAt_parts, sineAt_parts, h1, h2]
    ring

/-- **C148 (memory).** A coherent sine through `apply_memory_effect`: the residue of the previous sample is part of the reported sine, and the SNDR is at least
`2 ((1 - |s|) A / w)^2 - 1` with `w = 2^-12 + |s| / 16`. -/
theorem C148_memory (lib : WinLib) (a : SpectrumArgs) (ha : PlainCall a) (g : Gen) (input : Option (ℕ → ℝ)) (s : ℝ) (hs : |s| ≤ 1) (b : ℕ) (hb : 0 < b)
    (hbN : 2 * b < g.n) (A φ D : ℝ) (hsine : ∀ n < g.n, g.resolve input n = sineAt A ((b : ℝ) / g.n) φ D n) (hw : 1 / 2 ^ 12 + |s| / 16 < (1 - |s|) * A) (V : ℝ)
    (hV : 0 < V) (hpk : peakAmplitude [(List.range g.n).map (g.memoryEffect input s)] a.scale = .ok V) :
    ∃ r, computeSpectrum lib [(List.range g.n).map (g.memoryEffect input s)] a = .ok r ∧ r.fundamentalBin = b ∧
      dB (max (((1 - |s|) * A) ^ 2 / 2 / ((1 / 2 ^ 12 + |s| / 16) ^ 2 / 4 + V ^ 2 / 2 / 10 ^ 20) - 1) 0) ≤ r.sndr := by
  have hs0 := abs_nonneg s
  have hA : 0 ≤ A := by
    by_contra hc
    push Not at hc
    have : (1 - |s|) * A ≤ 0 := mul_nonpos_of_nonneg_of_nonpos (by linarith) hc.le
    have h0 : (0 : ℝ) < 1 / 2 ^ 12 := by positivity
    linarith
  have hNR : (0 : ℝ) < g.n := by exact_mod_cast (by omega : 0 < g.n)
  obtain ⟨A', φ', hA', hsum⟩ := sine_pair g.n b A φ D s hA hs
  have hprev : ∀ n < g.n, g.resolve input (if n = 0 then g.n - 1 else n - 1) = sineAt A ((b : ℝ) / g.n) (φ - 2 * Real.pi * (b / g.n)) D n := by
    intro n hn
    by_cases h0 : n = 0
    · rw [if_pos h0, hsine _ (by omega), h0]
      unfold sineAt
      rw [Nat.cast_sub (by omega)]
      have : 2 * Real.pi * ((b : ℝ) / g.n) * ((g.n : ℝ) - (1 : ℕ)) + φ = 2 * Real.pi * ((b : ℝ) / g.n) * ((0 : ℕ) : ℝ) + (φ - 2 * Real.pi * (b / g.n)) + (b : ℕ) * (2 * Real.pi) := by
        push_cast
        field_simp
        ring
      rw [this, Real.cos_add_nat_mul_two_pi]
    · rw [if_neg h0, hsine _ (by omega)]
      unfold sineAt
      rw [Nat.cast_sub (by omega)]
      congr 3
      push_cast
      ring
  have hA2 : (1 - |s|) * A ≤ A' := by linarith
  obtain ⟨r, h1, h2, h3⟩ := report_band lib a ha g.n (g.memoryEffect input s) V hV hpk b hb hbN A' φ' (D + s * D)
    (-(1 / 2 ^ 12) - (min 0 (s / 16) + |s| / 16)) (1 / 2 ^ 12 + |s| / 16) (by positivity) (by
      intro n hn
      rw [C68_memory, hprev n hn, ← hsum n, hsine n hn]
      obtain ⟨t1, t2⟩ := tb (sineAt A ((b : ℝ) / g.n) φ D n) 12
      obtain ⟨t3, t4⟩ := tb (sineAt A ((b : ℝ) / g.n) (φ - 2 * Real.pi * (b / g.n)) D n) 4
      generalize sineAt A ((b : ℝ) / g.n) φ D n = x at *
      generalize sineAt A ((b : ℝ) / g.n) (φ - 2 * Real.pi * (b / g.n)) D n = p at *
      have e : truncBits x 12 + s * truncBits p 4 - (x + s * p) = -(x - truncBits x 12) - s * (p - truncBits p 4) := by ring
      rw [e]
      generalize p - truncBits p 4 = t at *
      norm_num at t4
      rcases le_total 0 s with hg | hg
      · rw [abs_of_nonneg hg, min_eq_left (by positivity)]
        have h1 := mul_nonneg hg t3
        have h2 := mul_le_mul_of_nonneg_left t4 hg
        constructor <;> linarith
      · rw [abs_of_nonpos hg, min_eq_right (by linarith)]
        have h1 := mul_nonpos_of_nonpos_of_nonneg hg t3
        have h2 := mul_le_mul_of_nonpos_left t4 hg
        constructor <;> linarith) (by linarith)
  refine ⟨r, h1, h2, le_trans ?_ h3⟩
  exact sndr_mono _ _ _ V (mul_nonneg (by linarith) hA) hA2 hV (by positivity)

/-! ## Settling -/

/-- **C148 (settling).** A coherent sine through `apply_incomplete_sampling` with any signal-dependent time constant `τ (1 + k v^2)`: with
`ε = exp(-T / (τ (1 + k A^2))) < 1/4` the sine is found and the SNDR is at least `1 / (8 ε^2) - 1`. -/
theorem C148_settling (lib : WinLib) (a : SpectrumArgs) (ha : PlainCall a) (g : Gen) (input : Option (ℕ → ℝ)) (T tau k : ℝ) (hT : 0 ≤ T) (htau : 0 < tau)
    (hk : 0 ≤ k) (N b : ℕ) (hb : 0 < b) (hbN : 2 * b < N) (A φ : ℝ) (hA : 0 < A) (hsine : ∀ n < N, g.resolve input n = sineAt A ((b : ℝ) / N) φ g.dc n)
    (hε : Real.exp (-T / (tau * (1 + k * A ^ 2))) < 1 / 4) (V : ℝ) (hV : 0 < V)
    (hpk : peakAmplitude [(List.range N).map (g.incompleteSampling input (some T) tau k)] a.scale = .ok V) :
    ∃ r, computeSpectrum lib [(List.range N).map (g.incompleteSampling input (some T) tau k)] a = .ok r ∧ r.fundamentalBin = b ∧
      dB (max (A ^ 2 / 2 / (4 * A ^ 2 * Real.exp (-T / (tau * (1 + k * A ^ 2))) ^ 2 + V ^ 2 / 2 / 10 ^ 20) - 1) 0) ≤ r.sndr := by
  obtain ⟨ε, hεd⟩ : ∃ ε, ε = Real.exp (-T / (tau * (1 + k * A ^ 2))) := ⟨_, rfl⟩
  rw [← hεd] at hε ⊢
  have hε0 : 0 < ε := by rw [hεd]; exact Real.exp_pos _
  have hx : ∀ n < N, |g.resolve input n - g.dc| ≤ A := by
    intro n hn
    rw [hsine n hn]
    unfold sineAt
    rw [add_sub_cancel_right, abs_mul, abs_of_pos hA]
    exact mul_le_of_le_one_right hA.le (Real.abs_cos_le_one _)
  have hstate : ∀ n ≤ N, |settleState T tau k (fun j => g.resolve input j - g.dc) n| ≤ A ∧
      ∀ m, n = m + 1 → |settleState T tau k (fun j => g.resolve input j - g.dc) n - (g.resolve input m - g.dc)| ≤ 2 * A * ε := by
    intro n
    induction n with
    | zero => exact fun _ => ⟨by simp [settleState, hA.le], fun m hm => by omega⟩
    | succ n ih =>
      intro hn
      obtain ⟨h1, _⟩ := ih (by omega)
      have h2 := hx n (by omega)
      have hst : settleState T tau k (fun j => g.resolve input j - g.dc) (n + 1)
          = settleStep T tau k (settleState T tau k (fun j => g.resolve input j - g.dc) n) (g.resolve input n - g.dc) := rfl
      rw [hst]
      generalize settleState T tau k (fun j => g.resolve input j - g.dc) n = p at *
      have hm1 : ∀ m, n + 1 = m + 1 → m = n := fun m hm => by omega
      obtain ⟨x, hxd⟩ : ∃ x, x = g.resolve input n - g.dc := ⟨_, rfl⟩
      rw [← hxd] at h2 ⊢
      unfold settleStep
      simp only
      have hx2 : x ^ 2 ≤ A ^ 2 := sq_le_sq' (abs_le.mp h2).1 (abs_le.mp h2).2
      have hq : Real.exp (-T / (tau * (1 + k * x ^ 2))) ≤ ε := by
        rw [hεd, Real.exp_le_exp, neg_div, neg_div, neg_le_neg_iff]
        apply div_le_div_of_nonneg_left hT (by positivity)
        apply mul_le_mul_of_nonneg_left _ htau.le
        have := mul_le_mul_of_nonneg_left hx2 hk
        linarith
      have hq0 : 0 < Real.exp (-T / (tau * (1 + k * x ^ 2))) := Real.exp_pos _
      have hq1 : Real.exp (-T / (tau * (1 + k * x ^ 2))) ≤ 1 := by linarith
      generalize Real.exp (-T / (tau * (1 + k * x ^ 2))) = q at *
      rw [abs_le] at h1 h2
      constructor
      · rw [abs_le]
        constructor
        · nlinarith
        · nlinarith
      · intro m hm
        rw [hm1 m hm, ← hxd]
        rw [add_sub_cancel_left, abs_mul, abs_of_pos hq0]
        apply mul_le_mul _ hq hq0.le (by linarith)
        rw [abs_le]
        constructor <;> linarith
  obtain ⟨r, h1, h2, h3⟩ := report_rms lib a ha N (g.incompleteSampling input (some T) tau k) V hV hpk b hb hbN A φ g.dc (2 * A * ε) (by positivity) (by
    refine (sum_le_sum (g := fun _ => (2 * A * ε) ^ 2) fun n hn => ?_).trans (le_of_eq (by rw [sum_const, card_range, nsmul_eq_mul]))
    have hn' := mem_range.mp hn
    have h := (hstate (n + 1) (by omega)).2 n rfl
    rw [hsine n hn'] at h
    have e : g.incompleteSampling input (some T) tau k n - sineAt A ((b : ℝ) / N) φ g.dc n
        = settleState T tau k (fun j => g.resolve input j - g.dc) (n + 1) - (sineAt A ((b : ℝ) / N) φ g.dc n - g.dc) := by
      unfold Gen.incompleteSampling
      simp only
      ring
    rw [e]
    exact sq_le_sq' (abs_le.mp h).1 (abs_le.mp h).2) (by nlinarith)
  refine ⟨r, h1, h2, ?_⟩
  rw [show 4 * A ^ 2 * ε ^ 2 = (2 * A * ε) ^ 2 by ring]
  exact h3

/-- **C148 (settling time and bits).** Tracking for `(n + 2) ln 2` of the longest time constant gives more than `n` effective bits. -/
theorem C148_settling_bits (lib : WinLib) (a : SpectrumArgs) (ha : PlainCall a) (g : Gen) (input : Option (ℕ → ℝ)) (T tau k : ℝ) (htau : 0 < tau) (hk : 0 ≤ k)
    (N b : ℕ) (hb : 0 < b) (hbN : 2 * b < N) (A φ : ℝ) (hA : 0 < A) (hsine : ∀ n < N, g.resolve input n = sineAt A ((b : ℝ) / N) φ g.dc n) (n : ℕ) (h1 : 1 ≤ n)
    (h28 : n ≤ 28) (hT : (n + 2) * Real.log 2 * (tau * (1 + k * A ^ 2)) ≤ T) (V : ℝ) (hV : 0 < V) (hVA : V ≤ 2 * A)
    (hpk : peakAmplitude [(List.range N).map (g.incompleteSampling input (some T) tau k)] a.scale = .ok V) :
    ∃ r, computeSpectrum lib [(List.range N).map (g.incompleteSampling input (some T) tau k)] a = .ok r ∧ r.fundamentalBin = b ∧ ((n : ℝ) : EReal) < r.enob := by
  have hlog : 0 < Real.log 2 := Real.log_pos (by norm_num)
  have htk : 0 < tau * (1 + k * A ^ 2) := by positivity
  have hε : Real.exp (-T / (tau * (1 + k * A ^ 2))) ≤ 1 / 2 ^ (n + 2) := by
    have : (1 : ℝ) / 2 ^ (n + 2) = Real.exp (-((n + 2) * Real.log 2)) := by
      rw [Real.exp_neg, mul_comm, Real.exp_mul, Real.exp_log (by norm_num), one_div]
      congr 1
      have : (n : ℝ) + 2 = ((n + 2 : ℕ) : ℝ) := by push_cast; ring
      rw [this, Real.rpow_natCast]
    rw [this, Real.exp_le_exp, neg_div, neg_le_neg_iff, le_div_iff₀ htk]
    exact hT
  have hpow : (8 : ℝ) ≤ 2 ^ (n + 2) := by
    calc (8 : ℝ) = 2 ^ 3 := by norm_num
      _ ≤ 2 ^ (n + 2) := pow_le_pow_right₀ (by norm_num) (by omega)
  have hε4 : Real.exp (-T / (tau * (1 + k * A ^ 2))) < 1 / 4 := by
    refine lt_of_le_of_lt hε ?_
    rw [div_lt_div_iff₀ (by positivity) (by norm_num)]
    linarith
  have hT0 : 0 ≤ T := le_trans (by positivity) hT
  obtain ⟨r, hr, hf, hs⟩ := C148_settling lib a ha g input T tau k hT0 htau hk N b hb hbN A φ hA hsine hε4 V hV hpk
  refine ⟨r, hr, hf, ?_⟩
  rw [(C62_noise_floor_identities lib _ a r hr).2.2.2]
  apply enob_above n _ _ _ hs
  refine le_max_of_le_left (bits_of_ratio n h1 h28 A V _ hA hVA hV ?_ (by positivity))
  have hε0 := (Real.exp_pos (-T / (tau * (1 + k * A ^ 2)))).le
  have h2 := pow_le_pow_left₀ hε0 hε 2
  have e : ((1 : ℝ) / 2 ^ (n + 2)) ^ 2 = 1 / (16 * 4 ^ n) := by
    rw [div_pow, one_pow, ← pow_mul, pow_mul', pow_add]
    norm_num
    ring
  rw [e] at h2
  generalize Real.exp (-T / (tau * (1 + k * A ^ 2))) ^ 2 = z at *
  have h4 : (0 : ℝ) < 4 ^ n := by positivity
  rw [le_div_iff₀ (by positivity)] at h2
  have := mul_le_mul_of_nonneg_left h2 (sq_nonneg A)
  linarith

/-! ## Linear settling -/

/-- The steady state of a one-pole filter driven by a sine; `w` is one sample ahead of the record. -/
private theorem one_pole_sine (N b : ℕ) (A φ q : ℝ) (hA : 0 ≤ A) (hq0 : 0 ≤ q) (hq1 : q < 1) : ∃ (A' φ' : ℝ) (w : ℕ → ℝ), A * (1 - q) / (1 + q) ≤ A' ∧ |w 0| ≤ A' ∧
    (∀ n, w (n + 1) = sineAt A' ((b : ℝ) / N) φ' 0 n) ∧ ∀ n, w (n + 1) = (1 - q) * sineAt A ((b : ℝ) / N) φ 0 n + q * w n := by
  obtain ⟨ω, hω⟩ : ∃ ω : ℝ, ω = 2 * Real.pi * ((b : ℝ) / N) := ⟨_, rfl⟩
  obtain ⟨E, hE⟩ : ∃ E : ℂ, E = Complex.exp ((-ω : ℝ) * Complex.I) := ⟨_, rfl⟩
  have hEn : ‖E‖ = 1 := by rw [hE]; exact Complex.norm_exp_ofReal_mul_I _
  have hqE : ‖(q : ℂ) * E‖ = q := by rw [norm_mul, hEn, mul_one, Complex.norm_real, Real.norm_eq_abs, abs_of_nonneg hq0]
  have hden : (1 - (q : ℂ) * E) ≠ 0 := by
    intro h
    have : ‖(1 : ℂ)‖ = q := by rw [← hqE, sub_eq_zero.mp h]
    rw [norm_one] at this
    linarith
  obtain ⟨Z, hZ⟩ : ∃ Z : ℂ, Z = ((1 - q) * A : ℝ) * Complex.exp ((φ : ℝ) * Complex.I) / (1 - (q : ℂ) * E) := ⟨_, rfl⟩
  have hZn : A * (1 - q) / (1 + q) ≤ ‖Z‖ := by
    rw [hZ, norm_div, norm_mul, Complex.norm_exp_ofReal_mul_I, mul_one, Complex.norm_real, Real.norm_eq_abs, abs_of_nonneg (mul_nonneg (by linarith) hA), mul_comm A]
    apply div_le_div_of_nonneg_left (mul_nonneg (by linarith) hA) (norm_pos_iff.mpr hden)
    refine (norm_sub_le _ _).trans ?_
    rw [norm_one, hqE]
  have hF : ∀ n : ℕ, Complex.exp ((ω * n : ℝ) * Complex.I) = Complex.exp ((ω * (n + 1 : ℕ) : ℝ) * Complex.I) * E := by
    intro n
    rw [hE, ← Complex.exp_add]
    congr 1
    push_cast
    ring
  refine ⟨‖Z‖, Complex.arg Z, fun n => (Z * (Complex.exp ((ω * n : ℝ) * Complex.I) * E)).re, hZn, ?_, ?_, ?_⟩
  · refine (Complex.abs_re_le_norm _).trans (le_of_eq ?_)
    rw [norm_mul, norm_mul, Complex.norm_exp_ofReal_mul_I, hEn, one_mul, mul_one]
  · intro n
    simp only
    rw [← hF n]
    unfold sineAt
    rw [← hω, add_zero]
    nth_rewrite 1 [← Complex.norm_mul_exp_arg_mul_I Z]
    rw [mul_assoc, ← Complex.exp_add, show (Complex.arg Z : ℂ) * Complex.I + ((ω * n : ℝ) : ℂ) * Complex.I = ((ω * n + Complex.arg Z : ℝ) : ℂ) * Complex.I by push_cast; ring,
      Complex.re_ofReal_mul, Complex.exp_ofReal_mul_I_re]
  · intro n
    simp only
    rw [← hF n]
    have h1 : Z * (1 - (q : ℂ) * E) = ((1 - q) * A : ℝ) * Complex.exp ((φ : ℝ) * Complex.I) := by
      rw [hZ, div_mul_cancel₀ _ hden]
    have h2 : Z * Complex.exp ((ω * n : ℝ) * Complex.I)
        = ((1 - q) * A : ℝ) * Complex.exp ((ω * n + φ : ℝ) * Complex.I) + (q : ℝ) * (Z * (Complex.exp ((ω * n : ℝ) * Complex.I) * E)) := by
      have h3 : Complex.exp ((ω * n + φ : ℝ) * Complex.I) = Complex.exp ((ω * n : ℝ) * Complex.I) * Complex.exp ((φ : ℝ) * Complex.I) := by
        rw [← Complex.exp_add]
        congr 1
        push_cast
        ring
      rw [h3]
      linear_combination Complex.exp ((ω * n : ℝ) * Complex.I) * h1
    rw [h2, Complex.add_re, Complex.re_ofReal_mul, Complex.re_ofReal_mul, Complex.exp_ofReal_mul_I_re]
    unfold sineAt
    rw [← hω]
    ring

/-- **C148 (linear settling).** With a constant time constant (`k = 0`) incomplete settling costs amplitude, not SNDR: whatever is left unsettled, `q = exp(-T/τ)`,
the report shows the sine with at least `(1 - q)/(1 + q)` of its amplitude and an SNDR of at least `N (1 - q^2) / (2 q^2) - 1`, the rest being the start of the
record. -/
theorem C148_linear_settling (lib : WinLib) (a : SpectrumArgs) (ha : PlainCall a) (g : Gen) (input : Option (ℕ → ℝ)) (T tau : ℝ) (hT : 0 < T) (htau : 0 < tau)
    (N b : ℕ) (hb : 0 < b) (hbN : 2 * b < N) (A φ q : ℝ) (hA : 0 < A) (hsine : ∀ n < N, g.resolve input n = sineAt A ((b : ℝ) / N) φ g.dc n)
    (hq : Real.exp (-T / tau) = q) (hlong : 4 * q ^ 2 < N * (1 - q ^ 2)) (V : ℝ) (hV : 0 < V)
    (hpk : peakAmplitude [(List.range N).map (g.incompleteSampling input (some T) tau 0)] a.scale = .ok V) :
    ∃ r, computeSpectrum lib [(List.range N).map (g.incompleteSampling input (some T) tau 0)] a = .ok r ∧ r.fundamentalBin = b ∧
      dB (max (1 / 2 / (q ^ 2 / (N * (1 - q ^ 2)) + (V / (A * (1 - q) / (1 + q))) ^ 2 / 2 / 10 ^ 20) - 1) 0) ≤ r.sndr := by
  have hq0 : 0 < q := by rw [← hq]; exact Real.exp_pos _
  have hq1 : q < 1 := by
    rw [← hq, Real.exp_lt_one_iff]
    exact div_neg_of_neg_of_pos (by linarith) htau
  have hq2 : 0 < 1 - q ^ 2 := by nlinarith
  have hNR : (0 : ℝ) < N := by exact_mod_cast (by omega : 0 < N)
  have hden : 0 < N * (1 - q ^ 2) := mul_pos hNR hq2
  obtain ⟨A', φ', w, hA', hw0, hw1, hw2⟩ := one_pole_sine N b A φ q hA.le hq0.le hq1
  have hA0 : 0 < A * (1 - q) / (1 + q) := div_pos (mul_pos hA (by linarith)) (by linarith)
  have hA'0 : 0 < A' := lt_of_lt_of_le hA0 hA'
  have hstate : ∀ n ≤ N, settleState T tau 0 (fun j => g.resolve input j - g.dc) n - w n = -(q ^ n * w 0) := by
    intro n
    induction n with
    | zero => intro _; simp [settleState]
    | succ n ih =>
      intro hn
      have h1 := ih (by omega)
      have hst : settleState T tau 0 (fun j => g.resolve input j - g.dc) (n + 1)
          = settleStep T tau 0 (settleState T tau 0 (fun j => g.resolve input j - g.dc) n) (g.resolve input n - g.dc) := rfl
      have hx : g.resolve input n - g.dc = sineAt A ((b : ℝ) / N) φ 0 n := by
        rw [hsine n (by omega)]
        unfold sineAt
        ring
      rw [hst, hw2 n, hx]
      unfold settleStep
      simp only [zero_mul, add_zero, mul_one, hq]
      rw [pow_succ]
      linear_combination q * h1
  have hgeo : ∑ n ∈ range N, (q ^ (n + 1)) ^ 2 ≤ q ^ 2 / (1 - q ^ 2) := by
    have h1 : ∀ M : ℕ, ∑ n ∈ range M, (q ^ (n + 1)) ^ 2 = q ^ 2 / (1 - q ^ 2) * (1 - (q ^ M) ^ 2) := by
      intro M
      induction M with
      | zero => simp
      | succ M ih =>
        rw [sum_range_succ, ih, pow_succ]
        field_simp
        ring
    rw [h1]
    apply mul_le_of_le_one_right (by positivity)
    have := sq_nonneg (q ^ N)
    linarith
  obtain ⟨σ, hσ⟩ : ∃ σ, σ = A' * (q / Real.sqrt (N * (1 - q ^ 2))) := ⟨_, rfl⟩
  have hsq := Real.sq_sqrt hden.le
  have hsp : 0 < Real.sqrt (N * (1 - q ^ 2)) := Real.sqrt_pos.mpr hden
  have hσ2 : σ ^ 2 = A' ^ 2 * (q ^ 2 / (N * (1 - q ^ 2))) := by
    rw [hσ, mul_pow, div_pow, hsq]
  obtain ⟨r, h1, h2, h3⟩ := report_rms lib a ha N (g.incompleteSampling input (some T) tau 0) V hV hpk b hb hbN A' φ' g.dc σ (by rw [hσ]; positivity) (by
    have hle : ∀ n ∈ range N, (g.incompleteSampling input (some T) tau 0 n - sineAt A' ((b : ℝ) / N) φ' g.dc n) ^ 2 ≤ A' ^ 2 * (q ^ (n + 1)) ^ 2 := by
      intro n hn
      have h := hstate (n + 1) (mem_range.mp hn)
      rw [hw1 n] at h
      have e : g.incompleteSampling input (some T) tau 0 n - sineAt A' ((b : ℝ) / N) φ' g.dc n = -(q ^ (n + 1) * w 0) := by
        rw [← h]
        unfold Gen.incompleteSampling sineAt
        simp only
        ring
      rw [e, neg_sq, mul_pow, mul_comm]
      apply mul_le_mul_of_nonneg_right _ (sq_nonneg _)
      exact sq_le_sq' (abs_le.mp hw0).1 (abs_le.mp hw0).2
    refine (sum_le_sum hle).trans ?_
    rw [← mul_sum, hσ2]
    calc A' ^ 2 * ∑ n ∈ range N, (q ^ (n + 1)) ^ 2 ≤ A' ^ 2 * (q ^ 2 / (1 - q ^ 2)) := mul_le_mul_of_nonneg_left hgeo (sq_nonneg _)
      _ = N * (A' ^ 2 * (q ^ 2 / (N * (1 - q ^ 2)))) := by field_simp) (by
    rw [hσ]
    have : q / Real.sqrt (N * (1 - q ^ 2)) < 1 / 2 := by
      rw [div_lt_div_iff₀ hsp (by norm_num), one_mul]
      apply lt_of_pow_lt_pow_left₀ 2 hsp.le
      rw [hsq]
      linarith
    nlinarith)
  refine ⟨r, h1, h2, le_trans ?_ h3⟩
  apply dB_mono (le_max_right _ _)
  apply max_le_max _ le_rfl
  rw [hσ2]
  obtain ⟨A0, hA0d⟩ : ∃ A0, A0 = A * (1 - q) / (1 + q) := ⟨_, rfl⟩
  rw [← hA0d] at hA0 hA' ⊢
  generalize q ^ 2 / (N * (1 - q ^ 2)) = c at *
  have hc : 0 ≤ A' ^ 2 * c := by rw [← hσ2]; positivity
  have hc0 : 0 ≤ c := by
    by_contra hneg
    push Not at hneg
    have := mul_neg_of_pos_of_neg (by positivity : 0 < A' ^ 2) hneg
    linarith
  have e : A' ^ 2 / 2 / (A' ^ 2 * c + V ^ 2 / 2 / 10 ^ 20) = 1 / 2 / (c + (V / A') ^ 2 / 2 / 10 ^ 20) := by
    field_simp
  rw [e]
  have hVA : (V / A') ^ 2 ≤ (V / A0) ^ 2 := pow_le_pow_left₀ (by positivity) (div_le_div_of_nonneg_left hV.le hA0 hA') 2
  have : 1 / 2 / (c + (V / A0) ^ 2 / 2 / 10 ^ 20) ≤ 1 / 2 / (c + (V / A') ^ 2 / 2 / 10 ^ 20) := by
    apply div_le_div_of_nonneg_left (by norm_num)
    · positivity
    · have := div_le_div_of_nonneg_right (div_le_div_of_nonneg_right hVA (by norm_num : (0 : ℝ) ≤ 2)) (by norm_num : (0 : ℝ) ≤ 10 ^ 20)
      linarith
  linarith

/-! ## Reference droop -/

private theorem sum_sine_sq (N b : ℕ) (hb : 0 < b) (hbN : 2 * b < N) (A φ : ℝ) : ∑ n ∈ range N, sineAt A ((b : ℝ) / N) φ 0 n ^ 2 = N * (A ^ 2 / 2) := by
  obtain ⟨s1, s2, s3, s4, s5⟩ := bin_sums (N := N) (b := b) hb hbN
  have : ∀ n ∈ range N, sineAt A ((b : ℝ) / N) φ 0 n ^ 2 = (A * Real.cos φ) ^ 2 * Real.cos (2 * Real.pi * (b * n / N)) ^ 2
      + (A * Real.sin φ) ^ 2 * Real.sin (2 * Real.pi * (b * n / N)) ^ 2
      + (-2 * (A * Real.cos φ) * (A * Real.sin φ)) * (Real.cos (2 * Real.pi * (b * n / N)) * Real.sin (2 * Real.pi * (b * n / N))) := by
    intro n _
    rw [sineAt_parts]
    ring
  rw [sum_congr rfl this, sum_add_distrib, sum_add_distrib, ← mul_sum, ← mul_sum, ← mul_sum, s3, s4, s5]
  linear_combination (N : ℝ) * A ^ 2 / 2 * Real.sin_sq_add_cos_sq φ

/-- **C148 (reference droop).** A coherent sine through `apply_reference_error` with droop strength `d` and time constant `τ` samples: with
`m = d A / (1 - exp(-1/τ)) ≤ 4/5`, the largest possible droop, the SNDR is at least `(2/m - 1)^2 - 1`. -/
theorem C148_droop (lib : WinLib) (a : SpectrumArgs) (ha : PlainCall a) (g : Gen) (input : Option (ℕ → ℝ)) (tau d : ℝ) (htau : 0 < tau) (hd : 0 ≤ d)
    (N b : ℕ) (hb : 0 < b) (hbN : 2 * b < N) (A φ m : ℝ) (hA : 0 < A) (hsine : ∀ n < N, g.resolve input n = sineAt A ((b : ℝ) / N) φ g.dc n)
    (hm : d * A / (1 - Real.exp (-1 / tau)) = m) (hm1 : m ≤ 4 / 5) (V : ℝ) (hV : 0 < V)
    (hpk : peakAmplitude [(List.range N).map (g.referenceError input tau d)] a.scale = .ok V) :
    ∃ r, computeSpectrum lib [(List.range N).map (g.referenceError input tau d)] a = .ok r ∧ r.fundamentalBin = b ∧
      dB (max ((A * (1 - m / 2)) ^ 2 / 2 / (A ^ 2 * m ^ 2 / 8 + V ^ 2 / 2 / 10 ^ 20) - 1) 0) ≤ r.sndr := by
  have hdec : Real.exp (-1 / tau) < 1 := by
    rw [Real.exp_lt_one_iff]
    exact div_neg_of_neg_of_pos (by norm_num) htau
  have hm0 : 0 ≤ m := by
    rw [← hm]
    exact div_nonneg (mul_nonneg hd hA.le) (by linarith)
  have hx : ∀ n < N, |g.resolve input n - g.dc| ≤ A := by
    intro n hn
    rw [hsine n hn]
    unfold sineAt
    rw [add_sub_cancel_right, abs_mul, abs_of_pos hA]
    exact mul_le_of_le_one_right hA.le (Real.abs_cos_le_one _)
  have hr2 : Real.sqrt 2 ≤ 29 / 20 := by
    rw [Real.sqrt_le_left (by norm_num)]
    norm_num
  have h22 : Real.sqrt 2 ^ 2 = 2 := Real.sq_sqrt (by norm_num)
  obtain ⟨r, h1, h2, h3⟩ := report_rms lib a ha N (g.referenceError input tau d) V hV hpk b hb hbN (A * (1 - m / 2)) φ g.dc (Real.sqrt 2 / 4 * (A * m)) (by positivity) (by
    have hle : ∀ n ∈ range N, (g.referenceError input tau d n - sineAt (A * (1 - m / 2)) ((b : ℝ) / N) φ g.dc n) ^ 2
        ≤ (m / 2) ^ 2 * sineAt A ((b : ℝ) / N) φ 0 n ^ 2 := by
      intro n hn
      have hn' := mem_range.mp hn
      obtain ⟨δ, e1, _, e3, e4⟩ := C72_droop g input tau d htau hd n
      have e5 := e4 A (fun j hj => hx j (by omega))
      rw [hm] at e5
      have ex : g.resolve input n - g.dc = sineAt A ((b : ℝ) / N) φ 0 n := by
        rw [hsine n hn']
        unfold sineAt
        ring
      have es : sineAt (A * (1 - m / 2)) ((b : ℝ) / N) φ g.dc n = (1 - m / 2) * sineAt A ((b : ℝ) / N) φ 0 n + g.dc := by
        unfold sineAt
        ring
      rw [e1, ex, es, show sineAt A ((b : ℝ) / N) φ 0 n * (1 - δ) + g.dc - ((1 - m / 2) * sineAt A ((b : ℝ) / N) φ 0 n + g.dc)
        = (m / 2 - δ) * sineAt A ((b : ℝ) / N) φ 0 n by ring, mul_pow]
      apply mul_le_mul_of_nonneg_right _ (sq_nonneg _)
      exact sq_le_sq' (by linarith) (by linarith)
    refine (sum_le_sum hle).trans (le_of_eq ?_)
    rw [← mul_sum, sum_sine_sq N b hb hbN A φ]
    linear_combination (-(N : ℝ) * (A * m) ^ 2 / 16) * h22) (by
    have h4 : 0 ≤ A * m := by positivity
    have h5 : A * m ≤ A * (4 / 5) := mul_le_mul_of_nonneg_left hm1 hA.le
    nlinarith)
  refine ⟨r, h1, h2, ?_⟩
  rw [show A ^ 2 * m ^ 2 / 8 = (Real.sqrt 2 / 4 * (A * m)) ^ 2 by linear_combination (-(A * m) ^ 2 / 16) * h22]
  exact h3

/-! ## Concrete cases -/

/-- 12 time constants (of the longest, 1.15 nominal) on a sine of amplitude 1: more than 14 bits. -/
example (lib : WinLib) : ∃ r, computeSpectrum lib [(List.range 64).map ((Gen.mk 64 1 (5 / 64) 1 0).incompleteSampling (some (sineAt 1 ((5 : ℕ) / (64 : ℕ)) 0 0)) (some 12)
      (20 / 23) (15 / 100))] { win := "boxcar", sideBin := some 0, scale := .scalar 1 } = .ok r ∧ r.fundamentalBin = 5 ∧ ((14 : ℝ) : EReal) < r.enob := by
  have h := C148_settling_bits lib { win := "boxcar", sideBin := some 0, scale := .scalar 1 } ⟨Or.inl rfl, rfl, rfl, rfl, rfl, rfl, by norm_num, by norm_num, by norm_num⟩
    (Gen.mk 64 1 (5 / 64) 1 0) (some (sineAt 1 ((5 : ℕ) / (64 : ℕ)) 0 0)) 12 (20 / 23) (15 / 100) (by norm_num) (by norm_num) 64 5 (by norm_num) (by norm_num) 1 0 one_pos
    (fun n _ => rfl) 14 (by norm_num) (by norm_num) (by
      have := Real.log_two_lt_d9
      norm_num
      linarith) 1 one_pos (by norm_num) (by simp [peakAmplitude])
  exact_mod_cast h

/-- A memory of 1% on a sine of amplitude 1/4. -/
example (lib : WinLib) : ∃ r, computeSpectrum lib [(List.range 64).map ((Gen.mk 64 1 (5 / 64) (1 / 4) (1 / 2)).memoryEffect (some (sineAt (1 / 4) ((5 : ℕ) / (64 : ℕ)) 0 (1 / 2))) (1 / 100))]
    { win := "boxcar", sideBin := some 0, scale := .scalar 1 } = .ok r ∧ r.fundamentalBin = 5 := by
  obtain ⟨r, h1, h2, _⟩ := C148_memory lib { win := "boxcar", sideBin := some 0, scale := .scalar 1 } ⟨Or.inl rfl, rfl, rfl, rfl, rfl, rfl, by norm_num, by norm_num, by norm_num⟩
    (Gen.mk 64 1 (5 / 64) (1 / 4) (1 / 2)) (some (sineAt (1 / 4) ((5 : ℕ) / (64 : ℕ)) 0 (1 / 2))) (1 / 100) (by norm_num) 5 (by norm_num) (by norm_num) (1 / 4) 0 (1 / 2)
    (fun n _ => rfl) (by norm_num) 1 one_pos (by simp [peakAmplitude])
  exact ⟨r, h1, h2⟩

/-- An inter-stage gain of 0.99 in a 4 + 12 bit pipeline. -/
example (lib : WinLib) : ∃ y r, (Gen.mk 64 1 (5 / 64) (1 / 4) (1 / 2)).raGainError (some (sineAt (1 / 4) ((5 : ℕ) / (64 : ℕ)) 0 (1 / 2))) (99 / 100) 4 12 .residuePath = .ok y ∧
    computeSpectrum lib [(List.range 64).map y] { win := "boxcar", sideBin := some 0, scale := .scalar 1 } = .ok r ∧ r.fundamentalBin = 5 := by
  obtain ⟨y, hy, h⟩ := (C148_residue_gain lib { win := "boxcar", sideBin := some 0, scale := .scalar 1 }
    ⟨Or.inl rfl, rfl, rfl, rfl, rfl, rfl, by norm_num, by norm_num, by norm_num⟩ (Gen.mk 64 1 (5 / 64) (1 / 4) (1 / 2))
    (some (sineAt (1 / 4) ((5 : ℕ) / (64 : ℕ)) 0 (1 / 2))) (99 / 100) 4 12 64 5 (by norm_num) (by norm_num) (1 / 4) 0 (1 / 2) (fun n _ => rfl)).2 (by norm_num [abs_of_neg])
  obtain ⟨r, h1, h2, _⟩ := h 1 one_pos (by simp [peakAmplitude])
  exact ⟨y, r, hy, h1, h2⟩

/-- Linear settling over half a time constant. -/
example (lib : WinLib) : ∃ r, computeSpectrum lib [(List.range 64).map ((Gen.mk 64 1 (5 / 64) 1 0).incompleteSampling (some (sineAt 1 ((5 : ℕ) / (64 : ℕ)) 0 0)) (some 1) 2 0)]
    { win := "boxcar", sideBin := some 0, scale := .scalar 1 } = .ok r ∧ r.fundamentalBin = 5 := by
  obtain ⟨r, h1, h2, _⟩ := C148_linear_settling lib { win := "boxcar", sideBin := some 0, scale := .scalar 1 }
    ⟨Or.inl rfl, rfl, rfl, rfl, rfl, rfl, by norm_num, by norm_num, by norm_num⟩ (Gen.mk 64 1 (5 / 64) 1 0) (some (sineAt 1 ((5 : ℕ) / (64 : ℕ)) 0 0)) 1 2 one_pos (by norm_num)
    64 5 (by norm_num) (by norm_num) 1 0 _ one_pos (fun n _ => rfl) rfl (by
      have h : Real.exp (-1 / 2) ^ 2 = Real.exp (-1) := by rw [← Real.exp_nat_mul]; norm_num
      have h2 := Real.exp_neg_one_lt_d9
      rw [h]
      push_cast
      linarith) 1 one_pos (by simp [peakAmplitude])
  exact ⟨r, h1, h2⟩

/-- A reference that droops by 1% of the amplitude per sample and recovers with a time constant of one sample. -/
example (lib : WinLib) : ∃ r, computeSpectrum lib [(List.range 64).map ((Gen.mk 64 1 (5 / 64) 1 0).referenceError (some (sineAt 1 ((5 : ℕ) / (64 : ℕ)) 0 0)) 1 (1 / 100))]
    { win := "boxcar", sideBin := some 0, scale := .scalar 1 } = .ok r ∧ r.fundamentalBin = 5 := by
  obtain ⟨r, h1, h2, _⟩ := C148_droop lib { win := "boxcar", sideBin := some 0, scale := .scalar 1 }
    ⟨Or.inl rfl, rfl, rfl, rfl, rfl, rfl, by norm_num, by norm_num, by norm_num⟩ (Gen.mk 64 1 (5 / 64) 1 0) (some (sineAt 1 ((5 : ℕ) / (64 : ℕ)) 0 0)) 1 (1 / 100) one_pos
    (by norm_num) 64 5 (by norm_num) (by norm_num) 1 0 _ one_pos (fun n _ => rfl) rfl (by
      have h2 := Real.exp_neg_one_lt_d9
      rw [show (-1 : ℝ) / 1 = -1 by norm_num, div_le_iff₀ (by linarith)]
      linarith) 1 one_pos (by simp [peakAmplitude])
  exact ⟨r, h1, h2⟩

end Verif
