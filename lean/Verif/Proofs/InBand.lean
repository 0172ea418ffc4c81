import Verif.Theorems.WindowedSinad
import Verif.Theorems.NoiseShaping
import Verif.Proofs.Leakage

/-!
# Lemmas for the in-band error of oversampled records (C147)
-/

namespace Verif

open Model Finset Spec

namespace Spec

/-- Mean square of the components of a record at the frequencies `1/N, ..., M/N` (cycles per sample, up to one half). -/
noncomputable def bandPower (N M : ℕ) (e : ℕ → ℝ) : ℝ :=
  ∑ k ∈ Icc 1 M, (if 2 * k = N then 1 else 2) * ‖dft N (fun n => (e n : ℂ)) k / N‖ ^ 2

end Spec

/-- Number of spectral lines that share a component: two, or one at half the sampling rate. -/
noncomputable def lineCount (N k : ℕ) : ℝ := if 2 * k = N then 1 else 2

theorem lineCount_pos (N k : ℕ) : 0 < lineCount N k := by unfold lineCount; split_ifs <;> norm_num

theorem lineCount_le (N k : ℕ) : lineCount N k ≤ 2 := by unfold lineCount; split_ifs <;> norm_num

theorem oneSided_lines (N k : ℕ) (hk : 1 ≤ k) (v : ℝ) : oneSided N k v = lineCount N k * (v / 2) := by
  unfold oneSided lineCount
  simp only
  rw [if_neg (show ¬ k = 0 by omega)]
  by_cases h : 2 * k = N
  · rw [if_pos (show N % 2 = 0 ∧ k = N / 2 by omega), if_pos h]
    ring
  · rw [if_neg (show ¬ (N % 2 = 0 ∧ k = N / 2) by omega), if_neg h]
    ring

theorem bandPower_eq (N M : ℕ) (e : ℕ → ℝ) :
    bandPower N M e = ∑ k ∈ Icc 1 M, lineCount N k * (‖dft N (fun n => (e n : ℂ)) k‖ ^ 2 / (N : ℝ) ^ 2) := by
  unfold bandPower
  refine sum_congr rfl fun k _ => ?_
  rw [norm_div, div_pow, Complex.norm_natCast]
  rfl

/-- An offset has no component above DC. -/
theorem dft_offset (N : ℕ) (e : ℕ → ℝ) (c : ℝ) (k : ℕ) (hk : 1 ≤ k) (hkN : k < N) :
    dft N (fun n => ((e n + c : ℝ) : ℂ)) k = dft N (fun n => (e n : ℂ)) k := by
  have h := sum_cis N (by omega) (-(k : ℤ))
  rw [if_neg (by rw [Int.dvd_neg]; exact not_dvd_bin (by omega) hkN)] at h
  have e0 : ∑ i ∈ range N, cis (-(((k : ℤ) : ℝ) * i / N)) = 0 := by
    rw [← h]
    refine sum_congr rfl fun i _ => ?_
    congr 1
    push_cast
    ring
  unfold dft
  have : ∀ n ∈ range N, ((e n + c : ℝ) : ℂ) * cis (-(((k : ℤ) : ℝ) * n / N)) = (e n : ℂ) * cis (-(((k : ℤ) : ℝ) * n / N)) + c * cis (-(((k : ℤ) : ℝ) * n / N)) := by
    intro n _
    push_cast
    ring
  rw [sum_congr rfl this, sum_add_distrib, ← mul_sum, e0, mul_zero, add_zero]

/-- The in-band power of a record within `τ` of a constant. -/
theorem bandPower_le (N M : ℕ) (hM : 2 * M ≤ N) (e : ℕ → ℝ) (c τ : ℝ) (he : ∀ n < N, |e n - c| ≤ τ) : bandPower N M e ≤ τ ^ 2 := by
  by_cases hM0 : M = 0
  · subst hM0
    unfold bandPower
    simp
    positivity
  have hN : N ≠ 0 := by omega
  have hNR : (N : ℝ) ≠ 0 := by exact_mod_cast hN
  have h := binPower_total (fun _ => 1) hN (by simp [hN]) (fun n => e n - c) τ he
  have h2 : ∑ k ∈ Icc 1 M, binPower (fun _ => 1) N (fun n => e n - c) k ≤ ∑ k ∈ range (N / 2 + 1), binPower (fun _ => 1) N (fun n => e n - c) k := by
    apply sum_le_sum_of_subset_of_nonneg
    · intro k hk
      rw [mem_Icc] at hk
      rw [mem_range]
      omega
    · exact fun k _ _ => binPower_nonneg _ hN _ k
  have h3 : 2 * bandPower N M e = ∑ k ∈ Icc 1 M, binPower (fun _ => 1) N (fun n => e n - c) k := by
    rw [bandPower_eq, mul_sum]
    refine sum_congr rfl fun k hk => ?_
    rw [mem_Icc] at hk
    unfold binPower
    have e1 : dft N (fun n => (((e n - c) * 1 : ℝ) : ℂ)) k = dft N (fun n => (e n : ℂ)) k := by
      rw [← dft_offset N e (-c) k hk.1 (by omega)]
      exact dft_congr N _ _ k fun n _ => by push_cast; ring
    rw [e1, oneSided_lines N k hk.1]
    simp only [one_pow, sum_const, card_range, nsmul_eq_mul, mul_one]
    field_simp
    ring
  linarith

/-! ## A sine and the rest -/

theorem dft_sine_other (N b k : ℕ) (hbN : 2 * b < N) (hk : 1 ≤ k) (hkN : 2 * k ≤ N) (hkb : k ≠ b) (A φ D : ℝ) :
    dft N (fun n => ((sineAt A ((b : ℝ) / N) φ D n : ℝ) : ℂ)) k = 0 := by
  have h := dft_between (fun _ => 1) N A b φ D k
  have e : dft N (fun n => ((sineAt A ((b : ℝ) / N) φ D n : ℝ) : ℂ)) k
      = dft N (fun n => (((A * Real.cos (2 * Real.pi * ((b : ℝ) * n / N) + φ) + D) * 1 : ℝ) : ℂ)) k :=
    dft_congr N _ _ k fun n _ => by
      unfold sineAt
      rw [show 2 * Real.pi * ((b : ℝ) / N) * n = 2 * Real.pi * (b * n / N) by ring, mul_one]
  rw [e, h]
  have z1 := box_int N ((k : ℤ) - b) (by omega) (by rw [abs_lt]; omega)
  have z2 := box_int N ((k : ℤ) + b) (by omega) (by rw [abs_lt]; omega)
  have z3 := box_int N (k : ℤ) (by omega) (by rw [abs_lt]; omega)
  push_cast at z1 z2 z3 ⊢
  rw [z1, z2, z3]
  ring

theorem dft_add_real (N : ℕ) (x y z : ℕ → ℝ) (hz : ∀ n < N, z n = x n + y n) (k : ℤ) :
    dft N (fun n => (z n : ℂ)) k = dft N (fun n => (x n : ℂ)) k + dft N (fun n => (y n : ℂ)) k := by
  rw [← dft_add]
  exact dft_congr N _ _ k fun n hn => by rw [hz n hn]; push_cast; ring

theorem norm_sine_bin (N b : ℕ) (hb : 0 < b) (hbN : 2 * b < N) (A φ D : ℝ) (hA : 0 ≤ A) :
    ‖dft N (fun n => ((sineAt A ((b : ℝ) / N) φ D n : ℝ) : ℂ)) b‖ = A * N / 2 := by
  have hN : N ≠ 0 := by omega
  have h := norm_bin (N := N) (b := b) (sineAt A ((b : ℝ) / N) φ D) hN
  obtain ⟨b1, b2⟩ := bin_sine N b hb hbN A φ D
  rw [b1, b2] at h
  rw [← sq_eq_sq₀ (norm_nonneg _) (by positivity), h]
  linear_combination (N : ℝ) ^ 2 / 4 * A ^ 2 * Real.sin_sq_add_cos_sq φ

/-! ## The backward difference in the frequency domain -/

theorem dft_bdiff (N : ℕ) (hN : 0 < N) (e : ℕ → ℝ) (k : ℕ) :
    dft N (fun n => (bdiff e n : ℂ)) k = (1 - cis (-((k : ℝ) / N))) * dft N (fun n => (e n : ℂ)) k + e (N - 1) := by
  obtain ⟨m, rfl⟩ : ∃ m, N = m + 1 := ⟨N - 1, by omega⟩
  have hNR : ((m + 1 : ℕ) : ℝ) ≠ 0 := by positivity
  obtain ⟨c, hc⟩ : ∃ c, c = cis (-((k : ℝ) / (m + 1 : ℕ))) := ⟨_, rfl⟩
  have hp : ∀ n : ℕ, cis (-((((k : ℕ) : ℤ) : ℝ) * n / (m + 1 : ℕ))) = c ^ n := by
    intro n
    rw [hc, ← cis_nat_mul]
    congr 1
    push_cast
    ring
  have h1 : c ^ (m + 1) = 1 := by
    rw [← hp, mul_div_assoc, div_self hNR, mul_one]
    have := cis_int (-(k : ℤ))
    push_cast at this ⊢
    exact this
  unfold dft
  simp only [hp, ← hc, Nat.add_sub_cancel]
  have e1 : ∑ n ∈ range (m + 1), (bdiff e n : ℂ) * c ^ n = ∑ n ∈ range (m + 1), (e n : ℂ) * c ^ n - ∑ n ∈ range (m + 1), (delayed e n : ℂ) * c ^ n := by
    rw [← sum_sub_distrib]
    refine sum_congr rfl fun n _ => ?_
    unfold bdiff
    push_cast
    ring
  have e2 : ∑ n ∈ range (m + 1), (delayed e n : ℂ) * c ^ n = c * ∑ n ∈ range m, (e n : ℂ) * c ^ n := by
    rw [sum_range_succ', mul_sum]
    simp only [delayed, Complex.ofReal_zero, zero_mul, add_zero]
    exact sum_congr rfl fun n _ => by ring
  rw [e1, e2, sum_range_succ _ m]
  linear_combination (e m : ℂ) * h1

theorem bdiff_bound (q : ℕ → ℝ) (N : ℕ) (Δ : ℝ) (hq : ∀ n < N, -Δ ≤ q n ∧ q n ≤ 0) (L : ℕ) : ∀ n < N, |bdiff^[L + 1] q n| ≤ 2 ^ L * Δ := by
  induction L with
  | zero =>
    intro n hn
    have h1 := hq n hn
    rw [zero_add, Function.iterate_one]
    unfold bdiff
    rw [pow_zero, one_mul, abs_le]
    cases n with
    | zero =>
      simp only [delayed]
      constructor <;> linarith
    | succ n =>
      have h2 := hq n (by omega)
      simp only [delayed]
      constructor <;> linarith
  | succ L ih =>
    intro n hn
    rw [Function.iterate_succ_apply']
    have h1 := ih n hn
    generalize bdiff^[L + 1] q = p at *
    have hd : |delayed p n| ≤ 2 ^ L * Δ := by
      cases n with
      | zero =>
        simp only [delayed, abs_zero]
        exact (abs_nonneg _).trans h1
      | succ n => exact ih n (by omega)
    unfold bdiff
    rw [pow_succ]
    refine (abs_sub _ _).trans ?_
    linarith

/-- In-band spectrum of the shaped error: the error's own, reduced, plus the start of the record. -/
theorem dft_shaped (q : ℕ → ℝ) (N : ℕ) (hN : 0 < N) (Δ : ℝ) (hq : ∀ n < N, -Δ ≤ q n ∧ q n ≤ 0) (k : ℕ) (γ : ℝ)
    (hγ : ‖1 - cis (-((k : ℝ) / N))‖ ≤ γ) (hγ1 : γ ≤ 1) (L : ℕ) :
    ‖dft N (fun n => (bdiff^[L + 1] q n : ℂ)) k‖ ≤ γ ^ (L + 1) * ‖dft N (fun n => (q n : ℂ)) k‖ + 2 ^ L * Δ := by
  have hγ0 : 0 ≤ γ := (norm_nonneg _).trans hγ
  have hΔ : 0 ≤ Δ := by have := hq 0 hN; linarith
  have step : ∀ (p : ℕ → ℝ) (B : ℝ), |p (N - 1)| ≤ B → ‖dft N (fun n => (bdiff p n : ℂ)) k‖ ≤ γ * ‖dft N (fun n => (p n : ℂ)) k‖ + B := by
    intro p B hB
    rw [dft_bdiff N hN p k]
    refine (norm_add_le _ _).trans ?_
    rw [norm_mul, Complex.norm_real, Real.norm_eq_abs]
    exact add_le_add (mul_le_mul_of_nonneg_right hγ (norm_nonneg _)) hB
  induction L with
  | zero =>
    rw [zero_add, Function.iterate_one, pow_one, pow_zero, one_mul]
    apply step
    have := hq (N - 1) (by omega)
    rw [abs_le]
    constructor <;> linarith
  | succ L ih =>
    rw [Function.iterate_succ_apply']
    refine (step _ _ (bdiff_bound q N Δ hq L (N - 1) (by omega))).trans ?_
    have h1 := mul_le_mul_of_nonneg_left ih hγ0
    have h2 : γ * (2 ^ L * Δ) ≤ 2 ^ L * Δ := mul_le_of_le_one_left (by positivity) hγ1
    rw [pow_succ γ (L + 1), pow_succ (2 : ℝ) L]
    nlinarith

theorem norm_one_sub_cis (y : ℝ) : ‖1 - cis (-y)‖ = 2 * |Real.sin (Real.pi * y)| := by
  rw [one_sub_cis, norm_mul, norm_cis, one_mul, norm_mul, norm_mul, Complex.norm_I, Complex.norm_real, Real.norm_eq_abs]
  norm_num

/-- In-band power of a shaped error: `q` within `[-Δ, 0]`, differenced `L + 1` times, up to a band edge of at most `1 / (2π)`. -/
theorem bandPower_shaped (q : ℕ → ℝ) (N M : ℕ) (hN : 0 < N) (hM : 2 * M ≤ N) (Δ G : ℝ) (hq : ∀ n < N, -Δ ≤ q n ∧ q n ≤ 0) (hG : 2 * Real.pi * M / N = G)
    (hG1 : G ≤ 1) (L : ℕ) : Real.sqrt (bandPower N M (bdiff^[L + 1] q)) ≤ G ^ (L + 1) * (Δ / 2) + Real.sqrt (2 * M) / N * (2 ^ L * Δ) := by
  have hNR : (0 : ℝ) < N := by exact_mod_cast hN
  have hΔ : 0 ≤ Δ := by have := hq 0 hN; linarith
  have hG0 : 0 ≤ G := by rw [← hG]; positivity
  have hdft : ∀ k ∈ Icc 1 M, ‖dft N (fun n => (bdiff^[L + 1] q n : ℂ)) k‖ ≤ G ^ (L + 1) * ‖dft N (fun n => (q n : ℂ)) k‖ + 2 ^ L * Δ := by
    intro k hk
    rw [mem_Icc] at hk
    apply dft_shaped q N hN Δ hq k G _ hG1
    rw [norm_one_sub_cis]
    have h1 : |Real.sin (Real.pi * ((k : ℝ) / N))| ≤ Real.pi * ((k : ℝ) / N) := by
      have := Real.abs_sin_le_abs (x := Real.pi * ((k : ℝ) / N))
      rwa [abs_of_nonneg (by positivity : 0 ≤ Real.pi * ((k : ℝ) / N))] at this
    have h2 : (k : ℝ) / N ≤ M / N := div_le_div_of_nonneg_right (by exact_mod_cast hk.2) hNR.le
    have h3 := mul_le_mul_of_nonneg_left h2 Real.pi_pos.le
    have e : G = 2 * (Real.pi * (M / N)) := by rw [← hG]; ring
    linarith
  have htri := l2_triangle (Icc 1 M) (fun k => Real.sqrt (lineCount N k) / N * ‖dft N (fun n => (bdiff^[L + 1] q n : ℂ)) k‖)
    (fun k => G ^ (L + 1) * (Real.sqrt (lineCount N k) / N * ‖dft N (fun n => (q n : ℂ)) k‖)) (fun k => Real.sqrt (lineCount N k) / N * (2 ^ L * Δ))
    (fun k _ => by positivity) (fun k _ => by positivity) (fun k _ => by positivity) (fun k hk => by
      have := mul_le_mul_of_nonneg_left (hdft k hk) (by positivity : 0 ≤ Real.sqrt (lineCount N k) / N)
      linarith)
  have e1 : ∀ e : ℕ → ℝ, ∑ k ∈ Icc 1 M, (Real.sqrt (lineCount N k) / N * ‖dft N (fun n => (e n : ℂ)) k‖) ^ 2 = bandPower N M e := by
    intro e
    rw [bandPower_eq]
    refine sum_congr rfl fun k _ => ?_
    rw [mul_pow, div_pow, Real.sq_sqrt (lineCount_pos N k).le]
    ring
  have e2 : ∑ k ∈ Icc 1 M, (G ^ (L + 1) * (Real.sqrt (lineCount N k) / N * ‖dft N (fun n => (q n : ℂ)) k‖)) ^ 2 = (G ^ (L + 1)) ^ 2 * bandPower N M q := by
    rw [← e1 q, mul_sum]
    exact sum_congr rfl fun k _ => by ring
  have e3 : ∑ k ∈ Icc 1 M, (Real.sqrt (lineCount N k) / N * (2 ^ L * Δ)) ^ 2 ≤ 2 * M * ((2 ^ L * Δ) / N) ^ 2 := by
    have : ∀ k ∈ Icc 1 M, (Real.sqrt (lineCount N k) / N * (2 ^ L * Δ)) ^ 2 ≤ 2 * ((2 ^ L * Δ) / N) ^ 2 := by
      intro k _
      rw [mul_pow, div_pow, Real.sq_sqrt (lineCount_pos N k).le, div_pow, div_mul_eq_mul_div, ← mul_div_assoc]
      apply div_le_div_of_nonneg_right _ (by positivity)
      exact mul_le_mul_of_nonneg_right (lineCount_le N k) (by positivity)
    refine (sum_le_sum this).trans (le_of_eq ?_)
    rw [sum_const, Nat.card_Icc, nsmul_eq_mul, Nat.add_sub_cancel]
    ring
  rw [e1, e2] at htri
  refine htri.trans (add_le_add ?_ ?_)
  · rw [Real.sqrt_mul (sq_nonneg _), Real.sqrt_sq (by positivity)]
    apply mul_le_mul_of_nonneg_left _ (by positivity)
    rw [Real.sqrt_le_left (by positivity)]
    apply bandPower_le N M hM q (-(Δ / 2))
    intro n hn
    have := hq n hn
    rw [abs_le]
    constructor <;> linarith
  · refine (Real.sqrt_le_sqrt e3).trans (le_of_eq ?_)
    rw [Real.sqrt_mul (by positivity), Real.sqrt_sq (by positivity)]
    ring

end Verif
