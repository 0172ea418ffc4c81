import Mathlib.Analysis.SpecialFunctions.Complex.Log
import Mathlib.Analysis.SpecialFunctions.Trigonometric.Basic
import Mathlib.Algebra.BigOperators.Intervals
import Mathlib.Algebra.BigOperators.Field
import Mathlib.Algebra.Field.GeomSum
import Mathlib.Data.Int.CardIntervalMod

/-!
# Finite Fourier transform

`numpy.fft.fft/ifft/rfft/irfft` by their defining sums over ℂ.
-/

namespace Verif

open Finset

/-- `exp(2πi t)`, phase in cycles. -/
noncomputable def cis (t : ℝ) : ℂ := Complex.exp (2 * Real.pi * t * Complex.I)

theorem cis_zero : cis 0 = 1 := by simp [cis]

theorem cis_add (s t : ℝ) : cis (s + t) = cis s * cis t := by
  unfold cis; rw [← Complex.exp_add]; congr 1; push_cast; ring

theorem cis_neg_mul (t : ℝ) : cis (-t) * cis t = 1 := by rw [← cis_add]; simp [cis_zero]

theorem cis_sub (s t : ℝ) : cis (s - t) = cis s * cis (-t) := by rw [sub_eq_add_neg, cis_add]

theorem cis_ne_zero (t : ℝ) : cis t ≠ 0 := Complex.exp_ne_zero _

theorem cis_int (k : ℤ) : cis k = 1 := by
  unfold cis
  rw [Complex.exp_eq_one_iff]
  exact ⟨k, by push_cast; ring⟩

theorem cis_add_int (t : ℝ) (k : ℤ) : cis (t + k) = cis t := by rw [cis_add, cis_int, mul_one]

theorem cis_nat_mul (n : ℕ) (t : ℝ) : cis (n * t) = cis t ^ n := by
  induction n with
  | zero => simp [cis_zero]
  | succ n ih => rw [pow_succ, ← ih, ← cis_add]; congr 1; push_cast; ring

theorem norm_cis (t : ℝ) : ‖cis t‖ = 1 := by
  unfold cis
  rw [show (2 * (Real.pi : ℂ) * t * Complex.I) = ((2 * Real.pi * t : ℝ) : ℂ) * Complex.I by push_cast; ring]
  exact Complex.norm_exp_ofReal_mul_I _

theorem conj_cis (t : ℝ) : (starRingEnd ℂ) (cis t) = cis (-t) := by
  unfold cis
  rw [← Complex.exp_conj]; congr 1
  rw [map_mul, map_mul, map_mul, Complex.conj_I, Complex.conj_ofReal, Complex.conj_ofReal, Complex.conj_ofNat]
  push_cast; ring

theorem cis_re (t : ℝ) : (cis t).re = Real.cos (2 * Real.pi * t) := by
  unfold cis
  rw [show (2 * (Real.pi : ℂ) * t * Complex.I) = ((2 * Real.pi * t : ℝ) : ℂ) * Complex.I by push_cast; ring]
  rw [Complex.exp_ofReal_mul_I_re]

theorem cis_im (t : ℝ) : (cis t).im = Real.sin (2 * Real.pi * t) := by
  unfold cis
  rw [show (2 * (Real.pi : ℂ) * t * Complex.I) = ((2 * Real.pi * t : ℝ) : ℂ) * Complex.I by push_cast; ring]
  rw [Complex.exp_ofReal_mul_I_im]

/-- A real cosine as two complex exponentials. -/
theorem cos_cis (A φ t : ℝ) : ((A * Real.cos (2 * Real.pi * t + φ) : ℝ) : ℂ)
    = A / 2 * Complex.exp (φ * Complex.I) * cis t + A / 2 * Complex.exp (-(φ * Complex.I)) * cis (-t) := by
  have h1 : Complex.exp (φ * Complex.I) * cis t = Complex.exp ((2 * Real.pi * t + φ) * Complex.I) := by
    unfold cis; rw [← Complex.exp_add]; congr 1; ring
  have h2 : Complex.exp (-(φ * Complex.I)) * cis (-t) = Complex.exp (-(2 * Real.pi * t + φ) * Complex.I) := by
    unfold cis; rw [← Complex.exp_add]; congr 1; push_cast; ring
  rw [mul_assoc _ (Complex.exp _) _, mul_assoc _ (Complex.exp _) _, h1, h2, Complex.ofReal_mul, Complex.ofReal_cos, Complex.cos]
  push_cast
  ring

theorem cis_eq_one_iff (t : ℝ) : cis t = 1 ↔ ∃ k : ℤ, t = k := by
  constructor
  · intro h
    unfold cis at h
    rw [Complex.exp_eq_one_iff] at h
    obtain ⟨k, hk⟩ := h
    refine ⟨k, ?_⟩
    have h2 : (2 * (Real.pi : ℂ) * Complex.I) ≠ 0 := Complex.two_pi_I_ne_zero
    have : (t : ℂ) = (k : ℂ) := by
      apply mul_right_cancel₀ h2
      linear_combination hk
    exact_mod_cast this
  · rintro ⟨k, rfl⟩; exact cis_int k

/-- Orthogonality of the complex exponentials. -/
theorem sum_cis (N : ℕ) (hN : N ≠ 0) (a : ℤ) :
    ∑ n ∈ range N, cis (a * n / N) = if (N : ℤ) ∣ a then (N : ℂ) else 0 := by
  have hNR : (N : ℝ) ≠ 0 := by exact_mod_cast hN
  have hpow : ∀ n : ℕ, cis (a * n / N) = cis (a / N) ^ n := by
    intro n; rw [← cis_nat_mul]; congr 1; ring
  simp only [hpow]
  split_ifs with h
  · obtain ⟨c, rfl⟩ := h
    have : cis (((N * c : ℤ) : ℝ) / N) = 1 := by
      rw [show (((N * c : ℤ) : ℝ) / N) = (c : ℝ) by push_cast; field_simp]
      exact cis_int c
    simp only [this, one_pow, sum_const, card_range, nsmul_eq_mul, mul_one]
  · have hne : cis (a / N) ≠ 1 := by
      intro h1
      rw [cis_eq_one_iff] at h1
      obtain ⟨k, hk⟩ := h1
      apply h
      refine ⟨k, ?_⟩
      have : (a : ℝ) = N * k := by rw [← hk]; field_simp
      exact_mod_cast this
    rw [geom_sum_eq hne, ← hpow, show (a * N / N : ℝ) = (a : ℝ) by field_simp, cis_int]
    simp

/-- `numpy.fft.fft(x)[k]` for a length-`N` vector (any integer `k`; the transform is periodic). -/
noncomputable def dft (N : ℕ) (x : ℕ → ℂ) (k : ℤ) : ℂ := ∑ n ∈ range N, x n * cis (-(k * n / N))

/-- `numpy.fft.ifft(X)[n]`. -/
noncomputable def idft (N : ℕ) (X : ℕ → ℂ) (n : ℤ) : ℂ := (∑ k ∈ range N, X k * cis (k * n / N)) / N

theorem dft_periodic (N : ℕ) (hN : N ≠ 0) (x : ℕ → ℂ) (k : ℤ) (c : ℤ) : dft N x (k + c * N) = dft N x k := by
  unfold dft
  apply sum_congr rfl
  intro n _
  have hNR : (N : ℝ) ≠ 0 := by exact_mod_cast hN
  congr 1
  rw [show (-(((k + c * N : ℤ) : ℝ) * n / N) : ℝ) = -(k * n / N) + ((-(c * n) : ℤ) : ℝ) by
    push_cast; field_simp; ring]
  exact cis_add_int _ _

theorem dft_congr (N : ℕ) (x y : ℕ → ℂ) (k : ℤ) (h : ∀ n < N, x n = y n) : dft N x k = dft N y k := by
  unfold dft
  apply sum_congr rfl
  intro n hn
  rw [h n (mem_range.mp hn)]

/-- Fourier inversion. -/
theorem idft_dft (N : ℕ) (hN : N ≠ 0) (x : ℕ → ℂ) (n : ℕ) (hn : n < N) :
    idft N (fun k => dft N x k) n = x n := by
  have hNC : (N : ℂ) ≠ 0 := by exact_mod_cast hN
  have hNR : (N : ℝ) ≠ 0 := by exact_mod_cast hN
  unfold idft dft
  rw [div_eq_iff hNC]
  simp only [sum_mul]
  rw [sum_comm]
  have hinner : ∀ m ∈ range N, ∑ k ∈ range N, x m * cis (-(((k : ℤ) : ℝ) * m / N)) * cis (k * ((n : ℤ) : ℝ) / N)
      = if m = n then x m * N else 0 := by
    intro m hm
    rw [mem_range] at hm
    have : ∀ k ∈ range N, x m * cis (-(((k : ℤ) : ℝ) * m / N)) * cis (k * ((n : ℤ) : ℝ) / N)
        = x m * cis (((n : ℤ) - (m : ℤ) : ℤ) * k / N) := by
      intro k _
      rw [mul_assoc, ← cis_add]; congr 2; push_cast; ring
    rw [sum_congr rfl this, ← mul_sum, sum_cis N hN]
    by_cases hmn : m = n
    · subst hmn; simp
    · rw [if_neg hmn, if_neg, mul_zero]
      intro hd
      obtain ⟨c, hc⟩ := hd
      have h1 : (n : ℤ) - m < N := by omega
      have h2 : -(N : ℤ) < (n : ℤ) - m := by omega
      rw [hc] at h1 h2
      have hc0 : c = 0 := by
        have hNpos : (0 : ℤ) < N := by omega
        have : c < 1 := by nlinarith
        have : -1 < c := by nlinarith
        omega
      rw [hc0] at hc
      omega
  rw [sum_congr rfl hinner, sum_ite_eq', if_pos (mem_range.mpr hn)]

/-- Parseval's identity. -/
theorem parseval (N : ℕ) (hN : N ≠ 0) (x : ℕ → ℂ) :
    ∑ k ∈ range N, ‖dft N x k‖ ^ 2 = N * ∑ n ∈ range N, ‖x n‖ ^ 2 := by
  have hNC : (N : ℂ) ≠ 0 := by exact_mod_cast hN
  have hkey : ∑ k ∈ range N, dft N x k * (starRingEnd ℂ) (dft N x k)
      = N * ∑ n ∈ range N, x n * (starRingEnd ℂ) (x n) := by
    have h1 : ∀ k ∈ range N, dft N x k * (starRingEnd ℂ) (dft N x k)
        = ∑ n ∈ range N, (starRingEnd ℂ) (x n) * (dft N x k * cis (k * ((n : ℤ) : ℝ) / N)) := by
      intro k _
      conv_lhs => rw [show (starRingEnd ℂ) (dft N x k) = ∑ n ∈ range N, (starRingEnd ℂ) (x n) * cis (k * ((n : ℤ) : ℝ) / N) by
        unfold dft
        rw [map_sum]
        apply sum_congr rfl
        intro n _
        rw [map_mul, conj_cis]; congr 2; push_cast; ring]
      rw [mul_sum]
      apply sum_congr rfl
      intro n _; ring
    rw [sum_congr rfl h1, sum_comm, mul_sum]
    apply sum_congr rfl
    intro n hn
    rw [← mul_sum]
    have := idft_dft N hN x n (mem_range.mp hn)
    unfold idft at this
    rw [div_eq_iff hNC] at this
    rw [this]; ring
  have hcast : ((∑ k ∈ range N, ‖dft N x k‖ ^ 2 : ℝ) : ℂ) = ((N * ∑ n ∈ range N, ‖x n‖ ^ 2 : ℝ) : ℂ) := by
    push_cast
    simp only [← Complex.mul_conj']
    exact hkey
  exact_mod_cast hcast

/-- Conjugate symmetry of the spectrum of a real record. -/
theorem dft_conj (N : ℕ) (x : ℕ → ℝ) (k : ℤ) :
    (starRingEnd ℂ) (dft N (fun n => (x n : ℂ)) k) = dft N (fun n => (x n : ℂ)) (-k) := by
  unfold dft
  rw [map_sum]
  apply sum_congr rfl
  intro n _
  rw [map_mul, conj_cis, Complex.conj_ofReal]
  congr 2; push_cast; ring

/-- Inversion the other way round. -/
theorem dft_idft (N : ℕ) (hN : N ≠ 0) (X : ℕ → ℂ) (k : ℕ) (hk : k < N) :
    dft N (fun n => idft N X n) k = X k := by
  -- idft X n = (1/N) dft X (-n); apply inversion to the reflected transform
  have hNC : (N : ℂ) ≠ 0 := by exact_mod_cast hN
  have h := idft_dft N hN X k hk
  have hrefl : ∀ n : ℕ, idft N X n = dft N X (-(n : ℤ)) / N := by
    intro n
    unfold idft dft
    congr 1
    apply sum_congr rfl
    intro j _
    congr 2; push_cast; ring
  have h2 : dft N (fun n => idft N X n) k = (∑ n ∈ range N, dft N X (-(n : ℤ)) * cis (-((k : ℤ) * n / N))) / N := by
    have h3 : dft N (fun n => idft N X n) k = ∑ n ∈ range N, idft N X n * cis (-((k : ℤ) * n / N)) := rfl
    rw [h3, sum_div]
    apply sum_congr rfl
    intro n _
    rw [hrefl]; ring
  rw [h2, ← h]
  show _ = (∑ j ∈ range N, dft N X j * cis (j * ((k : ℤ) : ℝ) / N)) / N
  congr 1
  -- reindex n ↦ N - n (mod N)
  have hNR : (N : ℝ) ≠ 0 := by exact_mod_cast hN
  obtain ⟨m, rfl⟩ : ∃ m, N = m + 1 := ⟨N - 1, by omega⟩
  rw [sum_range_succ', sum_range_succ' (fun j : ℕ => dft (m + 1) X j * cis (j * ((k : ℤ) : ℝ) / (m + 1 : ℕ)))]
  congr 1
  · rw [← sum_range_reflect]
    apply sum_congr rfl
    intro j hj
    rw [mem_range] at hj
    have e1 : (-((m - 1 - j + 1 : ℕ) : ℤ)) = ((j + 1 : ℕ) : ℤ) + (-1) * ((m + 1 : ℕ) : ℤ) := by omega
    have e2 : ((m - 1 - j + 1 : ℕ) : ℝ) = ((m + 1 : ℕ) : ℝ) - ((j + 1 : ℕ) : ℝ) := by
      rw [eq_sub_iff_add_eq]
      exact_mod_cast (by omega : m - 1 - j + 1 + (j + 1) = m + 1)
    rw [e1, dft_periodic _ hN, e2]
    congr 1
    rw [show (-(((k : ℤ) : ℝ) * (((m + 1 : ℕ) : ℝ) - ((j + 1 : ℕ) : ℝ)) / ((m + 1 : ℕ) : ℝ)) : ℝ)
        = ((j + 1 : ℕ) : ℝ) * ((k : ℤ) : ℝ) / ((m + 1 : ℕ) : ℝ) + ((-(k : ℤ) : ℤ) : ℝ) by
      push_cast at hNR ⊢; field_simp; ring]
    exact cis_add_int _ _
  · simp

/-- Folding a full-length sum onto the first half, odd length. -/
theorem sum_fold_odd {M : Type} [AddCommMonoid M] (h : ℕ) (f : ℕ → M) :
    ∑ k ∈ range (2 * h + 1), f k = f 0 + ∑ k ∈ range h, (f (k + 1) + f (2 * h - k)) := by
  rw [sum_range_succ', add_comm, sum_add_distrib, show 2 * h = h + h by ring]
  rw [show range (h + h) = range (h + h) from rfl, Finset.sum_range_add]
  congr 2
  rw [← sum_range_reflect]
  apply sum_congr rfl
  intro k hk
  rw [mem_range] at hk
  congr 1; omega

/-- Folding a full-length sum onto the first half, even length. -/
theorem sum_fold_even {M : Type} [AddCommMonoid M] (h : ℕ) (f : ℕ → M) :
    ∑ k ∈ range (2 * h + 2), f k = f 0 + ∑ k ∈ range h, (f (k + 1) + f (2 * h + 1 - k)) + f (h + 1) := by
  rw [sum_range_succ', add_comm, sum_add_distrib, show 2 * h + 1 = (h + 1) + h by ring]
  rw [Finset.sum_range_add, sum_range_succ]
  have : ∑ x ∈ range h, f (h + 1 + x + 1) = ∑ x ∈ range h, f (h + 1 + h - x) := by
    rw [← sum_range_reflect]
    apply sum_congr rfl
    intro k hk
    rw [mem_range] at hk
    congr 1; omega
  rw [this]
  abel

/-- `numpy.fft.irfft(X, n=N)[n]`: inverse transform of a half spectrum; the imaginary parts of the DC bin and (for even
`N`) of the Nyquist bin are ignored. -/
noncomputable def irfft (N : ℕ) (X : ℕ → ℂ) (n : ℕ) : ℝ :=
  ((X 0).re + ∑ k ∈ range ((N - 1) / 2), 2 * (X (k + 1) * cis ((k + 1) * n / N)).re
    + (if N % 2 = 0 then (X (N / 2)).re * (-1) ^ n else 0)) / N

/-- The Hermitian full spectrum that `irfft` inverts. -/
noncomputable def hermitian (N : ℕ) (X : ℕ → ℂ) (k : ℕ) : ℂ :=
  if k = 0 then ((X 0).re : ℂ)
  else if 2 * k = N then ((X k).re : ℂ)
  else if 2 * k < N then X k
  else (starRingEnd ℂ) (X (N - k))

theorem cis_half_nat (n : ℕ) : cis ((n : ℝ) / 2) = (-1) ^ n := by
  rw [show ((n : ℝ) / 2) = n * (1 / 2) by ring, cis_nat_mul]
  congr 1
  unfold cis
  rw [show (2 * (Real.pi : ℂ) * ((1 / 2 : ℝ) : ℂ) * Complex.I) = Real.pi * Complex.I by push_cast; ring]
  exact Complex.exp_pi_mul_I

/-- `irfft` is the ordinary inverse transform of the Hermitian extension. -/
theorem irfft_eq_idft (N : ℕ) (hN : N ≠ 0) (X : ℕ → ℂ) (n : ℕ) :
    ((irfft N X n : ℝ) : ℂ) = idft N (hermitian N X) n := by
  have hNC : (N : ℂ) ≠ 0 := by exact_mod_cast hN
  have hNR : (N : ℝ) ≠ 0 := by exact_mod_cast hN
  have pair : ∀ k : ℕ, 0 < k → 2 * k < N →
      hermitian N X k * cis (k * ((n : ℤ) : ℝ) / N) + hermitian N X (N - k) * cis (((N - k : ℕ) : ℝ) * ((n : ℤ) : ℝ) / N)
        = ((2 * (X k * cis (k * n / N)).re : ℝ) : ℂ) := by
    intro k hk0 hk
    have e1 : hermitian N X k = X k := by
      unfold hermitian; rw [if_neg (by omega), if_neg (by omega), if_pos hk]
    have e2 : hermitian N X (N - k) = (starRingEnd ℂ) (X k) := by
      unfold hermitian
      rw [if_neg (by omega), if_neg (by omega), if_neg (by omega), show N - (N - k) = k by omega]
    have e3 : cis (((N - k : ℕ) : ℝ) * ((n : ℤ) : ℝ) / N) = (starRingEnd ℂ) (cis (k * n / N)) := by
      rw [conj_cis, Nat.cast_sub (by omega)]
      rw [show (((N : ℝ) - k) * ((n : ℤ) : ℝ) / N) = -(k * n / N) + ((n : ℤ) : ℝ) by
        push_cast; field_simp; ring]
      exact cis_add_int _ _
    rw [e1, e2, e3, ← map_mul, Complex.ofReal_mul, show ((n : ℤ) : ℝ) = (n : ℝ) by push_cast; rfl,
      Complex.add_conj]
    push_cast; rfl
  have hdc : hermitian N X 0 = ((X 0).re : ℂ) := by unfold hermitian; rw [if_pos rfl]
  unfold irfft idft
  push_cast
  congr 1
  rcases Nat.even_or_odd' N with ⟨h, hh | hh⟩
  · obtain ⟨m, rfl⟩ : ∃ m, h = m + 1 := ⟨h - 1, by omega⟩
    have hN' : N = 2 * m + 2 := by omega
    have hhalf : (N - 1) / 2 = m := by omega
    rw [if_pos (by omega), hhalf]
    conv_rhs => rw [show range N = range (2 * m + 2) by rw [hN'], sum_fold_even]
    congr 1
    · congr 1
      · rw [hdc]; simp [cis_zero]
      · push_cast
        apply sum_congr rfl
        intro k hk
        rw [mem_range] at hk
        have := pair (k + 1) (by omega) (by omega)
        rw [show N - (k + 1) = 2 * m + 1 - k by omega] at this
        push_cast at this
        rw [this]
    · have e1 : hermitian N X (m + 1) = ((X (m + 1)).re : ℂ) := by
        unfold hermitian; rw [if_neg (by omega), if_pos (by omega)]
      rw [e1, show N / 2 = m + 1 by omega]
      push_cast
      congr 1
      rw [← cis_half_nat]
      congr 1
      have : (N : ℝ) = 2 * ((m : ℝ) + 1) := by rw [hN']; push_cast; ring
      rw [this]
      have : ((m : ℝ) + 1) ≠ 0 := by positivity
      field_simp
  · have hhalf : (N - 1) / 2 = h := by omega
    rw [if_neg (by omega), hhalf]
    conv_rhs => rw [show range N = range (2 * h + 1) by rw [hh], sum_fold_odd]
    push_cast
    rw [add_zero]
    congr 1
    · rw [hdc]; simp [cis_zero]
    · apply sum_congr rfl
      intro k hk
      rw [mem_range] at hk
      have := pair (k + 1) (by omega) (by omega)
      rw [show N - (k + 1) = 2 * h - k by omega] at this
      push_cast at this
      rw [this]

end Verif
