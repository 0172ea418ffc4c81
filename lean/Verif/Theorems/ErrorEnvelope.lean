import Verif.Model.ErrorEnvelope
import Verif.Theorems.SineFit
import Verif.Theorems.Prepare
import Verif.Theorems.SpectrumEngine

/-!
# C83: error spectrum and error envelope spectrum
-/

namespace Verif

open Model Spec Finset

/-! ### The analytic signal -/

theorem hilbertMult_mirror (N k : ℕ) (h0 : 0 < k) (hk : k < N) : hilbertMult N k + hilbertMult N (N - k) = 2 := by
  unfold hilbertMult
  by_cases h1 : 2 * k = N
  · rw [if_pos (Or.inr h1), if_pos (Or.inr (by omega))]; norm_num
  · rw [if_neg (show ¬ (k = 0 ∨ 2 * k = N) by omega), if_neg (show ¬ (N - k = 0 ∨ 2 * (N - k) = N) by omega)]
    by_cases h2 : 2 * k < N
    · rw [if_pos h2, if_neg (by omega)]; norm_num
    · rw [if_neg h2, if_pos (by omega)]; norm_num

private theorem conj_mult (N k : ℕ) : (starRingEnd ℂ) (hilbertMult N k) = hilbertMult N k := by
  unfold hilbertMult
  split_ifs
  · exact map_one _
  · exact Complex.conj_ofNat 2
  · exact map_zero _

private theorem idft_congr (N : ℕ) (X Y : ℕ → ℂ) (n : ℤ) (h : ∀ k < N, X k = Y k) : idft N X n = idft N Y n := by
  unfold idft
  congr 1
  apply sum_congr rfl
  intro k hk
  rw [h k (mem_range.mp hk)]

/-- The analytic signal plus its conjugate is twice the record. -/
private theorem hilbert_add_conj (N : ℕ) (x : ℕ → ℝ) (n : ℕ) (hn : n < N) :
    hilbert N (fun t => (x t : ℂ)) n + (starRingEnd ℂ) (hilbert N (fun t => (x t : ℂ)) n) = 2 * (x n : ℂ) := by
  have hN : N ≠ 0 := by omega
  have hNC : (N : ℂ) ≠ 0 := by exact_mod_cast hN
  have hNR : (N : ℝ) ≠ 0 := by exact_mod_cast hN
  have hinv := idft_dft N hN (fun t => (x t : ℂ)) n hn
  set X := fun k : ℤ => dft N (fun t => (x t : ℂ)) k with hX
  -- the conjugate, reindexed
  have hper : ∀ k : ℕ, k ≤ N → X (-(k : ℤ)) = X ((N - k : ℕ) : ℤ) := by
    intro k hk
    have := dft_periodic N hN (fun t => (x t : ℂ)) (-(k : ℤ)) 1
    rw [hX]
    simp only
    rw [← this]
    congr 1
    push_cast [Nat.cast_sub hk]
    ring
  have hcis : ∀ k : ℕ, k ≤ N → cis (-(k * ((n : ℤ) : ℝ) / N)) = cis (((N - k : ℕ) : ℝ) * ((n : ℤ) : ℝ) / N) := by
    intro k hk
    rw [Nat.cast_sub hk, show (((N : ℝ) - k) * ((n : ℤ) : ℝ) / N) = -(k * ((n : ℤ) : ℝ) / N) + ((n : ℤ) : ℝ) by field_simp; ring]
    exact (cis_add_int _ _).symm
  have hconj : ∀ k : ℕ, k ≤ N → (starRingEnd ℂ) (X k * hilbertMult N k * cis (k * ((n : ℤ) : ℝ) / N))
      = X ((N - k : ℕ) : ℤ) * hilbertMult N k * cis (((N - k : ℕ) : ℝ) * ((n : ℤ) : ℝ) / N) := by
    intro k hk
    rw [map_mul, map_mul, conj_mult, conj_cis, hcis k hk]
    have := dft_conj N x k
    rw [show (starRingEnd ℂ) (X k) = X (-(k : ℤ)) from this, hper k hk]
  unfold hilbert idft at *
  rw [div_eq_iff hNC] at hinv
  rw [map_div₀, map_sum, map_natCast, ← add_div, div_eq_iff hNC, mul_assoc, ← hinv]
  obtain ⟨m, rfl⟩ : ∃ m, N = m + 1 := ⟨N - 1, by omega⟩
  rw [sum_range_succ', sum_range_succ', sum_range_succ' (fun k => dft (m + 1) (fun t => (x t : ℂ)) k * cis (k * ((n : ℤ) : ℝ) / (m + 1 : ℕ)))]
  have h0 : hilbertMult (m + 1) 0 = 1 := by unfold hilbertMult; rw [if_pos (Or.inl rfl)]
  have hz := hconj 0 (by omega)
  have hX0 : X ((m + 1 - 0 : ℕ) : ℤ) = X 0 := by
    have := hper 0 (by omega)
    rw [← this]; simp
  have hc0 : cis (((m + 1 - 0 : ℕ) : ℝ) * ((n : ℤ) : ℝ) / ((m + 1 : ℕ) : ℝ)) = 1 := by
    have := hcis 0 (by omega)
    rw [← this]; simp [cis_zero]
  rw [hX0, hc0, h0] at hz
  have hrefl : ∑ k ∈ range m, (starRingEnd ℂ) (X ((k + 1 : ℕ) : ℤ) * hilbertMult (m + 1) (k + 1) * cis (((k + 1 : ℕ) : ℝ) * ((n : ℤ) : ℝ) / ((m + 1 : ℕ) : ℝ)))
      = ∑ k ∈ range m, X ((k + 1 : ℕ) : ℤ) * hilbertMult (m + 1) (m + 1 - (k + 1)) * cis (((k + 1 : ℕ) : ℝ) * ((n : ℤ) : ℝ) / ((m + 1 : ℕ) : ℝ)) := by
    rw [← sum_range_reflect]
    apply sum_congr rfl
    intro k hk
    rw [mem_range] at hk
    rw [hconj _ (by omega)]
    rw [show m + 1 - (m - 1 - k + 1) = k + 1 by omega, show m + 1 - (k + 1) = m - 1 - k + 1 by omega]
  have hsum : ∑ k ∈ range m, X ((k + 1 : ℕ) : ℤ) * hilbertMult (m + 1) (k + 1) * cis (((k + 1 : ℕ) : ℝ) * ((n : ℤ) : ℝ) / ((m + 1 : ℕ) : ℝ))
      + ∑ k ∈ range m, X ((k + 1 : ℕ) : ℤ) * hilbertMult (m + 1) (m + 1 - (k + 1)) * cis (((k + 1 : ℕ) : ℝ) * ((n : ℤ) : ℝ) / ((m + 1 : ℕ) : ℝ))
      = 2 * ∑ k ∈ range m, X ((k + 1 : ℕ) : ℤ) * cis (((k + 1 : ℕ) : ℝ) * ((n : ℤ) : ℝ) / ((m + 1 : ℕ) : ℝ)) := by
    rw [← sum_add_distrib, mul_sum]
    apply sum_congr rfl
    intro k hk
    rw [mem_range] at hk
    have := hilbertMult_mirror (m + 1) (k + 1) (by omega) (by omega)
    linear_combination (X ((k + 1 : ℕ) : ℤ) * cis (((k + 1 : ℕ) : ℝ) * ((n : ℤ) : ℝ) / ((m + 1 : ℕ) : ℝ))) * this
  have hz' : (starRingEnd ℂ) (X ((0 : ℕ) : ℤ) * hilbertMult (m + 1) 0 * cis (((0 : ℕ) : ℝ) * ((n : ℤ) : ℝ) / ((m + 1 : ℕ) : ℝ))) = X 0 := by
    rw [h0, hz]; ring
  have e1 : (cis (((0 : ℕ) : ℝ) * ((n : ℤ) : ℝ) / ((m + 1 : ℕ) : ℝ))) = 1 := by simp [cis_zero]
  have e2 : X ((0 : ℕ) : ℤ) = X 0 := rfl
  simp only [hX] at hrefl hsum hz' e2 ⊢
  rw [hrefl, hz', h0, e1]
  linear_combination hsum

/-- **C83 (analytic signal).** The real part of the analytic signal is the record, so the envelope is never below the magnitude of the error. -/
theorem C83_envelope_bounds (N : ℕ) (e : ℕ → ℝ) (n : ℕ) (hn : n < N) :
    (hilbert N (fun t => (e t : ℂ)) n).re = e n ∧ |e n| ≤ envelope N e n := by
  have h := hilbert_add_conj N e n hn
  rw [Complex.add_conj] at h
  have hre : (hilbert N (fun t => (e t : ℂ)) n).re = e n := by
    have : (2 * (hilbert N (fun t => (e t : ℂ)) n).re : ℝ) = 2 * e n := by exact_mod_cast h
    linarith
  refine ⟨hre, ?_⟩
  unfold envelope
  conv_lhs => rw [← hre]
  exact Complex.abs_re_le_norm _

/-! ### Which analytic signal -/

private theorem hilbert_cis (N : ℕ) (hN : N ≠ 0) (a : ℤ) (n : ℕ) :
    hilbert N (fun t => cis (a * t / N)) n = hilbertMult N (a % N).toNat * cis (a * n / N) := by
  have hNC : (N : ℂ) ≠ 0 := by exact_mod_cast hN
  have hNR : (N : ℝ) ≠ 0 := by exact_mod_cast hN
  have hNZ : (N : ℤ) ≠ 0 := by exact_mod_cast hN
  have hpos : (0 : ℤ) < N := by omega
  have hm0 := Int.emod_nonneg a hNZ
  have hm1 := Int.emod_lt_of_pos a hpos
  have hdft : ∀ k : ℕ, k < N → dft N (fun t => cis (a * t / N)) k = if k = (a % N).toNat then (N : ℂ) else 0 := by
    intro k hk
    have hs := sum_cis N hN (a - k)
    unfold dft
    have e : ∀ t ∈ range N, cis (a * t / N) * cis (-(((k : ℤ) : ℝ) * t / N)) = cis (((a - k : ℤ) : ℝ) * t / N) := by
      intro t _
      rw [← cis_add]; congr 1; push_cast; ring
    rw [sum_congr rfl e, hs]
    have hiff : (N : ℤ) ∣ a - k ↔ k = (a % N).toNat := by
      constructor
      · intro hd
        have h1 : a % N = (k : ℤ) % N := (Int.emod_eq_emod_iff_emod_sub_eq_zero).mpr (Int.emod_eq_zero_of_dvd hd)
        have h2 : (k : ℤ) % N = k := Int.emod_eq_of_lt (by omega) (by omega)
        omega
      · intro he
        have h1 : (k : ℤ) = a % N := by omega
        rw [h1]
        exact Int.dvd_self_sub_emod
    by_cases hd : (N : ℤ) ∣ a - k
    · rw [if_pos hd, if_pos (hiff.mp hd)]
    · rw [if_neg hd, if_neg fun h => hd (hiff.mpr h)]
  unfold hilbert idft
  rw [div_eq_iff hNC]
  have hterm : ∀ k ∈ range N, dft N (fun t => cis (a * t / N)) k * hilbertMult N k * cis (k * ((n : ℤ) : ℝ) / N)
      = if k = (a % N).toNat then hilbertMult N k * cis (k * ((n : ℤ) : ℝ) / N) * N else 0 := by
    intro k hk
    rw [hdft k (mem_range.mp hk)]
    split_ifs
    · ring
    · ring
  rw [sum_congr rfl hterm, sum_ite_eq', if_pos (mem_range.mpr (by omega))]
  congr 2
  have h1 : (((a % N).toNat : ℕ) : ℝ) = ((a % N : ℤ) : ℝ) := by
    have : (((a % N).toNat : ℕ) : ℤ) = a % N := Int.toNat_of_nonneg hm0
    exact_mod_cast congrArg (Int.cast : ℤ → ℝ) this
  rw [h1]
  have h2 : ((a : ℤ) : ℝ) = ((a % N : ℤ) : ℝ) + N * ((a / N : ℤ) : ℝ) := by
    exact_mod_cast congrArg (Int.cast : ℤ → ℝ) (Int.emod_add_mul_ediv a N).symm
  rw [h2, show ((((a % N : ℤ) : ℝ) + N * ((a / N : ℤ) : ℝ)) * n / N) = ((a % N : ℤ) : ℝ) * ((n : ℤ) : ℝ) / N + ((a / N * n : ℤ) : ℝ) by
    push_cast; field_simp]
  exact (cis_add_int _ _).symm

private theorem hilbert_sum {ι : Type} (s : Finset ι) (N : ℕ) (c : ι → ℂ) (x : ι → ℕ → ℂ) (n : ℕ) :
    hilbert N (fun t => ∑ i ∈ s, c i * x i t) n = ∑ i ∈ s, c i * hilbert N (x i) n := by
  have hd : ∀ k : ℤ, dft N (fun t => ∑ i ∈ s, c i * x i t) k = ∑ i ∈ s, c i * dft N (x i) k := by
    intro k
    unfold dft
    simp_rw [sum_mul, mul_sum]
    rw [sum_comm]
    apply sum_congr rfl
    intro i _
    apply sum_congr rfl
    intro t _
    ring
  unfold hilbert idft
  simp_rw [hd, sum_mul]
  rw [sum_comm, sum_div]
  apply sum_congr rfl
  intro i _
  rw [← mul_div_assoc, mul_sum]
  congr 1
  apply sum_congr rfl
  intro k _
  ring

/-- **C83 (which analytic signal).** If the record is the real part of a sum of complex exponentials at bins strictly between DC and Nyquist, the analytic signal
is that sum. -/
theorem C83_analytic_signal {ι : Type} (s : Finset ι) (N : ℕ) (f : ι → ℕ) (hf : ∀ i ∈ s, 0 < f i ∧ 2 * f i < N) (c : ι → ℂ) (e : ℕ → ℝ)
    (he : ∀ t < N, e t = (∑ i ∈ s, c i * cis (f i * t / N)).re) (n : ℕ) (hn : n < N) :
    hilbert N (fun t => (e t : ℂ)) n = ∑ i ∈ s, c i * cis (f i * n / N) := by
  have hN : N ≠ 0 := by omega
  have hx : ∀ t < N, ((e t : ℝ) : ℂ) = ∑ i ∈ s.disjSum s, (Sum.elim (fun i => c i / 2) (fun i => (starRingEnd ℂ) (c i) / 2) i) *
      cis (((Sum.elim (fun i => (f i : ℤ)) (fun i => -(f i : ℤ)) i : ℤ) : ℝ) * t / N) := by
    intro t ht
    rw [sum_disjSum, he t ht]
    simp only [Sum.elim_inl, Sum.elim_inr]
    rw [Complex.re_eq_add_conj, map_sum, ← sum_add_distrib, ← sum_add_distrib, sum_div]
    apply sum_congr rfl
    intro i _
    rw [map_mul, conj_cis]
    have e1 : ((-(f i : ℤ) : ℤ) : ℝ) * t / N = -((f i : ℝ) * t / N) := by push_cast; ring
    rw [e1, Int.cast_natCast]
    ring
  have hcongr : hilbert N (fun t => (e t : ℂ)) n = hilbert N (fun t => ∑ i ∈ s.disjSum s, (Sum.elim (fun i => c i / 2) (fun i => (starRingEnd ℂ) (c i) / 2) i) *
      cis (((Sum.elim (fun i => (f i : ℤ)) (fun i => -(f i : ℤ)) i : ℤ) : ℝ) * t / N)) n := by
    unfold hilbert
    apply idft_congr
    intro k _
    rw [dft_congr N _ _ _ hx]
  rw [hcongr, hilbert_sum, sum_disjSum]
  simp only [Sum.elim_inl, Sum.elim_inr]
  rw [← sum_add_distrib]
  apply sum_congr rfl
  intro i hi
  obtain ⟨h1, h2⟩ := hf i hi
  rw [hilbert_cis N hN, hilbert_cis N hN]
  have m1 : hilbertMult N ((f i : ℤ) % N).toNat = 2 := by
    rw [Int.emod_eq_of_lt (by omega) (by omega), Int.toNat_natCast]
    unfold hilbertMult
    rw [if_neg (by omega), if_pos h2]
  have m2 : hilbertMult N ((-(f i : ℤ)) % N).toNat = 0 := by
    have : (-(f i : ℤ)) % N = ((N - f i : ℕ) : ℤ) := by
      rw [← Int.add_emod_right, Int.emod_eq_of_lt (by omega) (by omega)]
      omega
    rw [this, Int.toNat_natCast]
    unfold hilbertMult
    rw [if_neg (by omega), if_neg (by omega)]
  rw [m1, m2, Int.cast_natCast]
  ring

namespace Spec

/-- A slow modulation: a trigonometric polynomial of degree `J` over the record. -/
noncomputable def modulation (N J : ℕ) (a α : ℕ → ℝ) (t : ℕ) : ℝ := ∑ j ∈ range (J + 1), a j * Real.cos (2 * Real.pi * (j * t / N) + α j)

/-- The carrier at bin `k`. -/
noncomputable def carrier (N k : ℕ) (φ : ℝ) (t : ℕ) : ℝ := Real.cos (2 * Real.pi * (k * t / N) + φ)

end Spec

/-- The exponentials of a modulated carrier. -/
private noncomputable def amCoef (a α : ℕ → ℝ) (φ : ℝ) : ℕ ⊕ ℕ → ℂ :=
  Sum.elim (fun j => (a j : ℂ) / 2 * Complex.exp (α j * Complex.I) * Complex.exp (φ * Complex.I))
    (fun j => (a j : ℂ) / 2 * Complex.exp (-(α j * Complex.I)) * Complex.exp (φ * Complex.I))

private def amFreq (k : ℕ) : ℕ ⊕ ℕ → ℕ := Sum.elim (fun j => k + j) (fun j => k - j)

private theorem am_sum (N J k : ℕ) (hJ : J < k) (a α : ℕ → ℝ) (φ : ℝ) (t : ℕ) :
    ∑ i ∈ (range (J + 1)).disjSum (range (J + 1)), amCoef a α φ i * cis (amFreq k i * t / N)
      = (modulation N J a α t : ℂ) * (Complex.exp (φ * Complex.I) * cis (k * t / N)) := by
  rw [sum_disjSum]
  simp only [amCoef, amFreq, Sum.elim_inl, Sum.elim_inr]
  rw [← sum_add_distrib]
  unfold modulation
  rw [Complex.ofReal_sum, sum_mul]
  apply sum_congr rfl
  intro j hj
  rw [mem_range] at hj
  rw [cos_cis]
  have e1 : cis (((k + j : ℕ) : ℝ) * t / N) = cis (k * t / N) * cis (j * t / N) := by
    rw [← cis_add]; congr 1; push_cast; ring
  have e2 : cis (((k - j : ℕ) : ℝ) * t / N) = cis (k * t / N) * cis (-(j * t / N)) := by
    rw [← cis_add, Nat.cast_sub (by omega)]; congr 1; ring
  rw [e1, e2]
  ring

private theorem carrier_re (N k : ℕ) (φ : ℝ) (t : ℕ) : (Complex.exp (φ * Complex.I) * cis (k * t / N)).re = carrier N k φ t := by
  have h1 : Complex.exp (φ * Complex.I) * cis (k * t / N) = Complex.exp (((2 * Real.pi * (k * t / N) + φ : ℝ) : ℂ) * Complex.I) := by
    unfold cis; rw [← Complex.exp_add]; congr 1; push_cast; ring
  rw [h1, Complex.exp_ofReal_mul_I_re]
  rfl

private theorem am_real (N J k : ℕ) (hJ : J < k) (a α : ℕ → ℝ) (φ : ℝ) (t : ℕ) :
    modulation N J a α t * carrier N k φ t = (∑ i ∈ (range (J + 1)).disjSum (range (J + 1)), amCoef a α φ i * cis (amFreq k i * t / N)).re := by
  rw [am_sum N J k hJ, Complex.re_ofReal_mul, carrier_re]

private theorem am_freq (N J k : ℕ) (hJ : J < k) (hk : 2 * (k + J) < N) (i : ℕ ⊕ ℕ) (hi : i ∈ (range (J + 1)).disjSum (range (J + 1))) :
    0 < amFreq k i ∧ 2 * amFreq k i < N := by
  rcases i with j | j
  · have : j ∈ range (J + 1) := by simpa using hi
    rw [mem_range] at this
    simp only [amFreq, Sum.elim_inl]; omega
  · have : j ∈ range (J + 1) := by simpa using hi
    rw [mem_range] at this
    simp only [amFreq, Sum.elim_inr]; omega

/-- **C83 (amplitude modulation).** For an error that is a carrier at bin `k` times a slow modulation whose highest bin `J` is below the carrier and keeps the
product below Nyquist, the envelope is exactly the magnitude of the modulation, whatever the carrier phase. -/
theorem C83_modulated_error (N J k : ℕ) (hJ : J < k) (hk : 2 * (k + J) < N) (a α : ℕ → ℝ) (φ : ℝ) (e : ℕ → ℝ)
    (he : ∀ t < N, e t = modulation N J a α t * carrier N k φ t) (n : ℕ) (hn : n < N) : envelope N e n = |modulation N J a α n| := by
  unfold envelope
  rw [C83_analytic_signal _ N (amFreq k) (am_freq N J k hJ hk) (amCoef a α φ) e (fun t ht => by rw [he t ht, am_real N J k hJ]) n hn, am_sum N J k hJ]
  rw [norm_mul, norm_mul, norm_cis, Complex.norm_exp_ofReal_mul_I, Complex.norm_real, mul_one, mul_one]
  rfl

-- a tone on bin 3 of 16 with its amplitude swinging once per record between 1 and 3
example (n : ℕ) (hn : n < 16) :
    envelope 16 (fun t => (2 + Real.cos (2 * Real.pi * (t / 16))) * Real.cos (2 * Real.pi * (3 * t / 16) + 1)) n = 2 + Real.cos (2 * Real.pi * (n / 16)) := by
  have hmod : ∀ t : ℕ, modulation 16 1 (fun j => if j = 0 then 2 else 1) (fun _ => 0) t = 2 + Real.cos (2 * Real.pi * (t / 16)) := by
    intro t
    unfold modulation
    rw [sum_range_succ, sum_range_succ, sum_range_zero]
    norm_num
  rw [C83_modulated_error 16 1 3 (by norm_num) (by norm_num) (fun j => if j = 0 then 2 else 1) (fun _ => 0) 1 _ (fun t _ => by
    rw [hmod]; unfold carrier; norm_num) n hn, hmod, abs_of_nonneg]
  have := Real.neg_one_le_cos (2 * Real.pi * (n / 16))
  linarith

/-! ### The fit -/

private theorem residual_unique (solve : Lstsq) (hs : IsLstsq solve) (n : ℕ) (y : ℕ → ℝ) (f tol : ℝ) (r : SineFit)
    (h : fitCore solve n y (some f) 0 tol = .ok r) (e : ℕ → ℝ) (p q c : ℝ)
    (hy : ∀ t < n, y t = p * Real.cos (2 * Real.pi * f * t) + q * Real.sin (2 * Real.pi * f * t) + c + e t)
    (h0 : ∑ t ∈ range n, e t = 0) (hc : ∑ t ∈ range n, e t * Real.cos (2 * Real.pi * f * t) = 0)
    (hsn : ∑ t ∈ range n, e t * Real.sin (2 * Real.pi * f * t) = 0) : ∀ t < n, y t - r.fitted t = e t := by
  obtain ⟨_, g0, g1, g2⟩ := C58_least_squares solve hs n y f tol r h
  obtain ⟨d1, _⟩ := C58_decomposition solve n y (some f) 0 tol r h
  -- the fitted values are a combination of the columns
  obtain ⟨p', q', c', hfit⟩ : ∃ p' q' c', ∀ t, r.fitted t = p' * Real.cos (2 * Real.pi * f * t) + q' * Real.sin (2 * Real.pi * f * t) + c' := by
    unfold fitCore at h
    simp only [Int.toNat_zero, lt_irrefl, if_false] at h
    injection h with h
    rw [← h]
    exact ⟨_, _, _, fun t => rfl⟩
  have hres : ∀ t, r.residuals t = y t - r.fitted t := fun t => by rw [← d1 t]; ring
  have hdiff : ∀ t < n, r.residuals t - e t = (p - p') * Real.cos (2 * Real.pi * f * t) + (q - q') * Real.sin (2 * Real.pi * f * t) + (c - c') := by
    intro t ht
    rw [hres, hy t ht, hfit]; ring
  have hzero : ∑ t ∈ range n, (r.residuals t - e t) ^ 2 = 0 := by
    have e1 : ∀ t ∈ range n, (r.residuals t - e t) ^ 2 = (p - p') * (r.residuals t * Real.cos (2 * Real.pi * f * t) - e t * Real.cos (2 * Real.pi * f * t))
        + (q - q') * (r.residuals t * Real.sin (2 * Real.pi * f * t) - e t * Real.sin (2 * Real.pi * f * t)) + (c - c') * (r.residuals t - e t) := by
      intro t ht
      rw [sq]
      conv_lhs => arg 2; rw [hdiff t (mem_range.mp ht)]
      ring
    rw [sum_congr rfl e1, sum_add_distrib, sum_add_distrib, ← mul_sum, ← mul_sum, ← mul_sum, sum_sub_distrib, sum_sub_distrib, sum_sub_distrib, g0, g1, g2, h0, hc, hsn]
    ring
  intro t ht
  rw [sum_eq_zero_iff_of_nonneg fun t _ => sq_nonneg _] at hzero
  have := hzero t (mem_range.mpr ht)
  rw [sq_eq_zero_iff, hres] at this
  linarith

/-- A sum of tones is orthogonal to the constant and to every other bin. -/
private theorem tones_orthogonal {ι : Type} (s : Finset ι) (N k0 : ℕ) (h0 : 2 * k0 < N) (f : ι → ℕ) (hf : ∀ i ∈ s, 0 < f i ∧ 2 * f i < N ∧ f i ≠ k0)
    (c : ι → ℂ) (e : ℕ → ℝ) (he : ∀ t < N, e t = (∑ i ∈ s, c i * cis (f i * t / N)).re) :
    ∑ t ∈ range N, (e t : ℂ) * cis (k0 * t / N) = 0 := by
  have hN : N ≠ 0 := by omega
  have e1 : ∀ t ∈ range N, (e t : ℂ) * cis (k0 * t / N)
      = ∑ i ∈ s, (c i / 2 * cis (((k0 + f i : ℤ) : ℝ) * t / N) + (starRingEnd ℂ) (c i) / 2 * cis (((k0 - f i : ℤ) : ℝ) * t / N)) := by
    intro t ht
    rw [he t (mem_range.mp ht), Complex.re_eq_add_conj, map_sum, ← sum_add_distrib, sum_div, sum_mul]
    apply sum_congr rfl
    intro i _
    rw [map_mul, conj_cis]
    have a1 : cis (((k0 + f i : ℤ) : ℝ) * t / N) = cis (f i * t / N) * cis (k0 * t / N) := by
      rw [← cis_add]; congr 1; push_cast; ring
    have a2 : cis (((k0 - f i : ℤ) : ℝ) * t / N) = cis (-(f i * t / N)) * cis (k0 * t / N) := by
      rw [← cis_add]; congr 1; push_cast; ring
    rw [a1, a2]
    ring
  rw [sum_congr rfl e1, sum_comm]
  apply sum_eq_zero
  intro i hi
  obtain ⟨f1, f2, f3⟩ := hf i hi
  rw [sum_add_distrib, ← mul_sum, ← mul_sum, sum_cis N hN, sum_cis N hN, if_neg, if_neg, mul_zero, mul_zero, add_zero]
  · intro hd
    have := Int.eq_zero_of_abs_lt_dvd hd (by rw [abs_lt]; omega)
    omega
  · intro hd
    have := Int.eq_zero_of_abs_lt_dvd hd (by rw [abs_lt]; omega)
    omega

/-- The three orthogonality sums in real form. -/
private theorem tones_orthogonal_real {ι : Type} (s : Finset ι) (N k0 : ℕ) (h0 : 2 * k0 < N) (f : ι → ℕ) (hf : ∀ i ∈ s, 0 < f i ∧ 2 * f i < N ∧ f i ≠ k0)
    (c : ι → ℂ) (e : ℕ → ℝ) (he : ∀ t < N, e t = (∑ i ∈ s, c i * cis (f i * t / N)).re) :
    ∑ t ∈ range N, e t = 0 ∧ ∑ t ∈ range N, e t * Real.cos (2 * Real.pi * ((k0 : ℝ) / N) * t) = 0 ∧
    ∑ t ∈ range N, e t * Real.sin (2 * Real.pi * ((k0 : ℝ) / N) * t) = 0 := by
  have hk := tones_orthogonal s N k0 h0 f hf c e he
  have hz := tones_orthogonal s N 0 (by omega) f (fun i hi => ⟨(hf i hi).1, (hf i hi).2.1, by have := (hf i hi).1; omega⟩) c e he
  have harg : ∀ t : ℕ, 2 * Real.pi * ((k0 : ℝ) / N) * t = 2 * Real.pi * (k0 * t / N) := fun t => by ring
  refine ⟨?_, ?_, ?_⟩
  · simp only [Nat.cast_zero, zero_mul, zero_div, cis_zero, mul_one] at hz
    exact_mod_cast hz
  · have := congrArg Complex.re hk
    rw [Complex.re_sum] at this
    simp only [Complex.re_ofReal_mul, cis_re, Complex.zero_re] at this
    simp only [harg]
    exact this
  · have := congrArg Complex.im hk
    rw [Complex.im_sum] at this
    simp only [Complex.im_ofReal_mul, cis_im, Complex.zero_im] at this
    simp only [harg]
    exact this

/-! ### The whole analyses -/

private theorem auto_ok (lib : WinLib) (N : ℕ) (hN : 0 < N) (e : ℕ → ℝ) (fs : ℝ) :
    ∃ r, computeSpectrum lib [recordList N e] { fs := fs, maxHarmonic := 5 } = .ok r := by
  have hlen : (recordList N e).length = N := by unfold recordList; simp
  have hne : recordList N e ≠ [] := by
    intro h; rw [h] at hlen; simp at hlen; omega
  have hor : orient [recordList N e] = [recordList N e] := by
    unfold orient
    rw [if_neg (by simp), if_neg (by simp)]
  obtain ⟨d, hd, hdl⟩ : ∃ d, prepareFftInput [recordList N e] .auto = .ok d ∧ (d.headD []).length = N := by
    unfold prepareFftInput
    rw [hor]
    unfold peakAmplitude
    simp only [List.flatten_cons, List.flatten_nil, List.append_nil]
    cases hc : recordList N e with
    | nil => exact absurd hc hne
    | cons v l =>
      refine ⟨_, rfl, ?_⟩
      rw [← hc]
      simp only [List.map_cons, List.headD_cons]
      split_ifs <;> simp [removeDc, hlen]
  exact (C63_compute_spectrum_total lib [recordList N e] { fs := fs, maxHarmonic := 5 } d hd (by rw [hdl]; exact hN)).mpr
    ⟨by norm_num, by norm_num, by norm_num, by norm_num⟩

/-- **C83 (what is analysed).** For every non-empty record that the sine fit accepts, both analyses succeed; they return the error, which is the record minus the
fitted sine, and the metrics are those of the default spectrum analysis of the error and of its envelope. -/
theorem C83_analyses (lib : WinLib) (solve : Lstsq) (N : ℕ) (hN : 0 < N) (y : ℕ → ℝ) (fs : ℝ) (freq : Option ℝ) (maxIter : ℤ) (tol : ℝ) (fit : SineFit)
    (h : fitCore solve N y freq maxIter tol = .ok fit) :
    ∃ rs re err, analyzeErrorSpectrum lib solve N y fs freq maxIter tol = .ok (rs, err) ∧
      analyzeErrorEnvelope lib solve N y fs freq maxIter tol = .ok (re, err, envelope N err) ∧ (∀ t, err t + fit.fitted t = y t) ∧
      computeSpectrum lib [recordList N err] { fs := fs } = .ok rs ∧ computeSpectrum lib [recordList N (envelope N err)] { fs := fs } = .ok re := by
  obtain ⟨rs, hrs⟩ := auto_ok lib N hN (fun t => y t - fit.fitted t) fs
  obtain ⟨re, hre⟩ := auto_ok lib N hN (envelope N fun t => y t - fit.fitted t) fs
  refine ⟨rs, re, fun t => y t - fit.fitted t, ?_, ?_, fun t => by ring, hrs, hre⟩
  · unfold analyzeErrorSpectrum
    simp only [h, hrs]
  · unfold analyzeErrorEnvelope
    simp only [h, hre, if_neg hN.ne']

/-- **C83 (end to end).** A coherent sine with offset plus a coherent amplitude-modulated error none of whose components falls on the sine: with the sine's
frequency given and no refinement, the reported error is that error and the reported envelope is the magnitude of its modulation. -/
theorem C83_end_to_end (lib : WinLib) (solve : Lstsq) (hs : IsLstsq solve) (N k0 J k : ℕ) (h0 : 2 * k0 < N) (hJ : J < k) (hk : 2 * (k + J) < N)
    (hne : k0 < k - J ∨ k + J < k0) (A θ C : ℝ) (a α : ℕ → ℝ) (φ : ℝ) (y : ℕ → ℝ)
    (hy : ∀ t < N, y t = sineAt A ((k0 : ℝ) / N) θ C t + modulation N J a α t * carrier N k φ t) (fs tol : ℝ) :
    ∃ r err env, analyzeErrorEnvelope lib solve N y fs (some ((k0 : ℝ) / N)) 0 tol = .ok (r, err, env) ∧
      ∀ t < N, err t = modulation N J a α t * carrier N k φ t ∧ env t = |modulation N J a α t| := by
  have hN : 0 < N := by omega
  obtain ⟨fit, hfit⟩ : ∃ fit, fitCore solve N y (some ((k0 : ℝ) / N)) 0 tol = .ok fit := ⟨_, rfl⟩
  have hf : ∀ i ∈ (range (J + 1)).disjSum (range (J + 1)), 0 < amFreq k i ∧ 2 * amFreq k i < N ∧ amFreq k i ≠ k0 := by
    intro i hi
    obtain ⟨g1, g2⟩ := am_freq N J k hJ hk i hi
    refine ⟨g1, g2, ?_⟩
    rcases i with j | j
    · have : j ∈ range (J + 1) := by simpa using hi
      rw [mem_range] at this
      simp only [amFreq, Sum.elim_inl]; omega
    · have : j ∈ range (J + 1) := by simpa using hi
      rw [mem_range] at this
      simp only [amFreq, Sum.elim_inr]; omega
  obtain ⟨o1, o2, o3⟩ := tones_orthogonal_real _ N k0 h0 (amFreq k) hf (amCoef a α φ) (fun t => modulation N J a α t * carrier N k φ t)
    (fun t _ => am_real N J k hJ a α φ t)
  have hres := residual_unique solve hs N y ((k0 : ℝ) / N) tol fit hfit (fun t => modulation N J a α t * carrier N k φ t)
    (A * Real.cos θ) (-(A * Real.sin θ)) C (fun t ht => by rw [hy t ht]; unfold sineAt; rw [Real.cos_add]; ring) o1 o2 o3
  obtain ⟨rs, re, err, _, henv, herr, _⟩ := C83_analyses lib solve N hN y fs (some ((k0 : ℝ) / N)) 0 tol fit hfit
  have herr' : ∀ t < N, err t = modulation N J a α t * carrier N k φ t := by
    intro t ht
    rw [← hres t ht, ← herr t]; ring
  exact ⟨re, err, _, henv, fun t ht => ⟨herr' t ht, C83_modulated_error N J k hJ hk a α φ err herr' t ht⟩⟩

/-- **C83 (levels are relative to the error itself).** With a given frequency and no refinement, scaling the error by any positive factor, or adding any sine of
that frequency and any offset, leaves every reported metric unchanged: the "dBFS" values say nothing about the size of the error. -/
theorem C83_error_size_not_reported (lib : WinLib) (solve : Lstsq) (hs : IsLstsq solve) (N : ℕ) (y y' : ℕ → ℝ) (fs f tol : ℝ) (g : ℝ) (hg : 0 < g)
    (p q c : ℝ) (hy : ∀ t < N, y' t = g * y t + (p * Real.cos (2 * Real.pi * f * t) + q * Real.sin (2 * Real.pi * f * t) + c))
    (r : SpectrumResult) (err : ℕ → ℝ) (h : analyzeErrorSpectrum lib solve N y fs (some f) 0 tol = .ok (r, err)) :
    ∃ err', analyzeErrorSpectrum lib solve N y' fs (some f) 0 tol = .ok (r, err') ∧ ∀ t < N, err' t = g * err t := by
  obtain ⟨fit, hfit⟩ : ∃ fit, fitCore solve N y (some f) 0 tol = .ok fit := ⟨_, rfl⟩
  obtain ⟨fit', hfit'⟩ : ∃ fit, fitCore solve N y' (some f) 0 tol = .ok fit := ⟨_, rfl⟩
  obtain ⟨_, g0, g1, g2⟩ := C58_least_squares solve hs N y f tol fit hfit
  obtain ⟨d1, _⟩ := C58_decomposition solve N y (some f) 0 tol fit hfit
  obtain ⟨p', q', c', hf⟩ : ∃ p' q' c', ∀ t, fit.fitted t = p' * Real.cos (2 * Real.pi * f * t) + q' * Real.sin (2 * Real.pi * f * t) + c' := by
    unfold fitCore at hfit
    simp only [Int.toNat_zero, lt_irrefl, if_false] at hfit
    injection hfit with hfit
    rw [← hfit]
    exact ⟨_, _, _, fun t => rfl⟩
  have hres := residual_unique solve hs N y' f tol fit' hfit' (fun t => g * fit.residuals t) (g * p' + p) (g * q' + q) (g * c' + c)
    (fun t ht => by rw [hy t ht, ← d1 t, hf]; ring)
    (by rw [← mul_sum, g0, mul_zero])
    (by simp only [mul_assoc] at g1 ⊢; rw [← mul_sum, g1, mul_zero])
    (by simp only [mul_assoc] at g2 ⊢; rw [← mul_sum, g2, mul_zero])
  unfold analyzeErrorSpectrum at h ⊢
  simp only [hfit, hfit'] at h ⊢
  have herr : ∀ t, y t - fit.fitted t = fit.residuals t := fun t => by rw [← d1 t]; ring
  have hlist : [recordList N fun t => y' t - fit'.fitted t] = mapSamples (fun v => g * v + 0) [recordList N fun t => y t - fit.fitted t] := by
    unfold mapSamples recordList
    simp only [List.map_cons, List.map_nil, List.map_map]
    congr 1
    apply List.map_congr_left
    intro t ht
    rw [List.mem_range] at ht
    rw [hres t ht]
    simp only [Function.comp_apply, herr, add_zero]
  rw [hlist, C31_compute_spectrum_affine lib g 0 hg _ (by intro r hr; simp at hr; subst hr; rfl) _ rfl]
  cases hc : computeSpectrum lib [recordList N fun t => y t - fit.fitted t] { fs := fs, maxHarmonic := 5 } with
  | error e => rw [hc] at h; simp at h
  | ok r' =>
    rw [hc] at h
    simp only [Except.ok.injEq, Prod.mk.injEq] at h ⊢
    obtain ⟨h1, h2⟩ := h
    refine ⟨_, ⟨h1, rfl⟩, ?_⟩
    intro t ht
    rw [hres t ht, ← h2]
    simp only [herr]

-- a sine on bin 5 of 16 with an error on bin 3 whose amplitude swings between 1 and 3
example (lib : WinLib) (solve : Lstsq) (hs : IsLstsq solve) :
    ∃ r err env, analyzeErrorEnvelope lib solve 16 (fun t => sineAt 100 ((5 : ℕ) / (16 : ℕ)) (1 / 2) 7 t +
        modulation 16 1 (fun j => if j = 0 then 2 else 1) (fun _ => 0) t * carrier 16 3 1 t) 1 (some ((5 : ℕ) / (16 : ℕ))) 0 (1 / 10 ^ 9) = .ok (r, err, env) ∧
      env 0 = 3 ∧ env 8 = 1 := by
  obtain ⟨r, err, env, h, he⟩ := C83_end_to_end lib solve hs 16 5 1 3 (by norm_num) (by norm_num) (by norm_num) (by norm_num) 100 (1 / 2) 7
    (fun j => if j = 0 then 2 else 1) (fun _ => 0) 1 _ (fun t _ => rfl) 1 (1 / 10 ^ 9)
  refine ⟨r, err, env, h, ?_, ?_⟩
  · rw [(he 0 (by norm_num)).2]
    unfold modulation
    rw [sum_range_succ, sum_range_succ, sum_range_zero]
    norm_num
  · rw [(he 8 (by norm_num)).2]
    unfold modulation
    rw [sum_range_succ, sum_range_succ, sum_range_zero]
    norm_num
    rw [show 2 * Real.pi * (1 / 2) = Real.pi by ring, Real.cos_pi]
    norm_num

/-- **C83 (constant envelope).** A record that is constant, such as the envelope of a single-tone error, is analysed as silence: SNDR and ENOB are minus infinity,
SFDR and THD are undefined, the signal level is the clip `-300 dBFS`. -/
theorem C83_constant_is_silence (lib : WinLib) (N : ℕ) (hN : 0 < N) (e : ℕ → ℝ) (v : ℝ) (he : ∀ t < N, e t = v) (fs : ℝ) :
    ∃ r, computeSpectrum lib [recordList N e] { fs := fs } = .ok r ∧ r.sndr = ⊥ ∧ r.enob = ⊥ ∧ r.sfdr = none ∧ r.thd = none ∧ r.sigPwr = -300 := by
  obtain ⟨r, hr⟩ := auto_ok lib N hN e fs
  refine ⟨r, hr, ?_⟩
  obtain ⟨d, n, hd, hn, _, hnl, hM, hpn, _, hnn, hpow, hm⟩ := computeSpectrum_ok lib _ _ r hr
  obtain ⟨bins, spur, noise, h1, h2, h3, heq⟩ := spectrumMetrics_ok _ _ _ _ _ _ _ hm
  have hrec : recordList N e = List.replicate N v := by
    unfold recordList
    rw [List.eq_replicate_iff]
    refine ⟨by simp, ?_⟩
    intro b hb
    rw [List.mem_map] at hb
    obtain ⟨t, ht, rfl⟩ := hb
    exact he t (List.mem_range.mp ht)
  have hNR : (N : ℝ) ≠ 0 := by exact_mod_cast hN.ne'
  have hdc : removeDc (List.replicate N v) = List.replicate N 0 := by
    unfold removeDc
    rw [List.map_replicate, List.sum_replicate, List.length_replicate, nsmul_eq_mul, mul_div_cancel_left₀ _ hNR, sub_self]
  have hd0 : d = [List.replicate N 0] := by
    have hor : orient [List.replicate N v] = [List.replicate N v] := by
      unfold orient
      rw [if_neg (by simp), if_neg (by simp)]
    rw [hrec] at hd
    unfold prepareFftInput at hd
    rw [hor] at hd
    simp only at hd
    split at hd
    · cases hd
    · injection hd with hd
      rw [← hd]
      simp only [List.map_cons, List.map_nil, hdc, List.map_replicate, zero_div, ite_self]
  have hzero : ∀ w ∈ r.power, w = 0 := by
    intro w hw
    rw [hpow, hd0] at hw
    unfold applyCutoff rawSpectrum powerAverage runsOf at hw
    rw [if_neg (lt_irrefl _)] at hw
    simp only [Bool.false_eq_true, if_false, List.map_map, List.mem_map, List.map_cons, List.map_nil, List.sum_cons, List.sum_nil] at hw
    obtain ⟨k, _, rfl⟩ := hw
    have hz : ∀ t : ℕ, (List.replicate N (0 : ℝ)).getD t 0 = 0 := by
      intro t
      rw [List.getD_eq_getElem?_getD, List.getElem?_replicate]
      split_ifs <;> rfl
    simp only [Function.comp_apply, hz, zero_mul, Complex.ofReal_zero, dft, sum_const_zero, norm_zero]
    simp [oneSided]
  have hsum : ∀ lo hi, (slice r.power lo hi).sum = 0 := by
    intro lo hi
    rw [slice_sum]
    apply sum_eq_zero
    intro i _
    rw [List.getD_eq_getElem?_getD]
    cases hc : r.power[i]? with
    | none => rfl
    | some w => exact hzero w (List.mem_of_getElem? hc)
  have hsig : sigLinear { fs := fs, maxHarmonic := 5 } (signalPower r.power n (sideBinOf lib { fs := fs, maxHarmonic := 5 } (d.headD []).length n r.power)
      (locateFundamental r.power n).1) = 0 := by
    unfold sigLinear signalPower
    exact hsum _ _
  have hsp : signalPower r.power n (sideBinOf lib { fs := fs, maxHarmonic := 5 } (d.headD []).length n r.power) (locateFundamental r.power n).1 = 0 := hsum _ _
  have hs1 : r.sndr = ⊥ := by
    rw [heq]
    unfold assemble
    simp only
    rw [hsig, zero_div]
    unfold dB
    rw [if_pos rfl]
  refine ⟨hs1, ?_, ?_, ?_, ?_⟩
  · have : r.enob = enobOf r.sndr := by rw [heq]; rfl
    rw [this, hs1]
    unfold enobOf
    rw [EReal.bot_sub]
    exact EReal.bot_div_of_pos_ne_top (by exact_mod_cast (by norm_num : (0 : ℝ) < 602 / 100)) (EReal.coe_ne_top _)
  · rw [heq]
    unfold assemble
    simp only
    rw [hsig, if_neg (lt_irrefl _)]
  · rw [heq]
    unfold assemble
    simp only
    rw [hsig, if_neg (lt_irrefl _)]
  · rw [heq]
    unfold assemble sigPwrDbfs
    simp only
    rw [hsp, max_eq_right (by positivity), one_div, Real.logb_inv, Real.logb_pow, Real.logb_self_eq_one (by norm_num)]
    norm_num

-- the envelope of a tone on bin 3 of 16 with amplitude 2
example (lib : WinLib) : ∃ r, computeSpectrum lib [recordList 16 (envelope 16 fun t => 2 * Real.cos (2 * Real.pi * (3 * t / 16) + 1))] { fs := 1 } = .ok r ∧ r.enob = ⊥ := by
  obtain ⟨r, hr, _, h, _⟩ := C83_constant_is_silence lib 16 (by norm_num) (envelope 16 fun t => 2 * Real.cos (2 * Real.pi * (3 * t / 16) + 1)) 2 (fun n hn => by
    have hmod : ∀ t : ℕ, modulation 16 0 (fun _ => 2) (fun _ => 0) t = 2 := by
      intro t
      unfold modulation
      rw [sum_range_succ, sum_range_zero]
      norm_num
    rw [C83_modulated_error 16 0 3 (by norm_num) (by norm_num) (fun _ => 2) (fun _ => 0) 1 _ (fun t _ => by rw [hmod]; unfold carrier; norm_num) n hn, hmod]
    norm_num) 1
  exact ⟨r, hr, h⟩

end Verif
