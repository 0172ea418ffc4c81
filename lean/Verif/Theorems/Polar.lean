import Verif.Model.Polar
import Verif.Theorems.Align
import Verif.Theorems.SpectrumEngine
import Mathlib.Algebra.Polynomial.Eval.Degree

/-!
# C88: harmonic phases in the polar spectrum
-/

namespace Verif

open Model Finset

/-- A distorted tone at the phase `θ` of its fundamental: `D + Σ_h a_h·cos(h·θ + ψ_h)`, harmonics `1 .. d`. The angle `ψ_h` is the phase of
harmonic `h` relative to the fundamental. -/
noncomputable def harmonicSignal (D : ℝ) (d : ℕ) (a ψ : ℕ → ℝ) (θ : ℝ) : ℝ :=
  D + ∑ h ∈ range d, a (h + 1) * Real.cos ((h + 1 : ℕ) * θ + ψ (h + 1))

/-- A coherent capture of it: `b` periods in `N` samples, starting at phase `τ`. -/
noncomputable def harmonicRecord (N b : ℕ) (D : ℝ) (d : ℕ) (a ψ : ℕ → ℝ) (τ : ℝ) (n : ℕ) : ℝ :=
  harmonicSignal D d a ψ (2 * Real.pi * (b * n / N) + τ)

private theorem dft_record_all (N b : ℕ) (hN : N ≠ 0) (D : ℝ) (d : ℕ) (a ψ : ℕ → ℝ) (τ : ℝ) (k : ℤ) :
    dft N (fun n => (harmonicRecord N b D d a ψ τ n : ℂ)) k = D * (if (N : ℤ) ∣ -k then (N : ℂ) else 0) +
      ∑ h ∈ range d,
        ((a (h + 1) : ℂ) / 2 * Complex.exp (((h + 1 : ℕ) * τ + ψ (h + 1) : ℝ) * Complex.I) *
            (if (N : ℤ) ∣ ((h + 1 : ℕ) : ℤ) * b - k then (N : ℂ) else 0) +
          (a (h + 1) : ℂ) / 2 * Complex.exp (-(((h + 1 : ℕ) * τ + ψ (h + 1) : ℝ) * Complex.I)) *
            (if (N : ℤ) ∣ -(((h + 1 : ℕ) : ℤ) * b) - k then (N : ℂ) else 0)) := by
  have hs : ∀ n : ℕ, (harmonicRecord N b D d a ψ τ n : ℂ) = D + ∑ h ∈ range d,
      ((a (h + 1) : ℂ) / 2 * Complex.exp (((h + 1 : ℕ) * τ + ψ (h + 1) : ℝ) * Complex.I) * cis ((h + 1 : ℕ) * (b * n / N)) +
        (a (h + 1) : ℂ) / 2 * Complex.exp (-(((h + 1 : ℕ) * τ + ψ (h + 1) : ℝ) * Complex.I)) * cis (-((h + 1 : ℕ) * (b * n / N)))) := by
    intro n
    unfold harmonicRecord harmonicSignal
    rw [Complex.ofReal_add, Complex.ofReal_sum]
    congr 1
    apply sum_congr rfl
    intro h _
    rw [show ((h + 1 : ℕ) : ℝ) * (2 * Real.pi * (b * n / N) + τ) + ψ (h + 1) =
      2 * Real.pi * ((h + 1 : ℕ) * (b * n / N)) + ((h + 1 : ℕ) * τ + ψ (h + 1)) by ring, cos_cis]
  unfold dft
  simp only [hs, add_mul, sum_add_distrib, sum_mul]
  rw [← mul_sum, ← sum_cis N hN (-k)]
  congr 1
  · congr 1
    apply sum_congr rfl
    intro n _
    congr 1
    push_cast
    ring
  rw [sum_comm, sum_comm (s := range N)]
  congr 1
  · apply sum_congr rfl
    intro h _
    rw [← sum_cis N hN, mul_sum]
    apply sum_congr rfl
    intro n _
    rw [mul_assoc, ← cis_add]
    congr 2
    push_cast
    ring
  · apply sum_congr rfl
    intro h _
    rw [← sum_cis N hN, mul_sum]
    apply sum_congr rfl
    intro n _
    rw [mul_assoc, ← cis_add]
    congr 2
    push_cast
    ring

private theorem dft_record (N b : ℕ) (hN : N ≠ 0) (D : ℝ) (d : ℕ) (a ψ : ℕ → ℝ) (τ : ℝ) (k : ℤ) (hk : ¬ (N : ℤ) ∣ k) :
    dft N (fun n => (harmonicRecord N b D d a ψ τ n : ℂ)) k =
      ∑ h ∈ range d,
        ((a (h + 1) : ℂ) / 2 * Complex.exp (((h + 1 : ℕ) * τ + ψ (h + 1) : ℝ) * Complex.I) *
            (if (N : ℤ) ∣ ((h + 1 : ℕ) : ℤ) * b - k then (N : ℂ) else 0) +
          (a (h + 1) : ℂ) / 2 * Complex.exp (-(((h + 1 : ℕ) * τ + ψ (h + 1) : ℝ) * Complex.I)) *
            (if (N : ℤ) ∣ -(((h + 1 : ℕ) : ℤ) * b) - k then (N : ℂ) else 0)) := by
  rw [dft_record_all N b hN, if_neg (by rwa [dvd_neg]), mul_zero, zero_add]

/-- Two aliases of harmonics up to `d` coincide only if the harmonics and the foldings are equal. -/
private theorem alias_unique (N b d : ℕ) (hcop : Nat.Coprime b N) (hd : 2 * d < N) (g h : ℕ) (hg : 1 ≤ g) (hgd : g ≤ d) (hh : 1 ≤ h)
    (hhd : h ≤ d) (s t k : ℤ) (hs : s = 1 ∨ s = -1) (ht : t = 1 ∨ t = -1) (h1 : (N : ℤ) ∣ (g : ℤ) * b - s * k)
    (h2 : (N : ℤ) ∣ (h : ℤ) * b - t * k) : g = h ∧ s = t := by
  have h3 : (N : ℤ) ∣ (b : ℤ) * (s * g - t * h) := by
    have e : (b : ℤ) * (s * g - t * h) = s * ((g : ℤ) * b - s * k) - t * ((h : ℤ) * b - t * k) := by
      rcases hs with rfl | rfl <;> rcases ht with rfl | rfl <;> ring
    rw [e]
    exact dvd_sub (dvd_mul_of_dvd_right h1 _) (dvd_mul_of_dvd_right h2 _)
  have h4 : (N : ℤ) ∣ s * g - t * h := by
    apply IsCoprime.dvd_of_dvd_mul_left _ h3
    rw [Nat.isCoprime_iff_coprime]
    exact hcop.symm
  have h5 : s * g - t * h = 0 := by
    apply Int.eq_zero_of_abs_lt_dvd h4
    rw [abs_lt]
    rcases hs with rfl | rfl <;> rcases ht with rfl | rfl <;> omega
  rcases hs with rfl | rfl <;> rcases ht with rfl | rfl <;> omega

/-- The spectrum of the capture on the bin of harmonic `h`; `s = 1` for a direct alias, `s = -1` for a folded one. -/
theorem dft_hit (N b d : ℕ) (hcop : Nat.Coprime b N) (hd : 2 * d < N) (D : ℝ) (a ψ : ℕ → ℝ) (τ : ℝ) (h : ℕ) (hh : 1 ≤ h) (hhd : h ≤ d)
    (s : ℤ) (hs : s = 1 ∨ s = -1) (k : ℤ) (hk : (N : ℤ) ∣ (h : ℤ) * b - s * k) :
    dft N (fun n => (harmonicRecord N b D d a ψ τ n : ℂ)) k =
      N * ((a h : ℂ) / 2) * Complex.exp (((s : ℝ) * (h * τ + ψ h) : ℝ) * Complex.I) := by
  have hN : N ≠ 0 := by omega
  have hnk : ¬ (N : ℤ) ∣ k := by
    intro hdk
    have h1 : (N : ℤ) ∣ (b : ℤ) * h := by
      have : (b : ℤ) * h = ((h : ℤ) * b - s * k) + s * k := by ring
      rw [this]
      exact dvd_add hk (dvd_mul_of_dvd_right hdk _)
    have h2 : (N : ℤ) ∣ (h : ℤ) := by
      apply IsCoprime.dvd_of_dvd_mul_left _ h1
      rw [Nat.isCoprime_iff_coprime]
      exact hcop.symm
    have h3 := Int.le_of_dvd (by omega) h2
    omega
  rw [dft_record N b hN D d a ψ τ k hnk, sum_eq_single (h - 1)]
  · rw [show h - 1 + 1 = h by omega]
    rcases hs with rfl | rfl
    · rw [if_pos (by simpa using hk), if_neg]
      · push_cast
        rw [mul_zero, add_zero]
        simp only [one_mul]
        ring
      · intro h2
        have := (alias_unique N b d hcop hd h h hh hhd hh hhd 1 (-1) k (Or.inl rfl) (Or.inr rfl) hk (by
          have e : (h : ℤ) * b - -1 * k = -(-((h : ℤ) * b) - k) := by ring
          rw [e, dvd_neg]
          exact h2)).2
        omega
    · rw [if_neg, if_pos]
      · push_cast
        rw [mul_zero, zero_add]
        rw [show -1 * ((h : ℂ) * τ + ψ h) * Complex.I = -(((h : ℂ) * τ + ψ h) * Complex.I) by ring]
        ring
      · have e : -((h : ℤ) * b) - k = -((h : ℤ) * b - -1 * k) := by ring
        rw [e, dvd_neg]
        exact hk
      · intro h2
        have := (alias_unique N b d hcop hd h h hh hhd hh hhd (-1) 1 k (Or.inr rfl) (Or.inl rfl) hk (by simpa using h2)).2
        omega
  · intro g hg hne
    rw [mem_range] at hg
    rw [if_neg, if_neg, mul_zero, mul_zero, add_zero]
    · intro h2
      have := (alias_unique N b d hcop hd (g + 1) h (by omega) (by omega) hh hhd (-1) s k (Or.inr rfl) hs (by
        have e : ((g + 1 : ℕ) : ℤ) * b - -1 * k = -(-(((g + 1 : ℕ) : ℤ) * b) - k) := by ring
        rw [e, dvd_neg]
        exact h2) hk).1
      omega
    · intro h2
      have := (alias_unique N b d hcop hd (g + 1) h (by omega) (by omega) hh hhd 1 s k (Or.inl rfl) hs (by simpa using h2) hk).1
      omega
  · intro h2
    exact absurd (mem_range.mpr (by omega)) h2

/-- Every other bin is empty. -/
private theorem dft_miss (N b d : ℕ) (hN : N ≠ 0) (D : ℝ) (a ψ : ℕ → ℝ) (τ : ℝ) (k : ℤ) (hnk : ¬ (N : ℤ) ∣ k)
    (hk : ∀ h : ℕ, 1 ≤ h → h ≤ d → ∀ s : ℤ, s = 1 ∨ s = -1 → ¬ (N : ℤ) ∣ (h : ℤ) * b - s * k) :
    dft N (fun n => (harmonicRecord N b D d a ψ τ n : ℂ)) k = 0 := by
  rw [dft_record N b hN D d a ψ τ k hnk]
  apply sum_eq_zero
  intro h hh
  rw [mem_range] at hh
  rw [if_neg, if_neg, mul_zero, mul_zero, add_zero]
  · intro h2
    apply hk (h + 1) (by omega) (by omega) (-1) (Or.inr rfl)
    have e : ((h + 1 : ℕ) : ℤ) * b - -1 * k = -(-(((h + 1 : ℕ) : ℤ) * b) - k) := by ring
    rw [e, dvd_neg]
    exact h2
  · intro h2
    apply hk (h + 1) (by omega) (by omega) 1 (Or.inl rfl)
    simpa using h2

/-- How much the regularisation `1e-20` shrinks one factor of the rotation. -/
noncomputable def alignShrink (R : ℝ) : ℝ := R / (R + 1 / 10 ^ 20)

/-- **C88 (aligned harmonic).** A coherent capture of a distorted tone, `b` periods coprime with `N`, harmonics up to `d < N/2`, starting at any
phase `τ`. After alignment the bin `k` of harmonic `h` carries the amplitude of that harmonic and its phase relative to the fundamental - with
reversed sign when the harmonic is folded (`s = -1`). Neither `τ` nor the DC level enters. -/
theorem C88_aligned_harmonic (N b d : ℕ) (hb : 0 < b) (hcop : Nat.Coprime b N) (hd : 2 * d < N) (D : ℝ) (a ψ : ℕ → ℝ) (ha : 0 < a 1)
    (hψ : ψ 1 = 0) (τ bR : ℝ) (h : ℕ) (hh : 1 ≤ h) (hhd : h ≤ d) (k : ℕ) (hk0 : 0 < k) (hkN : 2 * k ≤ N) (s : ℤ) (hs : s = 1 ∨ s = -1)
    (hk : (N : ℤ) ∣ (h : ℤ) * b - s * k) :
    alignSpectrumPhase (fun k : ℕ => dft N (fun n => (harmonicRecord N b D d a ψ τ n : ℂ)) k) b bR N k =
      N * ((a h : ℂ) / 2) * (alignShrink (N * (a 1 / 2)) : ℂ) ^ h * Complex.exp (((s : ℝ) * ψ h : ℝ) * Complex.I) := by
  set X : ℕ → ℂ := fun k : ℕ => dft N (fun n => (harmonicRecord N b D d a ψ τ n : ℂ)) k with hX
  have hNR : (0 : ℝ) < N := by
    have : 0 < N := by omega
    exact_mod_cast this
  have hXb : X b = N * ((a 1 : ℂ) / 2) * Complex.exp ((τ : ℝ) * Complex.I) := by
    have := dft_hit N b d hcop hd D a ψ τ 1 le_rfl (by omega) 1 (Or.inl rfl) (b : ℤ) (by simp)
    rw [hX]
    simp only
    rw [this, hψ]
    push_cast
    ring_nf
  have hnorm : ‖X b‖ = N * (a 1 / 2) := by
    rw [hXb, norm_mul, Complex.norm_exp_ofReal_mul_I, mul_one]
    have : (N : ℂ) * ((a 1 : ℂ) / 2) = ((N * (a 1 / 2) : ℝ) : ℂ) := by push_cast; ring
    rw [this, Complex.norm_real, Real.norm_eq_abs, abs_of_pos (by positivity)]
  have hconj : ∀ x : ℝ, (starRingEnd ℂ) (Complex.exp ((x : ℝ) * Complex.I)) = Complex.exp (((-x : ℝ)) * Complex.I) := by
    intro x
    rw [← Complex.exp_conj, map_mul, Complex.conj_ofReal, Complex.conj_I]
    congr 1
    push_cast
    ring
  have hph : alignPhasor X b = (alignShrink (N * (a 1 / 2)) : ℂ) * Complex.exp (((-τ : ℝ)) * Complex.I) := by
    unfold alignPhasor alignShrink
    rw [hnorm, hXb, map_div₀, map_mul, hconj, Complex.conj_ofReal]
    have : (starRingEnd ℂ) ((N : ℂ) * ((a 1 : ℂ) / 2)) = ((N * (a 1 / 2) : ℝ) : ℂ) := by
      rw [show (N : ℂ) * ((a 1 : ℂ) / 2) = ((N * (a 1 / 2) : ℝ) : ℂ) by push_cast; ring, Complex.conj_ofReal]
    rw [this]
    push_cast
    ring
  have hpow : ∀ g : ℕ, alignPhasor X b ^ g = ((alignShrink (N * (a 1 / 2)) ^ g : ℝ) : ℂ) * Complex.exp (((-(g * τ) : ℝ)) * Complex.I) := by
    intro g
    rw [hph, mul_pow, ← Complex.exp_nat_mul]
    push_cast
    congr 2
    ring
  have hXk : X k = N * ((a h : ℂ) / 2) * Complex.exp (((s : ℝ) * (h * τ + ψ h) : ℝ) * Complex.I) :=
    dft_hit N b d hcop hd D a ψ τ h hh hhd s hs (k : ℤ) hk
  obtain ⟨g, g1, g2, g3, g4⟩ := C34_harmonic_bins X b bR N hb k hk0 hkN (by rw [hcop]; exact one_dvd k)
  have hle : g ≤ h := by
    by_contra hlt
    obtain ⟨m1, m2⟩ := g3 h hh (by omega)
    rcases hs with rfl | rfl
    · apply m2
      rw [← Int.natCast_modEq_iff, Int.modEq_iff_dvd]
      have e : ((k : ℕ) : ℤ) - ((b * h : ℕ) : ℤ) = -((h : ℤ) * b - 1 * k) := by push_cast; ring
      rw [e, dvd_neg]
      exact hk
    · apply m1
      have e : ((b * h + k : ℕ) : ℤ) = (h : ℤ) * b - -1 * k := by push_cast; ring
      exact_mod_cast e ▸ hk
  rcases g4 with ⟨gm, gv⟩ | ⟨gm, gv⟩
  · have hgk : (N : ℤ) ∣ (g : ℤ) * b - 1 * k := by
      rw [← Int.natCast_modEq_iff, Int.modEq_iff_dvd] at gm
      have e : (g : ℤ) * b - 1 * k = -(((k : ℕ) : ℤ) - ((b * g : ℕ) : ℤ)) := by push_cast; ring
      rw [e, dvd_neg]
      exact gm
    obtain ⟨rfl, rfl⟩ := alias_unique N b d hcop hd g h g1 (by omega) hh hhd 1 s k (Or.inl rfl) hs hgk hk
    rw [gv, hpow, hXk]
    rw [show (((1 : ℤ) : ℝ) * (g * τ + ψ g) : ℝ) = (((1 : ℤ) : ℝ) * ψ g) + g * τ by push_cast; ring]
    have : Complex.exp (((((1 : ℤ) : ℝ) * ψ g) + g * τ : ℝ) * Complex.I) * Complex.exp (((-(g * τ) : ℝ)) * Complex.I) =
        Complex.exp (((((1 : ℤ) : ℝ) * ψ g) : ℝ) * Complex.I) := by
      rw [← Complex.exp_add]
      congr 1
      push_cast
      ring
    rw [← this]
    push_cast
    ring
  · have hgk : (N : ℤ) ∣ (g : ℤ) * b - -1 * k := by
      have e : (g : ℤ) * b - -1 * k = ((b * g + k : ℕ) : ℤ) := by push_cast; ring
      rw [e]
      exact_mod_cast gm
    obtain ⟨rfl, rfl⟩ := alias_unique N b d hcop hd g h g1 (by omega) hh hhd (-1) s k (Or.inr rfl) hs hgk hk
    rw [gv, hpow, hXk, map_mul, hconj, Complex.conj_ofReal]
    rw [show (((-1 : ℤ) : ℝ) * (g * τ + ψ g) : ℝ) = (((-1 : ℤ) : ℝ) * ψ g) - g * τ by push_cast; ring]
    have : Complex.exp (((((-1 : ℤ) : ℝ) * ψ g) - g * τ : ℝ) * Complex.I) * Complex.exp (((-(-(g * τ)) : ℝ)) * Complex.I) =
        Complex.exp (((((-1 : ℤ) : ℝ) * ψ g) : ℝ) * Complex.I) := by
      rw [← Complex.exp_add]
      congr 1
      push_cast
      ring
    rw [← this]
    push_cast
    ring

/-- The strongest bin of the capture is its fundamental, wherever the record starts. -/
private theorem located (N b d : ℕ) (hb : 0 < b) (hcop : Nat.Coprime b N) (hd : 2 * d < N) (hd1 : 1 ≤ d) (D : ℝ) (a ψ : ℕ → ℝ) (ha : 0 < a 1)
    (hdom : ∀ h, 2 ≤ h → h ≤ d → |a h| < a 1) (τ : ℝ) (n : ℕ) (hbn : b < n) (hn : n ≤ N / 2 + 1) :
    fundamentalBin ((List.range (N / 2 + 1)).map fun (k : ℕ) => ‖dft N (fun m => (harmonicRecord N b D d a ψ τ m : ℂ)) k‖ ^ 2) n = b := by
  set p := (List.range (N / 2 + 1)).map fun (k : ℕ) => ‖dft N (fun m => (harmonicRecord N b D d a ψ τ m : ℂ)) k‖ ^ 2 with hp
  have hNR : (0 : ℝ) < N := by
    have : 0 < N := by omega
    exact_mod_cast this
  have hget : ∀ k, k < n → p.getD k 0 = ‖dft N (fun m => (harmonicRecord N b D d a ψ τ m : ℂ)) k‖ ^ 2 := by
    intro k hk
    rw [hp, List.getD_eq_getElem?_getD, List.getElem?_map, List.getElem?_range (by omega)]
    rfl
  have hval : ∀ h, 1 ≤ h → h ≤ d → ∀ s : ℤ, s = 1 ∨ s = -1 → ∀ k : ℕ, (N : ℤ) ∣ (h : ℤ) * b - s * k →
      ‖dft N (fun m => (harmonicRecord N b D d a ψ τ m : ℂ)) k‖ = N * (|a h| / 2) := by
    intro h h1 h2 s hs k hk
    rw [dft_hit N b d hcop hd D a ψ τ h h1 h2 s hs k hk, norm_mul, Complex.norm_exp_ofReal_mul_I, mul_one]
    have : (N : ℂ) * ((a h : ℂ) / 2) = ((N * (a h / 2) : ℝ) : ℂ) := by push_cast; ring
    rw [this, Complex.norm_real, Real.norm_eq_abs, abs_mul, abs_div, abs_of_pos hNR]
    norm_num
  obtain ⟨f1, f2, f3, _⟩ := C27_fundamental_strongest p n (by rw [hp]; simpa using hn) (by omega)
  set f := fundamentalBin p n with hf
  have h1 := f3 b hb hbn
  rw [hget b hbn, hget f f2, hval 1 le_rfl hd1 1 (Or.inl rfl) b (by simp), abs_of_pos ha] at h1
  have h2 : N * (a 1 / 2) ≤ ‖dft N (fun m => (harmonicRecord N b D d a ψ τ m : ℂ)) f‖ :=
    le_of_sq_le_sq h1 (norm_nonneg _)
  have hpos : 0 < N * (a 1 / 2) := by positivity
  by_cases hhit : ∃ h : ℕ, 1 ≤ h ∧ h ≤ d ∧ ∃ s : ℤ, (s = 1 ∨ s = -1) ∧ (N : ℤ) ∣ (h : ℤ) * b - s * (f : ℤ)
  · obtain ⟨h, g1, g2, s, hs, hk⟩ := hhit
    rw [hval h g1 g2 s hs f hk] at h2
    have h3 : a 1 ≤ |a h| := by
      have := le_of_mul_le_mul_left h2 hNR
      linarith
    by_cases hh : h = 1
    · subst hh
      have hbN : 2 * b ≤ N := by omega
      rcases hs with rfl | rfl
      · have h4 : ((1 : ℕ) : ℤ) * b - 1 * f = 0 := by
          apply Int.eq_zero_of_abs_lt_dvd hk
          rw [abs_lt]
          omega
        omega
      · have h4 := Int.le_of_dvd (by omega) hk
        omega
    · exact absurd (hdom h (by omega) g2) (by linarith)
  · exfalso
    have : dft N (fun m => (harmonicRecord N b D d a ψ τ m : ℂ)) f = 0 := by
      apply dft_miss N b d (by omega)
      · intro h
        have := Int.le_of_dvd (by omega) h
        omega
      · intro h g1 g2 s hs hk
        exact hhit ⟨h, g1, g2, s, hs, hk⟩
    rw [this, norm_zero] at h2
    linarith

/-- The coherent average accepts the capture and aligns it on its fundamental. -/
private theorem run_some (N b d : ℕ) (hb : 0 < b) (hcop : Nat.Coprime b N) (hd : 2 * d < N) (hd1 : 1 ≤ d) (D : ℝ) (a ψ : ℕ → ℝ)
    (ha : 2 / 10 ^ 10 ≤ a 1) (hdom : ∀ h, 2 ≤ h → h ≤ d → |a h| < a 1) (τ : ℝ) (n : ℕ) (hbn : b < n) (hn : n ≤ N / 2 + 1)
    (x : ℕ → ℝ) (hx : ∀ m < N, x m = harmonicRecord N b D d a ψ τ m) :
    ∃ bR, coherentRun x N n =
      some (alignSpectrumPhase (fun k : ℕ => dft N (fun m => (harmonicRecord N b D d a ψ τ m : ℂ)) k) b bR N) := by
  have hNR : (0 : ℝ) < N := by
    have : 0 < N := by omega
    exact_mod_cast this
  have hpos : 0 < a 1 := lt_of_lt_of_le (by positivity) ha
  have hX : (fun k : ℕ => dft N (fun m => (x m : ℂ)) k) = fun k : ℕ => dft N (fun m => (harmonicRecord N b D d a ψ τ m : ℂ)) k := by
    funext k
    apply dft_congr
    intro m hm
    rw [hx m hm]
  have hbig : ¬ ∀ m < N, |x m| < 1 / 10 ^ 10 := by
    intro h
    have h1 : ‖dft N (fun m => (harmonicRecord N b D d a ψ τ m : ℂ)) b‖ < N * (1 / 10 ^ 10) := by
      unfold dft
      refine lt_of_le_of_lt (norm_sum_le _ _) ?_
      have : (N : ℝ) * (1 / 10 ^ 10) = ∑ _m ∈ range N, (1 / 10 ^ 10 : ℝ) := by simp
      rw [this]
      apply sum_lt_sum_of_nonempty ⟨0, mem_range.mpr (by omega)⟩
      intro m hm
      rw [mem_range] at hm
      rw [norm_mul, norm_cis, mul_one, Complex.norm_real, Real.norm_eq_abs, ← hx m hm]
      exact h m hm
    rw [dft_hit N b d hcop hd D a ψ τ 1 le_rfl hd1 1 (Or.inl rfl) (b : ℤ) (by simp), norm_mul, Complex.norm_exp_ofReal_mul_I, mul_one,
      show (N : ℂ) * ((a 1 : ℂ) / 2) = ((N * (a 1 / 2) : ℝ) : ℂ) by push_cast; ring, Complex.norm_real, Real.norm_eq_abs,
      abs_of_pos (by positivity)] at h1
    have h2 := lt_of_mul_lt_mul_left h1 hNR.le
    norm_num at h2 ha
    linarith
  have hloc := located N b d hb hcop hd hd1 D a ψ hpos hdom τ n hbn hn
  refine ⟨(locateFundamental ((List.range (N / 2 + 1)).map fun (k : ℕ) =>
    ‖dft N (fun m => (harmonicRecord N b D d a ψ τ m : ℂ)) k‖ ^ 2) n).2, ?_⟩
  unfold coherentRun
  rw [if_neg hbig]
  simp only
  have hX' : ∀ k : ℕ, dft N (fun m => (x m : ℂ)) k = dft N (fun m => (harmonicRecord N b D d a ψ τ m : ℂ)) k := fun k => congrFun hX k
  simp only [hX']
  have h1 : (locateFundamental ((List.range (N / 2 + 1)).map fun (k : ℕ) =>
    ‖dft N (fun m => (harmonicRecord N b D d a ψ τ m : ℂ)) k‖ ^ 2) n).1 = b := hloc
  rw [h1, if_neg (by omega)]

/-- **C88 (averaging without a trigger).** Any number of unwindowed captures of the same distorted tone, each starting at its own phase and each on
its own DC level: the coherent average holds, on the bin of harmonic `h`, half its amplitude (up to the factor `alignShrink ^ h` of the `1e-20`
regularisation) at its phase relative to the fundamental, reversed when the harmonic is folded. -/
theorem C88_average (N b d : ℕ) (hb : 0 < b) (hcop : Nat.Coprime b N) (hd : 2 * d < N) (a ψ : ℕ → ℝ) (ha : 2 / 10 ^ 10 ≤ a 1) (hψ : ψ 1 = 0)
    (hdom : ∀ h, 2 ≤ h → h ≤ d → |a h| < a 1) (n : ℕ) (hbn : b < n) (hn : n ≤ N / 2 + 1) (runs : List (ℕ → ℝ)) (hne : runs ≠ [])
    (hruns : ∀ x ∈ runs, ∃ D τ : ℝ, ∀ m < N, x m = harmonicRecord N b D d a ψ τ m) (h : ℕ) (hh : 1 ≤ h) (hhd : h ≤ d) (k : ℕ) (hk0 : 0 < k)
    (hkN : 2 * k ≤ N) (s : ℤ) (hs : s = 1 ∨ s = -1) (hk : (N : ℤ) ∣ (h : ℤ) * b - s * k) :
    coherentSum runs N n k = ((a h : ℂ) / 2) * (alignShrink (N * (a 1 / 2)) : ℂ) ^ h * Complex.exp (((s : ℝ) * ψ h : ℝ) * Complex.I) := by
  have hpos : 0 < a 1 := lt_of_lt_of_le (by positivity) ha
  have hNC : (N : ℂ) ≠ 0 := by
    have : N ≠ 0 := by omega
    exact_mod_cast this
  set V : ℂ := N * ((a h : ℂ) / 2) * (alignShrink (N * (a 1 / 2)) : ℂ) ^ h * Complex.exp (((s : ℝ) * ψ h : ℝ) * Complex.I) with hV
  have main : ∀ l : List (ℕ → ℝ), (∀ x ∈ l, ∃ D τ : ℝ, ∀ m < N, x m = harmonicRecord N b D d a ψ τ m) →
      (l.filterMap fun x => coherentRun x N n).length = l.length ∧ ((l.filterMap fun x => coherentRun x N n).map fun X => X k).sum = l.length * V := by
    intro l
    induction l with
    | nil => intro _; simp
    | cons x l ih =>
      intro hl
      obtain ⟨D, τ, hx⟩ := hl x (by simp)
      obtain ⟨i1, i2⟩ := ih fun y hy => hl y (by simp [hy])
      obtain ⟨bR, hr⟩ := run_some N b d hb hcop hd (by omega) D a ψ ha hdom τ n hbn hn x hx
      rw [List.filterMap_cons, hr]
      simp only [List.length_cons, List.map_cons, List.sum_cons]
      rw [i1, i2, C88_aligned_harmonic N b d hb hcop hd D a ψ hpos hψ τ bR h hh hhd k hk0 hkN s hs hk, ← hV]
      refine ⟨rfl, ?_⟩
      push_cast
      ring
  obtain ⟨m1, m2⟩ := main runs hruns
  unfold coherentSum
  simp only
  rw [m1, m2, if_pos (List.length_pos_iff.mpr hne), hV]
  have hlC : (runs.length : ℂ) ≠ 0 := by
    have := (List.length_pos_iff.mpr hne).ne'
    exact_mod_cast this
  field_simp

/-- The rows of a coherent acquisition: one capture per pair of DC level and start phase. -/
noncomputable def harmonicRows (N b d : ℕ) (a ψ : ℕ → ℝ) (starts : List (ℝ × ℝ)) : List (List ℝ) :=
  starts.map fun p => (List.range N).map (harmonicRecord N b p.1 d a ψ p.2)

private theorem record_sum (N b d : ℕ) (hcop : Nat.Coprime b N) (hd : 2 * d < N) (D : ℝ) (a ψ : ℕ → ℝ) (τ : ℝ) :
    ∑ n ∈ range N, harmonicRecord N b D d a ψ τ n = N * D := by
  have hN : N ≠ 0 := by omega
  have h := dft_record_all N b hN D d a ψ τ 0
  have nd : ∀ h : ℕ, h < d → ¬ (N : ℤ) ∣ ((h + 1 : ℕ) : ℤ) * b := by
    intro h hh hdv
    have h2 : (N : ℤ) ∣ ((h + 1 : ℕ) : ℤ) := by
      apply IsCoprime.dvd_of_dvd_mul_right _ hdv
      rw [Nat.isCoprime_iff_coprime]
      exact hcop.symm
    have h3 := Int.le_of_dvd (by omega) h2
    omega
  rw [if_pos (by simp), sum_eq_zero, add_zero] at h
  · have h2 : ((∑ n ∈ range N, harmonicRecord N b D d a ψ τ n : ℝ) : ℂ) = ((N * D : ℝ) : ℂ) := by
      rw [Complex.ofReal_sum]
      unfold dft at h
      simp only [Int.cast_zero, zero_mul, zero_div, neg_zero, cis_zero, mul_one] at h
      rw [h]
      push_cast
      ring
    exact_mod_cast h2
  · intro h hh
    rw [mem_range] at hh
    rw [if_neg (by rw [sub_zero]; exact nd h hh), if_neg (by rw [sub_zero, dvd_neg]; exact nd h hh), mul_zero, mul_zero, add_zero]

theorem prepare_row (N b d : ℕ) (hcop : Nat.Coprime b N) (hd : 2 * d < N) (D : ℝ) (a ψ : ℕ → ℝ) (τ V : ℝ) (hV : V ≠ 0) :
    (removeDc ((List.range N).map (harmonicRecord N b D d a ψ τ))).map (· / V) =
      (List.range N).map (harmonicRecord N b 0 d (fun h => a h / V) ψ τ) := by
  have hNR : (N : ℝ) ≠ 0 := by
    have : N ≠ 0 := by omega
    exact_mod_cast this
  unfold removeDc
  rw [list_sum_map_range, record_sum N b d hcop hd, List.length_map, List.length_range, List.map_map, List.map_map]
  apply List.map_congr_left
  intro n _
  simp only [Function.comp]
  unfold harmonicRecord harmonicSignal
  rw [mul_div_cancel_left₀ D hNR, add_sub_cancel_left, zero_add, sum_div]
  apply sum_congr rfl
  intro h _
  ring

/-- **C88 (complex spectrum).** `compute_spectrum` in coherent mode with a rectangular window on any number of captures of the same distorted tone
(own DC level and own start phase each), full scale `V`: bin `k` of harmonic `h` of the complex spectrum has the harmonic's amplitude relative to
full scale as magnitude (up to the `1e-20` regularisation) and its phase relative to the fundamental as angle, reversed when folded. -/
theorem C88_complex_spectrum (lib : WinLib) (args : SpectrumArgs) (hw : args.win = "boxcar" ∨ args.win = "rectangular") (N b d : ℕ) (hb : 0 < b)
    (hcop : Nat.Coprime b N) (hd : 2 * d < N) (a ψ : ℕ → ℝ) (V : ℝ) (hV : 0 < V) (hsc : args.scale = .scalar V)
    (ha : 2 / 10 ^ 10 ≤ a 1 / V) (hψ : ψ 1 = 0) (hdom : ∀ h, 2 ≤ h → h ≤ d → |a h| < a 1) (n : ℕ)
    (hn : rfftInbandBinCount (N : ℤ) args.osr = .ok n) (hbn : b < n) (hn2 : n ≤ N / 2 + 1) (starts : List (ℝ × ℝ)) (hne : starts ≠ [])
    (hrows : starts.length ≤ 2 * N) (h : ℕ) (hh : 1 ≤ h) (hhd : h ≤ d) (k : ℕ) (hk0 : 0 < k) (hkN : 2 * k ≤ N) (s : ℤ) (hs : s = 1 ∨ s = -1)
    (hk : (N : ℤ) ∣ (h : ℤ) * b - s * k) (hcut : args.cutoff ≤ 0 ∨ ⌈args.cutoff / args.fs * N⌉.toNat ≤ k) (spec : ℕ → ℂ)
    (hspec : polarSpectrum lib (harmonicRows N b d a ψ starts) args = .ok spec) :
    spec k = ((a h / V * alignShrink (N * (a 1 / V / 2)) ^ h : ℝ) : ℂ) * Complex.exp (((s : ℝ) * ψ h : ℝ) * Complex.I) := by
  have hN0 : N ≠ 0 := by omega
  have hNR : (N : ℝ) ≠ 0 := by exact_mod_cast hN0
  have hcols : ((harmonicRows N b d a ψ starts).headD []).length = N := by
    cases starts with
    | nil => exact absurd rfl hne
    | cons p l => simp [harmonicRows]
  have hor : orient (harmonicRows N b d a ψ starts) = harmonicRows N b d a ψ starts := by
    unfold orient
    simp only [hcols]
    have hlen : (harmonicRows N b d a ψ starts).length = starts.length := by simp [harmonicRows]
    rw [if_neg (by omega), if_neg (by rw [hlen]; omega)]
  have hprep : prepareFftInput (harmonicRows N b d a ψ starts) args.scale =
      .ok (harmonicRows N b d (fun h => a h / V) ψ (starts.map fun p => (0, p.2))) := by
    unfold prepareFftInput
    rw [hsc, hor]
    simp only [peakAmplitude]
    congr 1
    unfold harmonicRows
    rw [List.map_map, List.map_map]
    apply List.map_congr_left
    intro p _
    simp only [Function.comp]
    rw [if_pos hV.ne']
    exact prepare_row N b d hcop hd p.1 a ψ p.2 V hV.ne'
  unfold polarSpectrum at hspec
  rw [hprep] at hspec
  simp only at hspec
  have hcols2 : ((harmonicRows N b d (fun h => a h / V) ψ (starts.map fun p => ((0 : ℝ), p.2))).headD []).length = N := by
    cases starts with
    | nil => exact absurd rfl hne
    | cons p l => simp [harmonicRows]
  rw [hcols2, hn] at hspec
  simp only at hspec
  injection hspec with hspec
  have hw1 : windowVector lib args.win N = fun _ => 1 := by
    funext m
    unfold windowVector
    rw [if_pos hw]
  have hcorr : powerCorrection (windowGain (fun _ => 1) N) (windowEnbw (fun _ => 1) N) = 4 := by
    unfold powerCorrection windowGain windowEnbw
    simp
    field_simp
  have hcb : ¬ k < (if 0 < args.cutoff then min ⌈args.cutoff / args.fs * N⌉.toNat (N / 2 + 1) else 0) := by
    by_cases h0 : 0 < args.cutoff
    · rw [if_pos h0, not_lt]
      rcases hcut with hc | hc
      · linarith
      · exact le_trans (min_le_left _ _) hc
    · rw [if_neg h0]
      omega
  have hnyq : 2 * k ≠ N := by
    intro h2
    have hk' : (N : ℤ) ∣ (h : ℤ) * b - -s * k := by
      have e : (h : ℤ) * b - -s * k = ((h : ℤ) * b - s * k) + s * N := by
        rw [← h2]
        push_cast
        ring
      rw [e]
      exact dvd_add hk (dvd_mul_left _ _)
    have := (alias_unique N b d hcop hd h h hh hhd hh hhd s (-s) k hs (by rcases hs with rfl | rfl <;> simp) hk hk').2
    rcases hs with rfl | rfl <;> omega
  rw [← hspec, hw1]
  simp only
  rw [if_neg hcb, hcorr, show Real.sqrt 4 = 2 by rw [show (4 : ℝ) = 2 ^ 2 by norm_num]; exact Real.sqrt_sq (by norm_num)]
  have hcc : ∀ runs : List (ℕ → ℝ), coherentComplex runs N n k = coherentSum runs N n k := by
    intro runs
    unfold coherentComplex
    simp only
    rw [if_neg (by omega), if_neg (by omega)]
  rw [hcc, C88_average N b d hb hcop hd (fun h => a h / V) ψ ha hψ _ n hbn hn2 _ _ _ h hh hhd k hk0 hkN s hs hk]
  · push_cast
    ring
  · intro g g1 g2
    rw [abs_div, abs_of_pos hV]
    exact div_lt_div_of_pos_right (hdom g g1 g2) hV
  · intro h0
    apply hne
    unfold runsOf harmonicRows at h0
    simpa using h0
  · intro x hx
    unfold runsOf harmonicRows at hx
    rw [List.map_map, List.map_map, List.mem_map] at hx
    obtain ⟨p, _, rfl⟩ := hx
    refine ⟨0, p.2, ?_⟩
    intro m hm
    simp only [Function.comp, mul_one]
    rw [List.getD_eq_getElem?_getD, List.getElem?_map, List.getElem?_range hm]
    rfl

private theorem angle_scaled (r x : ℝ) (hr : 0 < r) (hx : -Real.pi < x) (hx' : x ≤ Real.pi) :
    angleDeg ((r : ℂ) * Complex.exp ((x : ℝ) * Complex.I)) = x * (180 / Real.pi) := by
  unfold angleDeg
  rw [Complex.arg_real_mul _ hr, Complex.exp_mul_I, Complex.arg_cos_add_sin_mul_I ⟨hx, hx'⟩]

private theorem shrink_pos {R : ℝ} (hR : 0 < R) : 0 < alignShrink R := by
  unfold alignShrink
  positivity

/-- **C88 (printed angles).** Under the same conditions the angle printed for a harmonic that is strong enough, not collided and listed at its bin
is `s·ψ_h` in degrees: the relative phase, with reversed sign when the harmonic is folded. -/
theorem C88_printed_angle (lib : WinLib) (args : SpectrumArgs) (hw : args.win = "boxcar" ∨ args.win = "rectangular") (N b d : ℕ) (hb : 0 < b)
    (hcop : Nat.Coprime b N) (hd : 2 * d < N) (a ψ : ℕ → ℝ) (V : ℝ) (hV : 0 < V) (hsc : args.scale = .scalar V)
    (ha : 2 / 10 ^ 10 ≤ a 1 / V) (hψ : ψ 1 = 0) (hdom : ∀ h, 2 ≤ h → h ≤ d → |a h| < a 1) (n : ℕ)
    (hn : rfftInbandBinCount (N : ℤ) args.osr = .ok n) (hbn : b < n) (hn2 : n ≤ N / 2 + 1) (starts : List (ℝ × ℝ)) (hne : starts ≠ [])
    (hrows : starts.length ≤ 2 * N) (i : ℕ) (hhd : i + 2 ≤ d) (k : ℕ) (hk0 : 0 < k) (hkN : 2 * k ≤ N) (s : ℤ) (hs : s = 1 ∨ s = -1)
    (hk : (N : ℤ) ∣ ((i + 2 : ℕ) : ℤ) * b - s * k) (hcut : args.cutoff ≤ 0 ∨ ⌈args.cutoff / args.fs * N⌉.toNat ≤ k) (spec : ℕ → ℂ)
    (hspec : polarSpectrum lib (harmonicRows N b d a ψ starts) args = .ok spec) (hai : 0 < a (i + 2)) (hlo : -Real.pi < ψ (i + 2))
    (hhi : ψ (i + 2) < Real.pi) (bins collided : List ℕ) (hbins : i < bins.length) (hbk : bins.getD i 0 = k) (levels : List EReal)
    (hl : i < levels.length) (hlev : ((-149 : ℝ) : EReal) < levels.getD i 0) (hcol : i + 2 ∉ collided) :
    polarAnnotation spec (N / 2 + 1) (some levels) bins collided i = s * (ψ (i + 2) * (180 / Real.pi)) ∧
      (i = 0 → (harmonicPhases spec (N / 2 + 1) bins).1 = s * (ψ 2 * (180 / Real.pi))) ∧
      (i = 1 → (harmonicPhases spec (N / 2 + 1) bins).2 = s * (ψ 3 * (180 / Real.pi))) := by
  have hval := C88_complex_spectrum lib args hw N b d hb hcop hd a ψ V hV hsc ha hψ hdom n hn hbn hn2 starts hne hrows (i + 2) (by omega) hhd k hk0
    hkN s hs hk hcut spec hspec
  have hNR : (0 : ℝ) < N := by
    have : 0 < N := by omega
    exact_mod_cast this
  have hshr : 0 < alignShrink (N * (a 1 / V / 2)) := by
    apply shrink_pos
    have : 0 < a 1 / V := lt_of_lt_of_le (by positivity) ha
    positivity
  have hang : angleDeg (spec k) = s * (ψ (i + 2) * (180 / Real.pi)) := by
    rw [hval, angle_scaled _ _ (by positivity)]
    · ring
    · rcases hs with rfl | rfl
      · push_cast; linarith
      · push_cast; linarith
    · rcases hs with rfl | rfl
      · push_cast; linarith
      · push_cast; linarith
  refine ⟨?_, ?_, ?_⟩
  · unfold polarAnnotation
    simp only
    rw [if_pos hl, if_pos ⟨hlev, hcol, hbins⟩, hbk, if_pos ⟨hk0, by omega⟩, hang]
  · rintro rfl
    unfold harmonicPhases
    simp only
    rw [hbk, if_pos ⟨hbins, by omega⟩, hang]
  · rintro rfl
    unfold harmonicPhases
    simp only
    rw [hbk, if_pos ⟨hbins, by omega⟩, hang]

/-- A polynomial of a cosine is a finite cosine series. -/
theorem exists_cosine_series (A : ℝ) (g : Polynomial ℝ) (d : ℕ) (hg : g.natDegree ≤ d) :
    ∃ c : ℕ → ℝ, ∀ θ : ℝ, g.eval (A * Real.cos θ) = ∑ h ∈ range (d + 1), c h * Real.cos (h * θ) := by
  have hpow : ∀ m : ℕ, ∃ c : ℕ → ℝ, ∀ θ : ℝ, Real.cos θ ^ m = ∑ h ∈ range (m + 1), c h * Real.cos (h * θ) := by
    intro m
    induction m with
    | zero => exact ⟨fun _ => 1, fun θ => by simp⟩
    | succ m ih =>
      obtain ⟨c, hc⟩ := ih
      refine ⟨fun j => (if j = 0 then 0 else c (j - 1) / 2) + (if j + 1 ≤ m then c (j + 1) / 2 else 0) + (if j = 1 then c 0 / 2 else 0), ?_⟩
      intro θ
      rw [pow_succ, hc, sum_mul]
      have e : ∀ h : ℕ, c h * Real.cos (h * θ) * Real.cos θ =
          c h / 2 * Real.cos ((h + 1 : ℕ) * θ) + c h / 2 * Real.cos ((h : ℝ) * θ - θ) := by
        intro h
        rw [show ((h + 1 : ℕ) : ℝ) * θ = h * θ + θ by push_cast; ring, Real.cos_add, Real.cos_sub]
        ring
      simp only [e, sum_add_distrib, add_mul]
      rw [add_assoc]
      congr 1
      · rw [sum_range_succ' _ (m + 1)]
        simp
      · rw [sum_range_succ' _ m]
        have e2 : ∀ h : ℕ, c (h + 1) / 2 * Real.cos (((h + 1 : ℕ) : ℝ) * θ - θ) = c (h + 1) / 2 * Real.cos (h * θ) := by
          intro h
          congr 2
          push_cast
          ring
        simp only [e2]
        congr 1
        · rw [sum_range_succ _ (m + 1), sum_range_succ _ m]
          rw [if_neg (by omega), if_neg (by omega), zero_mul, zero_mul, add_zero, add_zero]
          apply sum_congr rfl
          intro h hh
          rw [mem_range] at hh
          rw [if_pos (by omega)]
        · rw [sum_eq_single 1]
          · simp
          · intro j _ hj
            rw [if_neg hj, zero_mul]
          · intro h
            exact absurd (mem_range.mpr (by omega)) h
  choose c hc using hpow
  refine ⟨fun h => ∑ m ∈ range (d + 1), if h ≤ m then g.coeff m * A ^ m * c m h else 0, ?_⟩
  intro θ
  rw [Polynomial.eval_eq_sum_range' (Nat.lt_succ_of_le hg)]
  simp only [sum_mul]
  rw [sum_comm]
  apply sum_congr rfl
  intro m hm
  rw [mem_range] at hm
  rw [mul_pow, hc m θ, mul_sum, mul_sum]
  have hsub : range (m + 1) ⊆ range (d + 1) := range_subset_range.mpr (by omega)
  rw [← sum_subset hsub]
  · apply sum_congr rfl
    intro h hh
    rw [mem_range] at hh
    rw [if_pos (by omega)]
    ring
  · intro h _ hh
    rw [mem_range, not_lt] at hh
    rw [if_neg (by omega), zero_mul]

/-- **C88 (memoryless distortion).** Any memoryless polynomial characteristic of degree at most `d`, driven by a coherent sine started at any phase:
every harmonic of the coherent average is real - the plot shows it at 0° or 180° - and its sign is that of its cosine coefficient. -/
theorem C88_memoryless (N b d : ℕ) (hb : 0 < b) (hcop : Nat.Coprime b N) (hd : 2 * d < N) (A : ℝ) (g : Polynomial ℝ) (hg : g.natDegree ≤ d) :
    ∃ c : ℕ → ℝ, (∀ θ : ℝ, g.eval (A * Real.cos θ) = ∑ h ∈ range (d + 1), c h * Real.cos (h * θ)) ∧
      (2 / 10 ^ 10 ≤ c 1 → (∀ h, 2 ≤ h → h ≤ d → |c h| < c 1) → ∀ n, b < n → n ≤ N / 2 + 1 → ∀ starts : List ℝ, starts ≠ [] →
        ∀ h, 1 ≤ h → h ≤ d → ∀ k, 0 < k → 2 * k ≤ N → ((N : ℤ) ∣ (h : ℤ) * b - k ∨ (N : ℤ) ∣ (h : ℤ) * b + k) →
          coherentSum (starts.map fun τ => fun m : ℕ => g.eval (A * Real.cos (2 * Real.pi * (b * m / N) + τ))) N n k =
            ((c h / 2 * alignShrink (N * (c 1 / 2)) ^ h : ℝ) : ℂ)) := by
  obtain ⟨c, hc⟩ := exists_cosine_series A g d hg
  refine ⟨c, hc, ?_⟩
  intro ha hdom n hbn hn starts hne h hh hhd k hk0 hkN hk
  have key : ∀ s : ℤ, s = 1 ∨ s = -1 → (N : ℤ) ∣ (h : ℤ) * b - s * k →
      coherentSum (starts.map fun τ => fun m : ℕ => g.eval (A * Real.cos (2 * Real.pi * (b * m / N) + τ))) N n k =
            ((c h / 2 * alignShrink (N * (c 1 / 2)) ^ h : ℝ) : ℂ) := by
    intro s hs hk
    rw [C88_average N b d hb hcop hd c (fun _ => 0) ha rfl hdom n hbn hn _ (by simpa using hne) _ h hh hhd k hk0 hkN s hs hk]
    · push_cast
      simp
    · intro x hx
      rw [List.mem_map] at hx
      obtain ⟨τ, _, rfl⟩ := hx
      refine ⟨c 0, τ, ?_⟩
      intro m _
      beta_reduce
      rw [hc, sum_range_succ']
      unfold harmonicRecord harmonicSignal
      simp
      ring
  rcases hk with hk | hk
  · exact key 1 (Or.inl rfl) (by simpa using hk)
  · exact key (-1) (Or.inr rfl) (by simpa using hk)

/-- **C88 (second harmonic of a square law).** For `y = x + k2·x²` with a coherent sine of amplitude `A`, the second harmonic is at 0° for positive
and at 180° for negative `k2`. -/
theorem C88_square_law (N b : ℕ) (hb : 0 < b) (hcop : Nat.Coprime b N) (hN : 4 < N) (A k2 : ℝ) (hA : 2 / 10 ^ 10 ≤ A) (hk2 : k2 ≠ 0)
    (hsmall : |k2| * A < 2) (n : ℕ) (hbn : b < n) (hn : n ≤ N / 2 + 1) (starts : List ℝ) (hne : starts ≠ []) (k : ℕ) (hk0 : 0 < k)
    (hkN : 2 * k ≤ N) (hk : (N : ℤ) ∣ 2 * b - k ∨ (N : ℤ) ∣ 2 * b + k) :
    angleDeg (coherentSum (starts.map fun τ => fun m : ℕ =>
      A * Real.cos (2 * Real.pi * (b * m / N) + τ) + k2 * (A * Real.cos (2 * Real.pi * (b * m / N) + τ)) ^ 2) N n k) = if 0 < k2 then 0 else 180 := by
  have hApos : 0 < A := lt_of_lt_of_le (by positivity) hA
  have hNR : (0 : ℝ) < N := by
    have : 0 < N := by omega
    exact_mod_cast this
  set c : ℕ → ℝ := fun h => if h = 1 then A else if h = 2 then k2 * A ^ 2 / 2 else 0 with hc
  have hdom : ∀ h, 2 ≤ h → h ≤ 2 → |c h| < c 1 := by
    intro h h1 h2
    have : h = 2 := by omega
    subst this
    simp only [hc]
    norm_num
    rw [abs_div, abs_mul, abs_of_pos (show (0 : ℝ) < A ^ 2 by positivity), abs_of_pos (show (0 : ℝ) < 2 by norm_num)]
    nlinarith
  have key : ∀ s : ℤ, s = 1 ∨ s = -1 → (N : ℤ) ∣ ((2 : ℕ) : ℤ) * b - s * k →
      coherentSum (starts.map fun τ => fun m : ℕ =>
        A * Real.cos (2 * Real.pi * (b * m / N) + τ) + k2 * (A * Real.cos (2 * Real.pi * (b * m / N) + τ)) ^ 2) N n k =
            ((k2 * (A ^ 2 / 4 * alignShrink (N * (A / 2)) ^ 2) : ℝ) : ℂ) := by
    intro s hs hk
    rw [C88_average N b 2 hb hcop (by omega) c (fun _ => 0) (by simpa [hc] using hA) rfl hdom n hbn hn _ (by simpa using hne) _ 2 (by norm_num)
      le_rfl k hk0 hkN s hs hk]
    · simp [hc]
      ring
    · intro x hx
      rw [List.mem_map] at hx
      obtain ⟨τ, _, rfl⟩ := hx
      refine ⟨k2 * A ^ 2 / 2, τ, ?_⟩
      intro m _
      unfold harmonicRecord harmonicSignal
      rw [sum_range_succ, sum_range_succ, sum_range_zero]
      simp only [hc]
      norm_num
      rw [Real.cos_two_mul]
      ring
  have hval : coherentSum (starts.map fun τ => fun m : ℕ =>
        A * Real.cos (2 * Real.pi * (b * m / N) + τ) + k2 * (A * Real.cos (2 * Real.pi * (b * m / N) + τ)) ^ 2) N n k =
            ((k2 * (A ^ 2 / 4 * alignShrink (N * (A / 2)) ^ 2) : ℝ) : ℂ) := by
    rcases hk with hk | hk
    · exact key 1 (Or.inl rfl) (by simpa using hk)
    · exact key (-1) (Or.inr rfl) (by simpa using hk)
  have hpos : 0 < A ^ 2 / 4 * alignShrink (N * (A / 2)) ^ 2 := by
    have := shrink_pos (show 0 < N * (A / 2) by positivity)
    positivity
  rw [hval]
  unfold angleDeg
  by_cases h0 : 0 < k2
  · rw [if_pos h0, Complex.arg_ofReal_of_nonneg (by positivity), zero_mul]
  · have hneg : k2 < 0 := lt_of_le_of_ne (not_lt.mp h0) hk2
    rw [if_neg h0, Complex.arg_ofReal_of_neg (mul_neg_of_neg_of_pos hneg hpos)]
    field_simp

/-- **C88 fails across Nyquist zones.** One and the same distortion (second harmonic a quarter turn ahead) measured with one and with three periods in
eight samples: the polar spectrum shows the second harmonic at +90° and at -90°. -/
theorem C88_zone_independence_fails :
    ∃ (a ψ : ℕ → ℝ), angleDeg (coherentSum [harmonicRecord 8 1 0 2 a ψ 0] 8 5 2) = 90 ∧
      angleDeg (coherentSum [harmonicRecord 8 3 0 2 a ψ 0] 8 5 2) = -90 := by
  set a : ℕ → ℝ := fun h => if h = 1 then 1 else 1 / 4 with ha
  set ψ : ℕ → ℝ := fun h => if h = 2 then Real.pi / 2 else 0 with hψ
  have hdom : ∀ h, 2 ≤ h → h ≤ 2 → |a h| < a 1 := by
    intro h h1 h2
    have : h = 2 := by omega
    subst this
    simp only [ha]
    norm_num
  have hpi := Real.pi_pos
  have key : ∀ (b : ℕ) (s : ℤ), 0 < b → Nat.Coprime b 8 → b < 5 → (s = 1 ∨ s = -1) → ((8 : ℕ) : ℤ) ∣ ((2 : ℕ) : ℤ) * b - s * (2 : ℕ) →
      angleDeg (coherentSum [harmonicRecord 8 b 0 2 a ψ 0] 8 5 2) = s * 90 := by
    intro b s hb hcop hb5 hs hk
    rw [C88_average 8 b 2 hb hcop (by norm_num) a ψ (by simp only [ha]; norm_num) (by simp [hψ]) hdom 5 hb5 (by norm_num) _ (by simp) (by
      intro x hx
      rw [List.mem_singleton] at hx
      subst hx
      exact ⟨0, 0, fun _ _ => rfl⟩) 2 (by norm_num) le_rfl 2 (by norm_num) (by norm_num) s hs hk]
    have hs1 := shrink_pos (show (0 : ℝ) < (8 : ℕ) * (a 1 / 2) by simp only [ha]; norm_num)
    rw [show ((a 2 : ℂ) / 2) * (alignShrink ((8 : ℕ) * (a 1 / 2)) : ℂ) ^ 2 = ((1 / 8 * alignShrink ((8 : ℕ) * (a 1 / 2)) ^ 2 : ℝ) : ℂ) by
      simp only [ha]
      push_cast
      norm_num, angle_scaled _ _ (by positivity)]
    · simp only [hψ]
      norm_num
      field_simp
      ring
    · simp only [hψ]
      rcases hs with rfl | rfl <;> norm_num <;> linarith
    · simp only [hψ]
      rcases hs with rfl | rfl <;> norm_num <;> linarith
  refine ⟨a, ψ, ?_, ?_⟩
  · rw [key 1 1 (by norm_num) (by decide) (by norm_num) (Or.inl rfl) (by norm_num)]
    norm_num
  · rw [key 3 (-1) (by norm_num) (by decide) (by norm_num) (Or.inr rfl) (by norm_num)]
    norm_num

/-- **C88 (power).** In coherent mode the complex spectrum and the power spectrum of the same call agree in every bin from DC to Nyquist, for every
data, window and option: the squared magnitude is the power. Below the cutoff frequency both are blanked: 0 and the `1e-20` placeholder. -/
theorem C88_power_agrees (lib : WinLib) (data : List (List ℝ)) (args : SpectrumArgs) (hc : args.coherent = true) (r : SpectrumResult)
    (hr : computeSpectrum lib data args = .ok r) :
    ∃ spec, polarSpectrum lib data args = .ok spec ∧ ∀ k, k ≤ r.N / 2 →
      (¬ (0 < args.cutoff ∧ k < ⌈args.cutoff / args.fs * r.N⌉.toNat) → ‖spec k‖ ^ 2 = r.power.getD k 0) ∧
      (0 < args.cutoff ∧ k < ⌈args.cutoff / args.fs * r.N⌉.toNat → spec k = 0 ∧ r.power.getD k 0 = 1 / 10 ^ 20) := by
  obtain ⟨d, n, hd, hn, -, -, -, -, -, -, hp, hm⟩ := computeSpectrum_ok lib data args r hr
  obtain ⟨hs, spur, noise, -, -, -, has⟩ := spectrumMetrics_ok lib args _ _ n r.power r hm
  have hrN : r.N = (d.headD []).length := congrArg SpectrumResult.N has
  rw [hrN]
  set N := (d.headD []).length with hNdef
  set w := windowVector lib args.win N with hw
  set corr := powerCorrection (windowGain w N) (windowEnbw w N) with hcorr
  have hcn : 0 ≤ corr := powerCorrection_nonneg w N
  have hsq : ∀ k, ‖coherentComplex (runsOf d w) N n k * (Real.sqrt corr : ℂ)‖ ^ 2 =
      oneSided N k (‖coherentSum (runsOf d w) N n k‖ ^ 2) * corr := by
    intro k
    have hs2 : ‖(Real.sqrt 2 : ℂ)‖ = Real.sqrt 2 := by
      rw [Complex.norm_real, Real.norm_of_nonneg (Real.sqrt_nonneg 2)]
    rw [norm_mul, mul_pow, Complex.norm_real, Real.norm_of_nonneg (Real.sqrt_nonneg corr), Real.sq_sqrt hcn]
    congr 1
    unfold coherentComplex oneSided
    simp only
    by_cases h0 : k = 0 <;> by_cases h1 : N % 2 = 0 ∧ k = N / 2
    · rw [if_pos h1, if_pos h0, if_pos h1, if_pos h0, norm_div, norm_div, hs2, div_pow, div_pow, Real.sq_sqrt (by norm_num)]
    · rw [if_neg h1, if_pos h0, if_neg h1, if_pos h0, norm_div, hs2, div_pow, Real.sq_sqrt (by norm_num)]
    · rw [if_pos h1, if_neg h0, if_pos h1, if_neg h0, norm_div, hs2, div_pow, Real.sq_sqrt (by norm_num)]
    · rw [if_neg h1, if_neg h0, if_neg h1, if_neg h0]
  have hlen : (rawSpectrum lib args d N n).length = N / 2 + 1 := by
    unfold rawSpectrum coherentAverage
    simp [hc]
  have hraw : ∀ k, k ≤ N / 2 → (rawSpectrum lib args d N n).getD k 0 = oneSided N k (‖coherentSum (runsOf d w) N n k‖ ^ 2) * corr := by
    intro k hk
    unfold rawSpectrum coherentAverage
    simp only [hc, if_true]
    rw [List.getD_eq_getElem?_getD, List.getElem?_map, List.getElem?_map, List.getElem?_range (by omega)]
    rfl
  refine ⟨_, by
    unfold polarSpectrum
    rw [hd]
    simp only
    rw [← hNdef, hn], fun k hk => ?_⟩
  rw [← hw, ← hcorr]
  constructor
  · intro hcut
    have hkc : ¬ k < (if 0 < args.cutoff then min ⌈args.cutoff / args.fs * N⌉.toNat (N / 2 + 1) else 0) := by
      split_ifs with h
      · intro hlt
        exact hcut ⟨h, lt_of_lt_of_le hlt (min_le_left _ _)⟩
      · omega
    rw [if_neg hkc, hsq, hp, ← hraw k hk]
    unfold applyCutoff
    split_ifs with h
    · simp only [hlen]
      rw [if_pos h] at hkc
      rw [List.getD_eq_getElem?_getD, List.getD_eq_getElem?_getD, List.getElem?_mapIdx, List.getElem?_eq_getElem (by omega)]
      simp only [Option.map_some, Option.getD_some]
      rw [if_neg hkc]
    · rfl
  · rintro ⟨h, hlt⟩
    have hkc : k < min ⌈args.cutoff / args.fs * N⌉.toNat (N / 2 + 1) := lt_min hlt (by omega)
    refine ⟨?_, ?_⟩
    · rw [if_pos h, if_pos hkc]
    · rw [hp]
      unfold applyCutoff
      rw [if_pos h]
      simp only [hlen]
      rw [List.getD_eq_getElem?_getD, List.getElem?_mapIdx, List.getElem?_eq_getElem (by omega)]
      simp only [Option.map_some, Option.getD_some]
      rw [if_pos hkc]

/-- **C88 (no harmonic, no angle).** A harmonic without a bin in the spectrum has the angle 0 instead of failing, and the plot prints the angle 0 for
harmonics that are at DC, outside the spectrum, on top of the fundamental or of another harmonic, or not above -149 dB. -/
theorem C88_no_angle (spec : ℕ → ℂ) (len : ℕ) (bins collided : List ℕ) (levels : Option (List EReal)) (i : ℕ) :
    (bins.length = 0 ∨ len ≤ bins.getD 0 0 → (harmonicPhases spec len bins).1 = 0) ∧
      (bins.length ≤ 1 ∨ len ≤ bins.getD 1 0 → (harmonicPhases spec len bins).2 = 0) ∧
      (levels = none ∨ i + 2 ∈ collided ∨ bins.length ≤ i ∨ bins.getD i 0 = 0 ∨ len ≤ bins.getD i 0 →
        polarAnnotation spec len levels bins collided i = 0) ∧
      (∀ l, levels = some l → (l.length ≤ i ∨ l.getD i 0 ≤ ((-149 : ℝ) : EReal)) → polarAnnotation spec len levels bins collided i = 0) := by
  refine ⟨?_, ?_, ?_, ?_⟩
  · intro h
    unfold harmonicPhases
    exact if_neg (by omega)
  · intro h
    unfold harmonicPhases
    exact if_neg (by omega)
  · intro h
    unfold polarAnnotation
    cases levels with
    | none => rfl
    | some l =>
      simp only
      generalize (if i < l.length then l.getD i 0 else ((-150 : ℝ) : EReal)) = db
      split_ifs with h1 h2
      · rcases h with h | h | h | h | h
        · simp at h
        · exact absurd h h1.2.1
        · omega
        · omega
        · omega
      · rfl
      · rfl
  · rintro l rfl h
    unfold polarAnnotation
    simp only
    apply if_neg
    rintro ⟨h1, -⟩
    rcases h with h | h
    · rw [if_neg (by omega)] at h1
      have := EReal.coe_lt_coe_iff.mp h1
      norm_num at this
    · by_cases hl : i < l.length
      · rw [if_pos hl] at h1
        exact absurd h1 (not_lt.mpr h)
      · rw [if_neg hl] at h1
        have := EReal.coe_lt_coe_iff.mp h1
        norm_num at this

/-! ## Cases meeting the hypotheses -/

/-- A half-scale tone with 10 % second harmonic, three captures with different offsets and start phases: the spectrum is computed and the theorem
applies to its second harmonic. -/
example (lib : WinLib) : ∃ spec, polarSpectrum lib
    (harmonicRows 16 3 2 (fun h => if h = 1 then 1 / 2 else 1 / 20) (fun h => if h = 2 then 1 else 0) [(0, 0), (1, 2), (-3, 1 / 2)])
      { win := "boxcar", scale := .scalar 1 } = .ok spec ∧
    spec 6 = ((1 / 20 / 1 * alignShrink (16 * (1 / 2 / 1 / 2)) ^ 2 : ℝ) : ℂ) * Complex.exp ((((1 : ℤ) : ℝ) * 1 : ℝ) * Complex.I) ∧
    polarAnnotation spec 9 (some [((-20 : ℝ) : EReal), ((-200 : ℝ) : EReal)]) [6, 7] [] 0 = 1 * (180 / Real.pi) := by
  have hn : rfftInbandBinCount ((16 : ℕ) : ℤ) (1 : ℝ) = .ok 9 := by
    unfold rfftInbandBinCount
    norm_num [isclose12, rint]
    rfl
  obtain ⟨spec, hspec⟩ : ∃ spec, polarSpectrum lib
    (harmonicRows 16 3 2 (fun h => if h = 1 then 1 / 2 else 1 / 20) (fun h => if h = 2 then 1 else 0) [(0, 0), (1, 2), (-3, 1 / 2)])
      { win := "boxcar", scale := .scalar 1 } = .ok spec := by
    unfold polarSpectrum prepareFftInput
    simp only [peakAmplitude]
    have hl : ((List.map (fun r : List ℝ => if (1 : ℝ) ≠ 0 then List.map (fun x => x / 1) (removeDc r) else removeDc r)
      (orient (harmonicRows 16 3 2 (fun h => if h = 1 then 1 / 2 else 1 / 20) (fun h => if h = 2 then 1 else 0) [(0, 0), (1, 2), (-3, 1 / 2)]))).headD
        []).length = 16 := by
      simp [harmonicRows, orient, removeDc]
    rw [hl, hn]
    exact ⟨_, rfl⟩
  refine ⟨spec, hspec, ?_, ?_⟩
  on_goal 2 =>
    have := (C88_printed_angle lib { win := "boxcar", scale := .scalar 1 } (Or.inl rfl) 16 3 2 (by norm_num) (by decide) (by norm_num)
      (fun h => if h = 1 then 1 / 2 else 1 / 20) (fun h => if h = 2 then 1 else 0) 1 one_pos rfl (by norm_num) (by simp) (by
        intro h h1 h2
        have : h = 2 := by omega
        subst this
        norm_num [abs_of_pos]) 9 hn (by norm_num) (by norm_num) [(0, 0), (1, 2), (-3, 1 / 2)] (by simp) (by simp) 0 le_rfl 6
      (by norm_num) (by norm_num) 1 (Or.inl rfl) (by norm_num) (Or.inl le_rfl) spec hspec (by norm_num)
      (by have := Real.two_le_pi; norm_num; linarith) (by have := Real.two_le_pi; norm_num; linarith) [6, 7] [] (by norm_num) rfl
      [((-20 : ℝ) : EReal), ((-200 : ℝ) : EReal)] (by norm_num) (by
        simp only [List.getD_cons_zero]
        exact EReal.coe_lt_coe_iff.mpr (by norm_num)) (by simp)).1
    simpa using this
  have := C88_complex_spectrum lib { win := "boxcar", scale := .scalar 1 } (Or.inl rfl) 16 3 2 (by norm_num) (by decide) (by norm_num)
    (fun h => if h = 1 then 1 / 2 else 1 / 20) (fun h => if h = 2 then 1 else 0) 1 one_pos rfl (by norm_num) (by simp) (by
      intro h h1 h2
      have : h = 2 := by omega
      subst this
      norm_num [abs_of_pos]) 9 hn (by norm_num) (by norm_num) [(0, 0), (1, 2), (-3, 1 / 2)] (by simp) (by simp) 2 (by norm_num) le_rfl 6
    (by norm_num) (by norm_num) 1 (Or.inl rfl) (by norm_num) (Or.inl le_rfl) spec hspec
  simpa using this

/-- Both signs of a square-law term. -/
example : angleDeg (coherentSum ([0, 1, 2].map fun τ => fun m : ℕ =>
      1 * Real.cos (2 * Real.pi * ((3 : ℕ) * m / (16 : ℕ)) + τ) + (-1 / 10) * (1 * Real.cos (2 * Real.pi * ((3 : ℕ) * m / (16 : ℕ)) + τ)) ^ 2) 16 9 6) =
    if (0 : ℝ) < -1 / 10 then 0 else 180 :=
  C88_square_law 16 3 (by norm_num) (by decide) (by norm_num) 1 (-1 / 10) (by norm_num) (by norm_num) (by norm_num [abs_of_neg]) 9 (by norm_num)
    (by norm_num) [0, 1, 2] (by simp) 6 (by norm_num) (by norm_num) (Or.inl (by norm_num))

/-- Both spectra of a short record exist in coherent mode and agree at DC and on the Nyquist bin. -/
example (lib : WinLib) : ∃ r spec, computeSpectrum lib [[1, 2, 3, 5, 8, 13, 21, 34]] { coherent := true, scale := .scalar 40 } = .ok r ∧
    polarSpectrum lib [[1, 2, 3, 5, 8, 13, 21, 34]] { coherent := true, scale := .scalar 40 } = .ok spec ∧
    ‖spec 0‖ ^ 2 = r.power.getD 0 0 ∧ ‖spec (r.N / 2)‖ ^ 2 = r.power.getD (r.N / 2) 0 := by
  have hprep : ∃ d, prepareFftInput [[1, 2, 3, 5, 8, 13, 21, (34 : ℝ)]] (.scalar 40) = .ok d ∧ 0 < (d.headD []).length := by
    unfold prepareFftInput
    simp only [peakAmplitude]
    exact ⟨_, rfl, by norm_num [orient, removeDc]⟩
  obtain ⟨d, hd, hl⟩ := hprep
  obtain ⟨r, hr⟩ := (C63_compute_spectrum_total lib _ { coherent := true, scale := .scalar 40 } d hd hl).mpr
    ⟨by norm_num, by norm_num, by norm_num, by norm_num⟩
  obtain ⟨spec, hspec, hall⟩ := C88_power_agrees lib _ _ rfl r hr
  exact ⟨r, spec, hr, hspec, (hall 0 (Nat.zero_le _)).1 (by simp), (hall _ le_rfl).1 (by simp)⟩

/-- A collided second harmonic and a third harmonic beyond the spectrum. -/
example (spec : ℕ → ℂ) : polarAnnotation spec 9 (some [((-20 : ℝ) : EReal), ((-30 : ℝ) : EReal)]) [6, 9] [2] 0 = 0 ∧
    (harmonicPhases spec 9 [6, 9]).2 = 0 :=
  ⟨(C88_no_angle spec 9 [6, 9] [2] _ 0).2.2.1 (Or.inr (Or.inl (by simp))), (C88_no_angle spec 9 [6, 9] [2] none 1).2.1 (Or.inr (by simp))⟩

end Verif
