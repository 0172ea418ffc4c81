import Verif.Model.BandFilter
import Verif.Theorems.Frequency
import Verif.Theorems.Tone

/-!
# C36: FFT band extraction
-/

namespace Verif

open Model Finset

/-! ## The mask -/

section

variable {K : Type} [Field K] [LinearOrder K] [IsStrictOrderedRing K] [FloorRing K]

/-- A band table accepted by the code: ordered edges in `[0, 1/2]`. -/
def GoodBands (bands : List (K × K)) : Prop := ∀ b ∈ bands, 0 ≤ b.1 ∧ b.1 ≤ b.2 ∧ b.2 ≤ 1 / 2

private theorem rint_le_of {x : K} {z : ℤ} (h : x ≤ z) : rint x ≤ z := by
  have := rint_mono h
  rwa [rint_intCast] at this

private theorem le_rint_of {x : K} {z : ℤ} (h : (z : K) ≤ x) : z ≤ rint x := by
  have := rint_mono h
  rwa [rint_intCast] at this

private theorem fold_int (N : ℕ) (hN : 0 < N) (f : ℤ) (h0 : 0 ≤ f) (h1 : 2 * f ≤ N + 1) :
    rint (foldFrequency (f : K) (N : K)) = if 2 * f ≤ N then f else N - f := by
  have hNK : (0 : K) < N := by exact_mod_cast hN
  have : foldFrequency (f : K) (N : K) = ((if 2 * f ≤ N then f else N - f : ℤ) : K) := by
    symm
    apply C04_fold_unique _ _ _ hNK
    split_ifs with h
    · refine ⟨by exact_mod_cast h0, ?_, 0, Or.inl (by simp)⟩
      rw [le_div_iff₀ (by norm_num)]
      have : ((f * 2 : ℤ) : K) ≤ ((N : ℤ) : K) := by exact_mod_cast (by omega : f * 2 ≤ N)
      push_cast at this
      exact this
    · refine ⟨by exact_mod_cast (by omega : (0 : ℤ) ≤ N - f), ?_, 1, Or.inr (by push_cast; ring)⟩
      rw [le_div_iff₀ (by norm_num)]
      have : (((N - f) * 2 : ℤ) : K) ≤ ((N : ℤ) : K) := by exact_mod_cast (by omega : ((N : ℤ) - f) * 2 ≤ N)
      push_cast at this ⊢
      exact this
  rw [this, rint_intCast]

/-- Which one-sided bins a band selects. -/
private theorem mem_bandIds (N : ℕ) (hN : 0 < N) (b : K × K) (h0 : 0 ≤ b.1) (h1 : b.2 ≤ 1 / 2) (id : ℤ) :
    id ∈ bandIds N b ↔ ∃ f : ℤ, rint (b.1 * (N : K)) ≤ f ∧ f ≤ rint (b.2 * (N : K)) ∧ 0 ≤ f ∧ 2 * f ≤ N + 1 ∧
      id = if 2 * f ≤ N then f else N - f := by
  have hNK : (0 : K) < N := by exact_mod_cast hN
  have hlo : 0 ≤ rint (b.1 * (N : K)) := by
    apply le_rint_of
    push_cast
    exact mul_nonneg h0 hNK.le
  have hhi : 2 * rint (b.2 * (N : K)) ≤ N + 1 := by
    have h2 := abs_le.mp (abs_sub_rint_le (b.2 * (N : K)))
    have h3 : b.2 * (N : K) ≤ N / 2 := by rw [div_eq_mul_inv, mul_comm (N : K)]; nlinarith
    have h4 : (2 * rint (b.2 * (N : K)) : K) ≤ N + 1 := by linarith [h2.1]
    exact_mod_cast h4
  unfold bandIds
  simp only [List.mem_map, List.mem_range]
  constructor
  · rintro ⟨i, hi, rfl⟩
    refine ⟨rint (b.1 * (N : K)) + i, by omega, by omega, by omega, by omega, ?_⟩
    exact fold_int N hN _ (by omega) (by omega)
  · rintro ⟨f, f1, f2, f3, f4, rfl⟩
    refine ⟨(f - rint (b.1 * (N : K))).toNat, by omega, ?_⟩
    rw [show rint (b.1 * (N : K)) + ((f - rint (b.1 * (N : K))).toNat : ℤ) = f by omega]
    exact fold_int N hN f f3 f4

private theorem mask_iff (N : ℕ) (hN : 0 < N) (bands : List (K × K)) (hb : GoodBands bands) (k : ℕ) :
    bandMask N bands k = true ↔ ∃ b ∈ bands, ∃ id ∈ bandIds N b,
      id = k ∨ (0 < id ∧ id < ((N / 2 : ℕ) : ℤ) ∧ (N : ℤ) - id = k) := by
  unfold bandMask
  simp only [List.any_eq_true, Bool.or_eq_true, Bool.and_eq_true, decide_eq_true_eq, and_assoc]

private theorem ids_range (N : ℕ) (hN : 0 < N) (b : K × K) (h0 : 0 ≤ b.1) (h1 : b.2 ≤ 1 / 2) (id : ℤ) (h : id ∈ bandIds N b) :
    0 ≤ id ∧ 2 * id ≤ N := by
  obtain ⟨f, _, _, f3, f4, rfl⟩ := (mem_bandIds N hN b h0 h1 id).mp h
  split_ifs <;> omega

/-- Below the top one-sided bin the mask is symmetric, for every length. -/
private theorem mask_symm (N : ℕ) (bands : List (K × K)) (hb : GoodBands bands) (k : ℕ) (hk : 0 < k)
    (hkN : k < N / 2) : bandMask N bands (N - k) = bandMask N bands k := by
  have hN : 0 < N := by omega
  rw [Bool.eq_iff_iff, mask_iff N hN bands hb, mask_iff N hN bands hb]
  constructor
  · rintro ⟨b, hbm, id, hid, h⟩
    have hr := ids_range N hN b (hb b hbm).1 (hb b hbm).2.2 id hid
    refine ⟨b, hbm, id, hid, Or.inl ?_⟩
    omega
  · rintro ⟨b, hbm, id, hid, h⟩
    have hr := ids_range N hN b (hb b hbm).1 (hb b hbm).2.2 id hid
    refine ⟨b, hbm, id, hid, Or.inr ?_⟩
    omega

/-- Even length: the mask is symmetric everywhere. -/
private theorem mask_symm_even (N : ℕ) (hN0 : 0 < N) (hN : N % 2 = 0) (bands : List (K × K)) (hb : GoodBands bands) (k : ℕ)
    (hkN : k < N) : bandMask N bands ((N - k) % N) = bandMask N bands k := by
  by_cases h0 : k = 0
  · subst h0; simp
  rw [Nat.mod_eq_of_lt (by omega)]
  rcases lt_trichotomy k (N / 2) with h | h | h
  · exact mask_symm N bands hb k (by omega) h
  · congr 1; omega
  · have := mask_symm N bands hb (N - k) (by omega) (by omega)
    rw [show N - (N - k) = k by omega] at this
    exact this.symm

/-- Passed bins below the top one: exactly the bins between the rounded band edges. -/
theorem mask_low (N : ℕ) (bands : List (K × K)) (hb : GoodBands bands) (k : ℕ) (hkN : k < N / 2) :
    bandMask N bands k = true ↔ ∃ b ∈ bands, rint (b.1 * (N : K)) ≤ k ∧ (k : ℤ) ≤ rint (b.2 * (N : K)) := by
  have hN : 0 < N := by omega
  rw [mask_iff N hN bands hb]
  constructor
  · rintro ⟨b, hbm, id, hid, h⟩
    obtain ⟨f, f1, f2, f3, f4, rfl⟩ := (mem_bandIds N hN b (hb b hbm).1 (hb b hbm).2.2 id).mp hid
    refine ⟨b, hbm, ?_⟩
    split_ifs at h <;> omega
  · rintro ⟨b, hbm, h1, h2⟩
    refine ⟨b, hbm, k, (mem_bandIds N hN b (hb b hbm).1 (hb b hbm).2.2 k).mpr ⟨k, h1, h2, by omega, by omega, ?_⟩, Or.inl rfl⟩
    rw [if_pos (by omega)]

end

/-! ## The filter -/

private theorem reflect_sum (N : ℕ) (hN : 0 < N) (f : ℕ → ℂ) : ∑ k ∈ range N, f ((N - k) % N) = ∑ k ∈ range N, f k := by
  apply sum_nbij' (fun k => (N - k) % N) (fun k => (N - k) % N)
  · intro k _; rw [mem_range]; exact Nat.mod_lt _ hN
  · intro k _; rw [mem_range]; exact Nat.mod_lt _ hN
  · intro k hk
    rw [mem_range] at hk
    by_cases h0 : k = 0
    · subst h0; simp
    · rw [Nat.mod_eq_of_lt (show N - k < N by omega), show N - (N - k) = k by omega, Nat.mod_eq_of_lt hk]
  · intro k hk
    rw [mem_range] at hk
    by_cases h0 : k = 0
    · subst h0; simp
    · rw [Nat.mod_eq_of_lt (show N - k < N by omega), show N - (N - k) = k by omega, Nat.mod_eq_of_lt hk]
  · intro k _; rfl

/-- Effective gain of bin `k`: taking the real part averages the mask with its mirror image. -/
noncomputable def maskGain (N : ℕ) (mask : ℕ → Bool) (k : ℕ) : ℂ :=
  ((if mask k then 1 else 0) + (if mask ((N - k) % N) then 1 else 0)) / 2

private theorem maskFilter_eq (N : ℕ) (hN : 0 < N) (mask : ℕ → Bool) (x : ℕ → ℝ) (n : ℕ) :
    ((maskFilter N mask x n : ℝ) : ℂ) = idft N (fun k => dft N (fun i => (x i : ℂ)) k * maskGain N mask k) n := by
  have hNR : (N : ℝ) ≠ 0 := by exact_mod_cast hN.ne'
  set z := idft N (fun k => dft N (fun i => (x i : ℂ)) k * (if mask k then 1 else 0)) n with hz
  have hconj : (starRingEnd ℂ) z = idft N (fun k => dft N (fun i => (x i : ℂ)) k * (if mask ((N - k) % N) then 1 else 0)) n := by
    rw [hz]
    unfold idft
    rw [map_div₀, map_sum, Complex.conj_natCast]
    congr 1
    rw [← reflect_sum N hN]
    apply sum_congr rfl
    intro k hk
    rw [mem_range] at hk
    rw [map_mul, map_mul, dft_conj, conj_cis]
    have e0 : (starRingEnd ℂ) (if mask ((N - k) % N) then (1 : ℂ) else 0) = if mask ((N - k) % N) then 1 else 0 := by
      split_ifs <;> simp
    rw [e0]
    by_cases h0 : k = 0
    · subst h0
      simp [cis_zero]
    · rw [Nat.mod_eq_of_lt (show N - k < N by omega)]
      have e1 : (-(((N - k : ℕ) : ℤ))) = (k : ℤ) + (-1) * N := by push_cast [Nat.cast_sub hk.le]; ring
      rw [e1, dft_periodic N hN.ne']
      beta_reduce
      rw [Nat.mod_eq_of_lt (show N - k < N by omega)]
      congr 1
      have e2 : (-(((N - k : ℕ) : ℝ) * ((n : ℤ) : ℝ) / N) : ℝ) = k * ((n : ℤ) : ℝ) / N + ((-(n : ℤ) : ℤ) : ℝ) := by
        push_cast [Nat.cast_sub hk.le]
        field_simp
        ring
      rw [e2, cis_add_int]
  have hre : ((maskFilter N mask x n : ℝ) : ℂ) = (z + (starRingEnd ℂ) z) / 2 := by
    rw [Complex.add_conj]
    unfold maskFilter
    rw [← hz]
    push_cast
    ring
  rw [hre, hconj, hz]
  unfold idft maskGain
  rw [← add_div, ← sum_add_distrib, div_div, mul_comm (N : ℂ) 2, ← div_div]
  congr 1
  rw [sum_div]
  apply sum_congr rfl
  intro k _
  ring

/-- Spectrum of the filtered record. -/
theorem dft_maskFilter (N : ℕ) (hN : 0 < N) (mask : ℕ → Bool) (x : ℕ → ℝ) (k : ℕ) (hk : k < N) :
    dft N (fun n => (maskFilter N mask x n : ℂ)) k = dft N (fun i => (x i : ℂ)) k * maskGain N mask k := by
  have : (fun n : ℕ => ((maskFilter N mask x n : ℝ) : ℂ)) = fun n : ℕ => idft N (fun k => dft N (fun i => (x i : ℂ)) k * maskGain N mask k) n := by
    funext n
    exact maskFilter_eq N hN mask x n
  rw [this]
  exact dft_idft N hN.ne' (fun k => dft N (fun i => (x i : ℂ)) k * maskGain N mask k) k hk

/-- Two real records with the same spectrum are equal. -/
theorem eq_of_dft (N : ℕ) (hN : 0 < N) (x y : ℕ → ℝ) (h : ∀ k < N, dft N (fun i => (x i : ℂ)) k = dft N (fun i => (y i : ℂ)) k)
    (n : ℕ) (hn : n < N) : x n = y n := by
  have h1 := idft_dft N hN.ne' (fun i => (x i : ℂ)) n hn
  have h2 := idft_dft N hN.ne' (fun i => (y i : ℂ)) n hn
  have : idft N (fun k => dft N (fun i => (x i : ℂ)) k) n = idft N (fun k => dft N (fun i => (y i : ℂ)) k) n := by
    unfold idft
    congr 1
    apply sum_congr rfl
    intro k hk
    beta_reduce
    rw [h k (mem_range.mp hk)]
  rw [h1, h2] at this
  exact_mod_cast this

theorem maskGain_symm (N : ℕ) (mask : ℕ → Bool) (k : ℕ) (h : mask ((N - k) % N) = mask k) :
    maskGain N mask k = if mask k then 1 else 0 := by
  unfold maskGain
  rw [h]
  split_ifs <;> norm_num

theorem idempotent_of_symm (N : ℕ) (hN : 0 < N) (mask : ℕ → Bool) (hs : ∀ k < N, mask ((N - k) % N) = mask k)
    (x : ℕ → ℝ) (n : ℕ) (hn : n < N) : maskFilter N mask (maskFilter N mask x) n = maskFilter N mask x n := by
  apply eq_of_dft N hN _ _ _ n hn
  intro k hk
  rw [dft_maskFilter N hN mask _ k hk, dft_maskFilter N hN mask x k hk, maskGain_symm N mask k (hs k hk)]
  split_ifs <;> ring

/-- **C36 (projection, even length).** Filtering twice with the same bands equals filtering once. -/
theorem C36_projection_even (N : ℕ) (hN : 0 < N) (h2 : N % 2 = 0) (bands : List (ℝ × ℝ)) (hb : GoodBands bands) (x : ℕ → ℝ)
    (n : ℕ) (hn : n < N) :
    maskFilter N (bandMask N bands) (maskFilter N (bandMask N bands) x) n = maskFilter N (bandMask N bands) x n :=
  idempotent_of_symm N hN _ (fun k hk => mask_symm_even N hN h2 bands hb k hk) x n hn

/-- **C36 (identity, even length).** The full band `[0, 1/2]` returns the record itself. -/
theorem C36_full_band_even (N : ℕ) (hN : 0 < N) (h2 : N % 2 = 0) (x : ℕ → ℝ) (n : ℕ) (hn : n < N) :
    maskFilter N (bandMask N [((0 : ℝ), 1 / 2)]) x n = x n := by
  have hg : GoodBands [((0 : ℝ), 1 / 2)] := by intro b hb; simp at hb; subst hb; norm_num
  have hall : ∀ k, k ≤ N / 2 → bandMask N [((0 : ℝ), 1 / 2)] k = true := by
    intro k hk
    rw [mask_iff N hN _ hg]
    refine ⟨(0, 1 / 2), by simp, k, (mem_bandIds N hN _ (by norm_num) (by norm_num) k).mpr ⟨k, ?_, ?_, by omega, by omega, ?_⟩, Or.inl rfl⟩
    · apply rint_le_of
      push_cast
      simp
    · apply le_rint_of
      push_cast
      have : ((k * 2 : ℕ) : ℝ) ≤ N := by exact_mod_cast (by omega : k * 2 ≤ N)
      push_cast at this
      linarith
    · rw [if_pos (by omega)]
  apply eq_of_dft N hN _ _ _ n hn
  intro k hk
  have hs := mask_symm_even N hN h2 _ hg k hk
  have ht : bandMask N [((0 : ℝ), 1 / 2)] k = true := by
    by_cases hk2 : k ≤ N / 2
    · exact hall k hk2
    · rw [← hs, Nat.mod_eq_of_lt (by omega)]
      exact hall _ (by omega)
  rw [dft_maskFilter N hN _ x k hk, maskGain_symm N _ k hs, if_pos ht, mul_one]

/-- **C36 (linear).** The filter is linear in the record, for every length and mask. -/
theorem C36_linear (N : ℕ) (hN : 0 < N) (bands : List (ℝ × ℝ)) (a c : ℝ) (x y : ℕ → ℝ) (n : ℕ) (hn : n < N) :
    maskFilter N (bandMask N bands) (fun i => a * x i + c * y i) n
      = a * maskFilter N (bandMask N bands) x n + c * maskFilter N (bandMask N bands) y n := by
  have hlin : ∀ (u v : ℕ → ℝ) (k : ℕ), dft N (fun i => ((a * u i + c * v i : ℝ) : ℂ)) k
      = a * dft N (fun i => (u i : ℂ)) k + c * dft N (fun i => (v i : ℂ)) k := by
    intro u v k
    unfold dft
    rw [mul_sum, mul_sum, ← sum_add_distrib]
    apply sum_congr rfl
    intro i _
    push_cast
    ring
  apply eq_of_dft N hN (fun n => maskFilter N (bandMask N bands) (fun i => a * x i + c * y i) n)
    (fun n => a * maskFilter N (bandMask N bands) x n + c * maskFilter N (bandMask N bands) y n) _ n hn
  intro k hk
  rw [hlin, dft_maskFilter N hN _ _ k hk, dft_maskFilter N hN _ _ k hk, dft_maskFilter N hN _ _ k hk, hlin]
  ring

/-- Spectrum of an unwindowed coherent tone. -/
private theorem dft_cos (N b : ℕ) (hb : 0 < b) (hbN : 2 * b < N) (A φ : ℝ) (k : ℕ) (hk : k < N) (h1 : k ≠ b) (h2 : k ≠ N - b) :
    dft N (fun i => ((A * Real.cos (2 * Real.pi * (b * i / N) + φ) : ℝ) : ℂ)) k = 0 := by
  have hl : LobeWindow (fun n => generalCosine [1] N n) N 0 :=
    lobe_generalCosine [1] 0 N (by omega) rfl (by omega) (by simp) (fun j h1 h2 => by omega)
  have hone : ∀ n, generalCosine [1] N n = 1 := by
    intro n; unfold generalCosine; split_ifs <;> simp
  have h := dft_tone N b A φ (fun n => generalCosine [1] N n) k
  have nd : ∀ z : ℤ, z ≠ 0 → -(N : ℤ) < z → z < N → ¬ (N : ℤ) ∣ z := by
    intro z hz h1 h2 ⟨c, hc⟩
    have hN' : (0 : ℤ) < N := by omega
    rw [hc] at h1 h2 hz
    have : -1 < c := by nlinarith
    have : c < 1 := by nlinarith
    apply hz
    rw [show c = 0 by omega, mul_zero]
  have z1 := hl.band ((k : ℤ) - b) (by
    intro j hj
    have : j = 0 := by rw [abs_le] at hj; push_cast at hj; omega
    subst this
    exact nd _ (by omega) (by omega) (by omega))
  have z2 := hl.band ((k : ℤ) + b) (by
    intro j hj
    have : j = 0 := by rw [abs_le] at hj; push_cast at hj; omega
    subst this
    have := nd ((k : ℤ) + b - N) (by omega) (by omega) (by omega)
    intro hd
    apply this
    rw [sub_zero] at hd
    exact dvd_sub hd (dvd_refl _))
  rw [z1, z2, mul_zero, mul_zero, add_zero] at h
  rw [← h]
  apply dft_congr
  intro i _
  rw [hone, mul_one]

private theorem tone_gain (N b : ℕ) (hb : 0 < b) (hbN : 2 * b < N) (A φ g : ℝ) (mask : ℕ → Bool)
    (hg : maskGain N mask b = g) (n : ℕ) (hn : n < N) :
    maskFilter N mask (fun i => A * Real.cos (2 * Real.pi * (b * i / N) + φ)) n
      = g * (A * Real.cos (2 * Real.pi * (b * n / N) + φ)) := by
  have hN : 0 < N := by omega
  have hg2 : maskGain N mask (N - b) = g := by
    rw [← hg]
    unfold maskGain
    rw [show N - (N - b) = b by omega, Nat.mod_eq_of_lt (show b < N by omega), Nat.mod_eq_of_lt (show N - b < N by omega), add_comm]
  apply eq_of_dft N hN _ (fun n => g * (A * Real.cos (2 * Real.pi * (b * n / N) + φ))) _ n hn
  intro k hk
  have hsc : dft N (fun i => ((g * (A * Real.cos (2 * Real.pi * (b * i / N) + φ)) : ℝ) : ℂ)) k
      = dft N (fun i => ((A * Real.cos (2 * Real.pi * (b * i / N) + φ) : ℝ) : ℂ)) k * g := by
    unfold dft
    rw [sum_mul]
    apply sum_congr rfl
    intro i _
    push_cast
    ring
  rw [hsc, dft_maskFilter N hN mask _ k hk]
  by_cases h1 : k = b
  · rw [h1, hg]
  · by_cases h2 : k = N - b
    · rw [h2, hg2]
    · rw [dft_cos N b hb hbN A φ k hk h1 h2, zero_mul, zero_mul]

/-- **C36 (in-band tones pass, out-of-band tones vanish).** For every length (odd or even) and every bin below the top one:
a coherent tone inside one of the bands is returned exactly, a tone more than half a bin away from all bands gives zero. -/
theorem C36_tones (N b : ℕ) (hb : 0 < b) (hbN : b < N / 2) (bands : List (ℝ × ℝ)) (hg : GoodBands bands) (A φ : ℝ) (n : ℕ)
    (hn : n < N) :
    ((∃ c ∈ bands, c.1 ≤ (b : ℝ) / N ∧ (b : ℝ) / N ≤ c.2) →
      maskFilter N (bandMask N bands) (fun i => A * Real.cos (2 * Real.pi * (b * i / N) + φ)) n
        = A * Real.cos (2 * Real.pi * (b * n / N) + φ)) ∧
    ((∀ c ∈ bands, (b : ℝ) < c.1 * N - 1 / 2 ∨ c.2 * N + 1 / 2 < (b : ℝ)) →
      maskFilter N (bandMask N bands) (fun i => A * Real.cos (2 * Real.pi * (b * i / N) + φ)) n = 0) := by
  have hNR : (0 : ℝ) < N := by exact_mod_cast (by omega : 0 < N)
  have hsym : bandMask N bands ((N - b) % N) = bandMask N bands b := by
    rw [Nat.mod_eq_of_lt (by omega)]
    exact mask_symm N bands hg b hb hbN
  have hgain := maskGain_symm N (bandMask N bands) b hsym
  constructor
  · rintro ⟨c, hc, h1, h2⟩
    have ht : bandMask N bands b = true := by
      rw [mask_low N bands hg b hbN]
      refine ⟨c, hc, ?_, ?_⟩
      · apply rint_le_of
        rw [le_div_iff₀ hNR] at h1
        exact_mod_cast h1
      · apply le_rint_of
        rw [div_le_iff₀ hNR] at h2
        exact_mod_cast h2
    rw [tone_gain N b hb (by omega) A φ 1 _ (by rw [hgain, if_pos ht]; simp) n hn, one_mul]
  · intro h
    have ht : bandMask N bands b = false := by
      rw [← Bool.not_eq_true, mask_low N bands hg b hbN]
      rintro ⟨c, hc, h1, h2⟩
      have h1' : (rint (c.1 * (N : ℝ)) : ℝ) ≤ b := by exact_mod_cast h1
      have h2' : (b : ℝ) ≤ rint (c.2 * (N : ℝ)) := by exact_mod_cast h2
      have e1 := abs_le.mp (abs_sub_rint_le (c.1 * (N : ℝ)))
      have e2 := abs_le.mp (abs_sub_rint_le (c.2 * (N : ℝ)))
      rcases h c hc with h | h <;> linarith [e1.1, e1.2, e2.1, e2.2]
    rw [tone_gain N b hb (by omega) A φ 0 _ (by rw [hgain, ht]; simp) n hn, zero_mul]

/-- **C36 (defect, odd length).** For every odd length `N ≥ 3` the full band `[0, 1/2]` halves a tone at the highest bin
`(N-1)/2`: the mirror bin is left out of the mask (`ids < N // 2` should include it). -/
theorem C36_odd_top_bin_halved (N : ℕ) (hN : 3 ≤ N) (h2 : N % 2 = 1) (A φ : ℝ) (n : ℕ) (hn : n < N) :
    maskFilter N (bandMask N [((0 : ℝ), 1 / 2)]) (fun i => A * Real.cos (2 * Real.pi * ((N / 2 : ℕ) * i / N) + φ)) n
      = 1 / 2 * (A * Real.cos (2 * Real.pi * ((N / 2 : ℕ) * n / N) + φ)) := by
  have hg : GoodBands [((0 : ℝ), 1 / 2)] := by intro b hb; simp at hb; subst hb; norm_num
  have ht : bandMask N [((0 : ℝ), 1 / 2)] (N / 2) = true := by
    rw [mask_iff N (by omega) _ hg]
    refine ⟨(0, 1 / 2), by simp, ((N / 2 : ℕ) : ℤ), (mem_bandIds N (by omega) _ (by norm_num) (by norm_num) _).mpr
      ⟨((N / 2 : ℕ) : ℤ), ?_, ?_, by omega, by omega, ?_⟩, Or.inl rfl⟩
    · apply rint_le_of
      rw [zero_mul, Int.cast_natCast]
      exact Nat.cast_nonneg _
    · apply le_rint_of
      have : ((N / 2 * 2 : ℕ) : ℝ) ≤ N := by exact_mod_cast (by omega : N / 2 * 2 ≤ N)
      rw [Nat.cast_mul] at this
      rw [Int.cast_natCast]
      generalize ((N / 2 : ℕ) : ℝ) = q at *
      norm_num at this ⊢
      linarith
    · rw [if_pos (by omega)]
  have hf : bandMask N [((0 : ℝ), 1 / 2)] (N - N / 2) = false := by
    rw [← Bool.not_eq_true, mask_iff N (by omega) _ hg]
    rintro ⟨b, hb, id, hid, h⟩
    have := ids_range N (by omega) b (hg b hb).1 (hg b hb).2.2 id hid
    omega
  apply tone_gain N (N / 2) (by omega) (by omega) (hn := hn)
  unfold maskGain
  rw [Nat.mod_eq_of_lt (show N - N / 2 < N by omega), ht, hf]
  simp

/-- **C36 (partial, odd length).** When no band reaches the top bin the filter is a projection for odd lengths too. Missing:
bands reaching `(N-1)/2` with odd `N`, where it is false (`C36_odd_top_bin_halved`). -/
theorem C36_projection_odd_partial (N : ℕ) (hN : 0 < N) (bands : List (ℝ × ℝ)) (hb : GoodBands bands)
    (htop : ∀ c ∈ bands, c.2 * N + 1 / 2 < ((N / 2 : ℕ) : ℝ)) (x : ℕ → ℝ) (n : ℕ) (hn : n < N) :
    maskFilter N (bandMask N bands) (maskFilter N (bandMask N bands) x) n = maskFilter N (bandMask N bands) x n := by
  apply idempotent_of_symm N hN _ _ x n hn
  intro k hk
  by_cases h0 : k = 0
  · subst h0; simp
  rw [Nat.mod_eq_of_lt (by omega)]
  have hoff : ∀ j, j = N / 2 ∨ N - j = N / 2 → j < N → 0 < j → bandMask N bands j = false := by
    intro j hj hjN hj0
    rw [← Bool.not_eq_true, mask_iff N hN _ hb]
    rintro ⟨c, hc, id, hid, h⟩
    obtain ⟨f, f1, f2, f3, f4, rfl⟩ := (mem_bandIds N hN c (hb c hc).1 (hb c hc).2.2 _).mp hid
    have e2 := abs_le.mp (abs_sub_rint_le (c.2 * (N : ℝ)))
    have h3 : (rint (c.2 * (N : ℝ)) : ℝ) < ((N / 2 : ℕ) : ℝ) := by linarith [htop c hc, e2.1]
    have h4 : rint (c.2 * (N : ℝ)) < ((N / 2 : ℕ) : ℤ) := by
      rw [← Int.cast_natCast (R := ℝ)] at h3
      exact Int.cast_lt.mp h3
    split_ifs at h <;> omega
  rcases lt_trichotomy k (N / 2) with h | h | h
  · exact mask_symm N bands hb k (by omega) h
  · rw [hoff k (Or.inl h) hk (by omega)]
    by_cases h2 : N % 2 = 0
    · rw [hoff (N - k) (Or.inl (by omega)) (by omega) (by omega)]
    · rw [hoff (N - k) (Or.inr (by omega)) (by omega) (by omega)]
  · by_cases h2 : N - k = N / 2
    · rw [hoff k (Or.inr h2) hk (by omega), hoff (N - k) (Or.inl h2) (by omega) (by omega)]
    · have := mask_symm N bands hb (N - k) (by omega) (by omega)
      rw [show N - (N - k) = k by omega] at this
      exact this.symm

/-- **C36 (argument contract).** Band tables are accepted exactly when non-empty with two columns and all entries in
`[0, 1/2]`; everything else raises `ValueError`. Accepted tables become ordered edge pairs. -/
theorem C36_band_contract (bands : List (List ℝ)) :
    (∀ bs, checkBands bands = .ok bs → GoodBands bs ∧ bs.length = bands.length) ∧
    ((∃ bs, checkBands bands = .ok bs) ↔ bands ≠ [] ∧ (∀ r ∈ bands, r.length = 2) ∧ ∀ r ∈ bands, ∀ v ∈ r, 0 ≤ v ∧ v ≤ 1 / 2) ∧
    (∀ e, checkBands bands = .error e → e = .valueError) := by
  unfold checkBands
  by_cases h1 : bands = [] ∨ ∃ r ∈ bands, r.length ≠ 2
  · simp only [if_pos h1]
    refine ⟨by simp, ?_, by simp [@eq_comm PyErr]⟩
    simp only [reduceCtorEq, exists_false, false_iff]
    rintro ⟨ha, hb, _⟩
    rcases h1 with h | ⟨r, hr, h⟩
    · exact ha h
    · exact h (hb r hr)
  · simp only [if_neg h1]
    by_cases h2 : ∃ r ∈ bands, ∃ v ∈ r, v < 0 ∨ 1 / 2 < v
    · simp only [if_pos h2]
      refine ⟨by simp, ?_, by simp [@eq_comm PyErr]⟩
      simp only [reduceCtorEq, exists_false, false_iff]
      rintro ⟨_, _, hc⟩
      obtain ⟨r, hr, v, hv, h⟩ := h2
      have := hc r hr v hv
      rcases h with h | h <;> linarith [this.1, this.2]
    · simp only [if_neg h2]
      push Not at h1 h2
      refine ⟨?_, ?_, by simp⟩
      · intro bs h
        injection h with h
        subst h
        refine ⟨?_, by simp⟩
        intro b hb
        obtain ⟨r, hr, rfl⟩ := List.mem_map.mp hb
        have hl := h1.2 r hr
        match r, hl, hr with
        | [u, v], _, hr =>
          have hu := h2 _ hr u (by simp)
          have hv := h2 _ hr v (by simp)
          simp only [List.getD_cons_zero, List.getD_cons_succ]
          exact ⟨le_min hu.1 hv.1, min_le_max, max_le hu.2 hv.2⟩
      · constructor
        · intro _
          exact ⟨h1.1, h1.2, h2⟩
        · intro _
          exact ⟨_, rfl⟩

/-- **C36 (band list is a set of unordered pairs).** Reordering or repeating bands, or exchanging the two edges of a band,
never changes the output. -/
theorem C36_band_order_irrelevant (rows bands bands' : List (List ℝ))
    (h : ∀ r ∈ bands, r ∈ bands' ∨ r.reverse ∈ bands') (h' : ∀ r ∈ bands', r ∈ bands ∨ r.reverse ∈ bands) :
    extractFreqComponents rows bands = extractFreqComponents rows bands' := by
  have key : ∀ A B : List (List ℝ), (∀ r ∈ A, r ∈ B ∨ r.reverse ∈ B) → (∀ r ∈ B, r ∈ A ∨ r.reverse ∈ A) →
      ∀ bs, checkBands A = .ok bs → ∃ bs', checkBands B = .ok bs' ∧ ∀ N k, bandMask N bs k = bandMask N bs' k := by
    intro A B hAB hBA bs hA
    obtain ⟨hne, hlen, hval⟩ := (C36_band_contract A).2.1.mp ⟨bs, hA⟩
    have hBlen : ∀ r ∈ B, r.length = 2 := by
      intro r hr
      rcases hBA r hr with h | h
      · exact hlen r h
      · simpa using hlen _ h
    have hok : ∃ bs', checkBands B = .ok bs' := by
      rw [(C36_band_contract B).2.1]
      refine ⟨?_, hBlen, ?_⟩
      · rintro rfl
        obtain ⟨r, hr⟩ := List.exists_mem_of_ne_nil A hne
        rcases hAB r hr with h | h <;> simp at h
      · intro r hr v hv
        rcases hBA r hr with h | h
        · exact hval r h v hv
        · exact hval _ h v (by simpa using hv)
    obtain ⟨bs', hB⟩ := hok
    refine ⟨bs', hB, ?_⟩
    have form : ∀ (C : List (List ℝ)) cs, checkBands C = .ok cs →
        cs = C.map fun r => (min (r.getD 0 0) (r.getD 1 0), max (r.getD 0 0) (r.getD 1 0)) := by
      intro C cs hC
      unfold checkBands at hC
      by_cases h1 : C = [] ∨ ∃ r ∈ C, r.length ≠ 2
      · rw [if_pos h1] at hC; cases hC
      · rw [if_neg h1] at hC
        by_cases h2 : ∃ r ∈ C, ∃ v ∈ r, v < 0 ∨ 1 / 2 < v
        · rw [if_pos h2] at hC; cases hC
        · rw [if_neg h2] at hC
          injection hC with hC
          exact hC.symm
    have sub : ∀ (C D : List (List ℝ)), (∀ r ∈ C, r.length = 2) → (∀ r ∈ C, r ∈ D ∨ r.reverse ∈ D) →
        ∀ b ∈ C.map (fun r : List ℝ => (min (r.getD 0 0) (r.getD 1 0), max (r.getD 0 0) (r.getD 1 0))),
          b ∈ D.map (fun r : List ℝ => (min (r.getD 0 0) (r.getD 1 0), max (r.getD 0 0) (r.getD 1 0))) := by
      intro C D hl hCD b hb
      obtain ⟨r, hr, rfl⟩ := List.mem_map.mp hb
      rcases hCD r hr with h | h
      · exact List.mem_map.mpr ⟨r, h, rfl⟩
      · refine List.mem_map.mpr ⟨_, h, ?_⟩
        match r, hl r hr with
        | [u, v], _ => simp [min_comm, max_comm]
    rw [form A bs hA, form B bs' hB]
    intro N k
    rw [Bool.eq_iff_iff]
    unfold bandMask
    simp only [List.any_eq_true]
    constructor
    · rintro ⟨b, hb, h⟩; exact ⟨b, sub A B hlen hAB b hb, h⟩
    · rintro ⟨b, hb, h⟩; exact ⟨b, sub B A hBlen hBA b hb, h⟩
  unfold extractFreqComponents
  cases hA : checkBands bands with
  | ok bs =>
    obtain ⟨bs', hB, hm⟩ := key bands bands' h h' bs hA
    have : ∀ N, bandMask N bs = bandMask N bs' := fun N => funext (hm N)
    simp only [hB, this]
  | error e =>
    cases hB : checkBands bands' with
    | ok bs' =>
      obtain ⟨bs, hA', _⟩ := key bands' bands h' h bs' hB
      rw [hA] at hA'
      cases hA'
    | error e' =>
      rw [(C36_band_contract bands).2.2 e hA, (C36_band_contract bands').2.2 e' hB]

/-- **C36 (one-column records).** What the public function returns on a record given as a column, and hence (with the theorems
above) that calling it again on its own output, for an even length, returns the same record. -/
theorem C36_column (xs : List ℝ) (hx : xs ≠ []) (bands : List (List ℝ)) (bs : List (ℝ × ℝ)) (hb : checkBands bands = .ok bs) :
    extractFreqComponents (xs.map fun v => [v]) bands
      = .ok [(List.range xs.length).map fun n => maskFilter xs.length (bandMask xs.length bs) (fun i => xs.getD i 0) n] := by
  have hhead : ((xs.map fun v => [v]).headD []).length = 1 := by
    cases xs with
    | nil => exact absurd rfl hx
    | cons a t => rfl
  have hpos : 0 < xs.length := List.length_pos_iff.mpr hx
  have hT : transposeRows (xs.map fun v => [v]) 1 = [xs] := by
    unfold transposeRows
    simp [Function.comp_def]
  unfold extractFreqComponents
  simp only [hhead, List.length_map, if_neg (show ¬ xs.length < 1 by omega), hb, hT, if_neg hpos.ne', List.map_cons, List.map_nil]

theorem C36_column_idempotent (xs ys : List ℝ) (hx : xs ≠ []) (h2 : xs.length % 2 = 0) (bands : List (List ℝ))
    (h : extractFreqComponents (xs.map fun v => [v]) bands = .ok [ys]) :
    extractFreqComponents (ys.map fun v => [v]) bands = .ok [ys] := by
  have hpos : 0 < xs.length := List.length_pos_iff.mpr hx
  cases hb : checkBands bands with
  | error e =>
    unfold extractFreqComponents at h
    simp only [hb] at h
    cases h
  | ok bs =>
    have hg := ((C36_band_contract bands).1 bs hb).1
    rw [C36_column xs hx bands bs hb] at h
    injection h with h
    injection h with h _
    have hlen : ys.length = xs.length := by rw [← h]; simp
    have hy : ys ≠ [] := by rw [← List.length_pos_iff]; omega
    rw [C36_column ys hy bands bs hb, hlen]
    congr 2
    conv_rhs => rw [← h]
    apply List.map_congr_left
    intro n hn
    rw [List.mem_range] at hn
    refine Eq.trans ?_ (C36_projection_even xs.length hpos h2 bs hg _ n hn)
    rw [maskFilter, maskFilter]
    congr 2
    funext k
    congr 1
    apply dft_congr
    intro i hi
    have : ys.getD i 0 = maskFilter xs.length (bandMask xs.length bs) (fun i => xs.getD i 0) i := by
      rw [← h]
      simp [List.getD_eq_getElem?_getD, hi]
    beta_reduce
    rw [this]

/-! ### Concrete cases -/

/-- Length 8, band [0.1, 0.3]: bins 1, 2 and their mirrors. -/
example : (List.range 8).map (bandMask 8 [((1 : ℚ) / 10, 3 / 10)]) = [false, true, true, false, false, false, true, true] := by
  decide +kernel

/-- Length 5, full band: bin 3 (the mirror of bin 2) is missing. -/
example : (List.range 5).map (bandMask 5 [((0 : ℚ), 1 / 2)]) = [true, true, true, false, true] := by
  decide +kernel

example : GoodBands [((1 : ℝ) / 10, (3 : ℝ) / 10)] := by intro b hb; simp at hb; subst hb; norm_num

end Verif
