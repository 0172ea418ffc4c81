import Verif.Model.FftDelay

/-!
# C22: FFT fractional delay
-/

namespace Verif

open Model Finset

private theorem irfft_congr (N : ℕ) (X Y : ℕ → ℂ) (h0 : (X 0).re = (Y 0).re) (h : ∀ k, 0 < k → 2 * k < N → X k = Y k)
    (hn : N % 2 = 0 → (X (N / 2)).re = (Y (N / 2)).re) (n : ℕ) : irfft N X n = irfft N Y n := by
  unfold irfft
  rw [h0]
  congr 2
  · congr 1
    apply sum_congr rfl
    intro k hk
    rw [mem_range] at hk
    rw [h (k + 1) (by omega) (by omega)]
  · split_ifs with hN
    · rw [hn hN]
    · rfl

/-- Delay by `D` samples of a real sequence, without the list wrapping. -/
private noncomputable def delayed (N : ℕ) (s : ℕ → ℝ) (D : ℝ) (n : ℕ) : ℝ :=
  irfft N (fun k => dft N (fun j => (s j : ℂ)) k * cis (-(k * D / N))) n

private theorem fftDelay_eq (x : List ℝ) (delay fs : ℝ) (hx : x ≠ []) (hfs : fs ≠ 0) :
    fftDelay 1 x delay fs = .ok ((List.range x.length).map fun n => delayed x.length (fun j => x.getD j 0) (delay * fs) n) := by
  have hlen : x.length ≠ 0 := by simpa using hx
  unfold fftDelay
  rw [if_neg (by simp), if_neg hlen, if_neg hfs]
  congr 1
  apply List.map_congr_left
  intro n _
  unfold delayed
  have e : ∀ k : ℕ, ((k : ℝ) * fs / x.length) * delay = k * (delay * fs) / x.length := by intro k; ring
  have e' : ∀ k : ℕ, dft x.length (sig x) k = dft x.length (fun j => ((x.getD j 0 : ℝ) : ℂ)) k := fun _ => rfl
  apply irfft_congr
  · unfold delaySpectrum; simp only; rw [e, e']; split_ifs <;> simp
  · intro k h0 hk
    unfold delaySpectrum; simp only; rw [e, e']
    rw [if_neg (by omega)]
  · intro hN
    unfold delaySpectrum; simp only; rw [e, e']
    simp only [hN, and_self, if_true, Complex.ofReal_re]

private theorem dft_real_zero (N : ℕ) (s : ℕ → ℝ) : (((dft N (fun j => (s j : ℂ)) 0).re : ℝ) : ℂ) = dft N (fun j => (s j : ℂ)) 0 := by
  rw [← Complex.conj_eq_iff_re, dft_conj]; simp

private theorem dft_real_nyq (N : ℕ) (hN : N ≠ 0) (s : ℕ → ℝ) (k : ℕ) (hk : 2 * k = N) :
    (((dft N (fun j => (s j : ℂ)) k).re : ℝ) : ℂ) = dft N (fun j => (s j : ℂ)) k := by
  rw [← Complex.conj_eq_iff_re, dft_conj]
  have : (-(k : ℤ)) = (k : ℤ) + (-1) * (N : ℤ) := by omega
  rw [this, dft_periodic N hN]

private theorem dft_real_mirror (N : ℕ) (hN : N ≠ 0) (s : ℕ → ℝ) (k : ℕ) (hk : k ≤ N) :
    (starRingEnd ℂ) (dft N (fun j => (s j : ℂ)) ((N - k : ℕ) : ℤ)) = dft N (fun j => (s j : ℂ)) k := by
  rw [dft_conj]
  have : (-((N - k : ℕ) : ℤ)) = (k : ℤ) + (-1) * (N : ℤ) := by omega
  rw [this, dft_periodic N hN]

/-- Integer delays: the Hermitian spectrum is the fully rotated one. -/
private theorem delayed_int (N : ℕ) (hN : N ≠ 0) (s : ℕ → ℝ) (D : ℤ) (n : ℕ) (m : ℕ) (hm : m < N)
    (hmn : (m : ℤ) ≡ (n : ℤ) - D [ZMOD N]) : delayed N s D n = s m := by
  have hNR : (N : ℝ) ≠ 0 := by exact_mod_cast hN
  have key : ((delayed N s D n : ℝ) : ℂ) = ((s m : ℝ) : ℂ) := by
    unfold delayed
    rw [irfft_eq_idft N hN]
    rw [← idft_dft N hN (fun j => (s j : ℂ)) m hm]
    unfold idft
    congr 1
    apply sum_congr rfl
    intro k hk
    rw [mem_range] at hk
    have hspec : hermitian N (fun k => dft N (fun j => (s j : ℂ)) k * cis (-(k * (D : ℝ) / N))) k
        = dft N (fun j => (s j : ℂ)) k * cis (-(k * (D : ℝ) / N)) := by
      unfold hermitian
      split_ifs with h0 h1 h2
      · subst h0
        have : dft N (fun j => (s j : ℂ)) ((0 : ℕ) : ℤ) = dft N (fun j => (s j : ℂ)) 0 := rfl
        simp only [this, Nat.cast_zero, zero_mul, zero_div, neg_zero, cis_zero, mul_one]
        exact dft_real_zero N s
      · -- Nyquist
        have hreal : (starRingEnd ℂ) (cis (-(k * (D : ℝ) / N))) = cis (-(k * (D : ℝ) / N)) := by
          rw [conj_cis, neg_neg]
          have : (N : ℝ) = 2 * k := by exact_mod_cast h1.symm
          have hk0 : (k : ℝ) ≠ 0 := by exact_mod_cast h0
          conv_lhs => rw [this, show ((k : ℝ) * D / (2 * k)) = -(k * (D : ℝ) / (2 * k)) + (D : ℝ) by field_simp; ring]
          rw [this]
          exact cis_add_int _ _
        rw [← Complex.conj_eq_iff_re, map_mul, hreal]
        congr 1
        have := dft_real_nyq N hN s k h1
        rw [← Complex.conj_eq_iff_re] at this
        exact this
      · rfl
      · rw [map_mul, dft_real_mirror N hN s k hk.le, conj_cis, neg_neg, Nat.cast_sub hk.le]
        congr 1
        rw [show (((N : ℝ) - k) * D / N) = -(k * (D : ℝ) / N) + (D : ℝ) by field_simp; ring]
        exact cis_add_int _ _
    rw [hspec, mul_assoc, ← cis_add]
    congr 1
    obtain ⟨c, hc⟩ := (Int.modEq_iff_dvd.mp hmn)
    have hc' : ((n : ℝ) - D) - m = N * c := by exact_mod_cast hc
    rw [show (-(k * (D : ℝ) / N) + k * ((n : ℤ) : ℝ) / N) = k * ((m : ℤ) : ℝ) / N + ((k * c : ℤ) : ℝ) by
      push_cast; field_simp; linear_combination (k : ℝ) * hc']
    exact cis_add_int _ _
  exact_mod_cast key

/-- **C22 (shift).** A delay of a whole number `D` of samples (positive or negative) is exactly the circular shift
`y[n] = x[(n-D) mod N]`, for every record of every length. -/
theorem C22_integer_delay_is_rotation (x : List ℝ) (delay fs : ℝ) (hx : x ≠ []) (hfs : fs ≠ 0) (D : ℤ)
    (hD : delay * fs = D) :
    fftDelay 1 x delay fs
      = .ok ((List.range x.length).map fun (n : ℕ) => x.getD (((n : ℤ) - D) % (x.length : ℤ)).toNat 0) := by
  have hlen : x.length ≠ 0 := by simpa using hx
  rw [fftDelay_eq x delay fs hx hfs, hD]
  congr 1
  apply List.map_congr_left
  intro n _
  have hpos : (0 : ℤ) < x.length := by omega
  have h0 := Int.emod_nonneg ((n : ℤ) - D) hpos.ne'
  have h1 := Int.emod_lt_of_pos ((n : ℤ) - D) hpos
  apply delayed_int _ hlen
  · omega
  · rw [Int.toNat_of_nonneg h0]; exact Int.mod_modEq _ _

/-- **C22 (identity).** Zero delay returns the record unchanged. -/
theorem C22_zero_delay_identity (x : List ℝ) (fs : ℝ) (hx : x ≠ []) (hfs : fs ≠ 0) :
    fftDelay 1 x 0 fs = .ok x := by
  rw [C22_integer_delay_is_rotation x 0 fs hx hfs 0 (by simp)]
  congr 1
  apply List.ext_getElem
  · simp
  · intro i h1 h2
    simp only [List.getElem_map, List.getElem_range, sub_zero]
    rw [Int.emod_eq_of_lt (by omega) (by omega), Int.toNat_natCast, List.getD_eq_getElem?_getD,
      List.getElem?_eq_getElem h2]; rfl

/-- **C22 (length and errors).** The output has the length of the input; the only errors are a wrong dimension or an
empty record (`ValueError`) and `fs = 0` (`ZeroDivisionError`). -/
theorem C22_total (ndim : ℕ) (x : List ℝ) (delay fs : ℝ) :
    (ndim = 1 ∧ x ≠ [] ∧ fs ≠ 0 ∧ ∃ y, fftDelay ndim x delay fs = .ok y ∧ y.length = x.length) ∨
    ((ndim ≠ 1 ∨ x = []) ∧ fftDelay ndim x delay fs = .error .valueError) ∨
    (ndim = 1 ∧ x ≠ [] ∧ fs = 0 ∧ fftDelay ndim x delay fs = .error .zeroDivision) := by
  unfold fftDelay
  by_cases h1 : ndim ≠ 1
  · right; left; exact ⟨Or.inl h1, by rw [if_pos h1]⟩
  · rw [if_neg h1]
    have h1' : ndim = 1 := not_not.mp h1
    by_cases h2 : x = []
    · right; left; exact ⟨Or.inr h2, by rw [if_pos (by simp [h2])]⟩
    · rw [if_neg (by simpa using h2)]
      by_cases h3 : fs = 0
      · right; right; exact ⟨h1', h2, h3, by rw [if_pos h3]⟩
      · left; rw [if_neg h3]; exact ⟨h1', h2, h3, _, rfl, by simp⟩

/-- Spectrum of the delayed record. -/
private theorem dft_delayed (N : ℕ) (hN : N ≠ 0) (s : ℕ → ℝ) (D : ℝ) (k : ℕ) (hk : k < N) :
    dft N (fun n => ((delayed N s D n : ℝ) : ℂ)) k
      = hermitian N (fun k => dft N (fun j => (s j : ℂ)) k * cis (-(k * D / N))) k := by
  have : dft N (fun n => ((delayed N s D n : ℝ) : ℂ)) k
      = dft N (fun n => idft N (hermitian N (fun k => dft N (fun j => (s j : ℂ)) k * cis (-(k * D / N)))) n) k := by
    apply dft_congr
    intro n _
    unfold delayed
    exact irfft_eq_idft N hN _ n
  rw [this, dft_idft N hN _ k hk]

private theorem dft_nyq_sum (N : ℕ) (hN : N % 2 = 0) (hN0 : N ≠ 0) (s : ℕ → ℝ) :
    dft N (fun j => (s j : ℂ)) ((N / 2 : ℕ) : ℤ) = ((∑ n ∈ range N, (-1) ^ n * s n : ℝ) : ℂ) := by
  unfold dft
  rw [Complex.ofReal_sum]
  apply sum_congr rfl
  intro n _
  have hNR : (N : ℝ) ≠ 0 := by exact_mod_cast hN0
  have h2 : ((N / 2 : ℕ) : ℝ) = N / 2 := by
    have : 2 * (N / 2) = N := by omega
    rw [eq_div_iff (by norm_num)]
    exact_mod_cast (by omega : N / 2 * 2 = N)
  have e : (-((((N / 2 : ℕ) : ℤ) : ℝ) * n / N)) = (n : ℝ) / 2 + ((-(n : ℤ) : ℤ) : ℝ) := by
    rw [Int.cast_natCast, h2]; push_cast; field_simp; ring
  rw [e, cis_add_int, cis_half_nat, mul_comm]
  push_cast; rfl

private theorem delayed_comp (N : ℕ) (hN : N ≠ 0) (s : ℕ → ℝ) (D₁ D₂ : ℝ)
    (h : N % 2 = 1 ∨ ∑ n ∈ range N, (-1 : ℝ) ^ n * s n = 0) (n : ℕ) :
    delayed N (delayed N s D₁) D₂ n = delayed N s (D₁ + D₂) n := by
  have hrot : ∀ k : ℕ, cis (-(k * D₁ / N)) * cis (-(k * D₂ / N)) = cis (-(k * (D₁ + D₂) / N)) := by
    intro k; rw [← cis_add]; congr 1; ring
  rw [delayed, delayed]
  apply irfft_congr
  · rw [dft_delayed N hN s D₁ 0 (Nat.pos_of_ne_zero hN)]
    unfold hermitian
    rw [if_pos rfl]
    simp [cis_zero]
  · intro k h0 hk
    rw [dft_delayed N hN s D₁ k (by omega)]
    unfold hermitian
    rw [if_neg (by omega), if_neg (by omega), if_pos hk, mul_assoc, hrot]
  · intro hev
    rcases h with h | h
    · omega
    · have hz : dft N (fun j => (s j : ℂ)) ((N / 2 : ℕ) : ℤ) = 0 := by
        rw [dft_nyq_sum N hev hN, h]; simp
      rw [dft_delayed N hN s D₁ (N / 2) (by omega), hz]
      unfold hermitian
      rw [if_neg (by omega), if_pos (by omega)]
      beta_reduce
      rw [hz]
      simp

/-- **C22 (composition).** Delaying twice equals delaying once by the sum, for every odd length, and for even length
whenever the record has no component at exactly half the sampling rate (`Σ (-1)^n x[n] = 0`). -/
theorem C22_delays_compose (x : List ℝ) (d₁ d₂ fs : ℝ) (hx : x ≠ []) (hfs : fs ≠ 0)
    (h : x.length % 2 = 1 ∨ ∑ n ∈ range x.length, (-1 : ℝ) ^ n * x.getD n 0 = 0) :
    (do let y ← fftDelay 1 x d₁ fs; fftDelay 1 y d₂ fs) = fftDelay 1 x (d₁ + d₂) fs := by
  have hlen : x.length ≠ 0 := by simpa using hx
  rw [fftDelay_eq x d₁ fs hx hfs, fftDelay_eq x (d₁ + d₂) fs hx hfs]
  simp only [bind, Except.bind]
  rw [fftDelay_eq _ d₂ fs (by simpa using hx) hfs]
  simp only [List.length_map, List.length_range]
  congr 1
  apply List.map_congr_left
  intro n _
  rw [add_mul, ← delayed_comp x.length hlen _ _ _ h n]
  have hd : ∀ k : ℕ, dft x.length (fun j => ((((List.range x.length).map fun n =>
        delayed x.length (fun j => x.getD j 0) (d₁ * fs) n).getD j 0 : ℝ) : ℂ)) k
      = dft x.length (fun j => ((delayed x.length (fun j => x.getD j 0) (d₁ * fs) j : ℝ) : ℂ)) k := by
    intro k
    apply dft_congr
    intro j hj
    rw [List.getD_eq_getElem?_getD, List.getElem?_map, List.getElem?_eq_getElem (by simpa using hj)]
    simp
  rw [delayed, delayed]
  simp only [hd]

/-- **C22 (composition fails at Nyquist).** For even length the law is false in general: delaying `[1, -1]` twice by half
a sample gives zeros, delaying it once by one sample gives `[-1, 1]`. -/
theorem C22_compose_false_even :
    (do let y ← fftDelay 1 [1, -1] (1 / 2) 1; fftDelay 1 y (1 / 2) 1) ≠ fftDelay 1 [1, -1] (1 / 2 + 1 / 2) 1 := by
  have hr : fftDelay 1 [1, -1] (1 / 2 + 1 / 2) 1 = .ok [-1, 1] := by
    rw [C22_integer_delay_is_rotation [1, -1] _ 1 (by simp) one_ne_zero 1 (by norm_num)]
    simp [List.range_succ]
  have hhalf : ∀ n : ℕ, delayed 2 (fun j => ([1, -1] : List ℝ).getD j 0) (1 / 2) n = 0 := by
    intro n
    unfold delayed irfft
    have h0 : dft 2 (fun j => ((([1, -1] : List ℝ).getD j 0 : ℝ) : ℂ)) ((0 : ℕ) : ℤ) = 0 := by
      unfold dft; simp [sum_range_succ, cis_zero]
    have h1 : dft 2 (fun j => ((([1, -1] : List ℝ).getD j 0 : ℝ) : ℂ)) ((1 : ℕ) : ℤ) = 2 := by
      have := dft_nyq_sum 2 rfl (by norm_num) (fun j => ([1, -1] : List ℝ).getD j 0)
      rw [show (2 / 2 : ℕ) = 1 from rfl] at this
      rw [this]; simp [sum_range_succ]; norm_num
    have hc : (cis (-(((1 : ℕ) : ℝ) * (1 / 2) / ((2 : ℕ) : ℝ)))).re = 0 := by
      rw [cis_re]
      rw [show 2 * Real.pi * (-(((1 : ℕ) : ℝ) * (1 / 2) / ((2 : ℕ) : ℝ))) = -(Real.pi / 2) by push_cast; ring]
      rw [Real.cos_neg, Real.cos_pi_div_two]
    simp only [h0, zero_mul, Complex.zero_re, show (2 - 1) / 2 = 0 from rfl, range_zero, sum_empty,
      show (2 : ℕ) % 2 = 0 from rfl, show (2 : ℕ) / 2 = 1 from rfl, if_true, h1]
    rw [show ((2 : ℂ) * cis (-(((1 : ℕ) : ℝ) * (1 / 2) / ((2 : ℕ) : ℝ)))).re
        = 2 * (cis (-(((1 : ℕ) : ℝ) * (1 / 2) / ((2 : ℕ) : ℝ)))).re by simp, hc]
    simp
  rw [hr, fftDelay_eq [1, -1] (1 / 2) 1 (by simp) one_ne_zero]
  simp only [bind, Except.bind, mul_one]
  have : ((List.range ([1, -1] : List ℝ).length).map fun n =>
      delayed ([1, -1] : List ℝ).length (fun j => ([1, -1] : List ℝ).getD j 0) (1 / 2) n) = [0, 0] := by
    have e : ([1, -1] : List ℝ).length = 2 := rfl
    rw [e]
    simp only [List.range_succ, List.range_zero, List.nil_append, List.cons_append, List.map_cons, List.map_nil, hhalf]
  rw [this, fftDelay_eq [0, 0] (1 / 2) 1 (by simp) one_ne_zero]
  intro hcon
  injection hcon with hcon
  have hz : delayed 2 (fun j => ([0, 0] : List ℝ).getD j 0) (1 / 2) 0 = 0 := by
    unfold delayed irfft
    have : ∀ k : ℕ, dft 2 (fun j => ((([0, 0] : List ℝ).getD j 0 : ℝ) : ℂ)) (k : ℤ) = 0 := by
      intro k; unfold dft; simp [sum_range_succ]
    simp only [this]
    simp
  have e : ([0, 0] : List ℝ).length = 2 := rfl
  rw [e] at hcon
  simp only [List.range_succ, List.range_zero, List.nil_append, List.cons_append, List.map_cons, List.map_nil,
    mul_one, List.cons.injEq] at hcon
  rw [hz] at hcon
  norm_num at hcon

private theorem delayed_add (N : ℕ) (s t : ℕ → ℝ) (D : ℝ) (n : ℕ) :
    delayed N (fun j => s j + t j) D n = delayed N s D n + delayed N t D n := by
  have hd : ∀ k : ℤ, dft N (fun j => ((s j + t j : ℝ) : ℂ)) k = dft N (fun j => (s j : ℂ)) k + dft N (fun j => (t j : ℂ)) k := by
    intro k; unfold dft; rw [← sum_add_distrib]; apply sum_congr rfl; intro j _; push_cast; ring
  unfold delayed irfft
  simp only [hd, add_mul, Complex.add_re, mul_add, sum_add_distrib]
  split_ifs <;> ring

private theorem delayed_zero (N : ℕ) (D : ℝ) (n : ℕ) : delayed N (fun _ => 0) D n = 0 := by
  have hd : ∀ k : ℤ, dft N (fun _ => ((0 : ℝ) : ℂ)) k = 0 := by intro k; unfold dft; simp
  unfold delayed irfft
  simp only [hd]; simp

private theorem delayed_sum {ι : Type} (S : Finset ι) (N : ℕ) (f : ι → ℕ → ℝ) (D : ℝ) (n : ℕ) :
    delayed N (fun j => ∑ i ∈ S, f i j) D n = ∑ i ∈ S, delayed N (f i) D n := by
  classical
  induction S using Finset.induction_on with
  | empty => simp [delayed_zero]
  | insert a S ha ih =>
    have : (fun j => ∑ i ∈ insert a S, f i j) = fun j => f a j + ∑ i ∈ S, f i j := by
      funext j; rw [sum_insert ha]
    rw [this, delayed_add, ih, sum_insert ha]

/-- Spectrum of a tone below half the sampling rate. -/
private theorem dft_tone (N : ℕ) (hN : N ≠ 0) (b : ℕ) (hb : 2 * b < N) (A φ : ℝ) (k : ℕ) (hk : 2 * k ≤ N) :
    dft N (fun n => ((A * Real.cos (2 * Real.pi * (b * n / N) + φ) : ℝ) : ℂ)) k
      = if k = b then (if b = 0 then ((A * N * Real.cos φ : ℝ) : ℂ) else A * N / 2 * Complex.exp (φ * Complex.I)) else 0 := by
  have hexp : ∀ n : ℕ, ((A * Real.cos (2 * Real.pi * (b * n / N) + φ) : ℝ) : ℂ)
      = A / 2 * Complex.exp (φ * Complex.I) * cis (b * n / N) + A / 2 * Complex.exp (-(φ * Complex.I)) * cis (-(b * n / N)) :=
    fun n => cos_cis A φ (b * n / N)
  unfold dft
  have hsum : ∀ n ∈ range N, ((A * Real.cos (2 * Real.pi * (b * n / N) + φ) : ℝ) : ℂ) * cis (-(((k : ℤ) : ℝ) * n / N))
      = A / 2 * Complex.exp (φ * Complex.I) * cis (((b : ℤ) - k : ℤ) * n / N)
        + A / 2 * Complex.exp (-(φ * Complex.I)) * cis ((-(b : ℤ) - k : ℤ) * n / N) := by
    intro n _
    rw [hexp, add_mul, mul_assoc _ (cis _) (cis _), mul_assoc _ (cis _) (cis _), ← cis_add, ← cis_add]
    congr 3
    · push_cast; ring
    · push_cast; ring
  rw [sum_congr rfl hsum, sum_add_distrib, ← mul_sum, ← mul_sum, sum_cis N hN, sum_cis N hN]
  have hd1 : ((N : ℤ) ∣ (b : ℤ) - k) ↔ k = b := by
    constructor
    · rintro ⟨c, hc⟩
      have hc0 : c = 0 := by
        have h1 : (b : ℤ) - k < N := by omega
        have h2 : -(N : ℤ) < (b : ℤ) - k := by omega
        rw [hc] at h1 h2
        have hNp : (0 : ℤ) < N := by omega
        have : c < 1 := by nlinarith
        have : -1 < c := by nlinarith
        omega
      rw [hc0] at hc; omega
    · rintro rfl; simp
  have hd2 : ((N : ℤ) ∣ -(b : ℤ) - k) ↔ (k = 0 ∧ b = 0) := by
    constructor
    · rintro ⟨c, hc⟩
      have hc0 : c = 0 := by
        have h1 : -(b : ℤ) - k < N := by omega
        have h2 : -(N : ℤ) < -(b : ℤ) - k := by omega
        rw [hc] at h1 h2
        have hNp : (0 : ℤ) < N := by omega
        have : c < 1 := by nlinarith
        have : -1 < c := by nlinarith
        omega
      rw [hc0] at hc; omega
    · rintro ⟨rfl, rfl⟩; simp
  simp only [hd1, hd2]
  by_cases hkb : k = b
  · subst hkb
    by_cases h0 : k = 0
    · subst h0
      simp only [and_self, if_true]
      push_cast
      rw [Complex.cos]
      ring_nf
    · simp only [h0, if_true, if_false, and_self]
      ring
  · have : ¬ (k = 0 ∧ b = 0) := by omega
    simp [hkb, this]

private theorem delayed_tone (N : ℕ) (hN : N ≠ 0) (b : ℕ) (hb : 2 * b < N) (A φ D : ℝ) (n : ℕ) :
    delayed N (fun n => A * Real.cos (2 * Real.pi * (b * n / N) + φ)) D n
      = A * Real.cos (2 * Real.pi * (b * (n - D) / N) + φ) := by
  have hNR : (N : ℝ) ≠ 0 := by exact_mod_cast hN
  unfold delayed irfft
  rw [div_eq_iff hNR]
  beta_reduce
  have hT := fun k hk => dft_tone N hN b hb A φ k hk
  rw [hT 0 (by omega)]
  have hny : (if N % 2 = 0 then
      (dft N (fun n => ((A * Real.cos (2 * Real.pi * (b * n / N) + φ) : ℝ) : ℂ)) ((N / 2 : ℕ) : ℤ)
        * cis (-(((N / 2 : ℕ) : ℝ) * D / N))).re * (-1) ^ n else 0) = 0 := by
    split_ifs with h
    · rw [hT (N / 2) (by omega), if_neg (by omega)]; simp
    · rfl
  rw [hny, add_zero]
  have hterm : ∀ k ∈ range ((N - 1) / 2),
      2 * (dft N (fun n => ((A * Real.cos (2 * Real.pi * (b * n / N) + φ) : ℝ) : ℂ)) ((k + 1 : ℕ) : ℤ)
        * cis (-(((k + 1 : ℕ) : ℝ) * D / N)) * cis ((k + 1) * n / N)).re
      = if k + 1 = b then A * Real.cos (2 * Real.pi * (b * (n - D) / N) + φ) * N else 0 := by
    intro k hk
    rw [mem_range] at hk
    rw [hT (k + 1) (by omega)]
    by_cases hkb : k + 1 = b
    · rw [if_pos hkb, if_pos hkb, if_neg (by omega), mul_assoc, ← cis_add]
      have : (A * N / 2 * Complex.exp (φ * Complex.I) * cis (-(((k + 1 : ℕ) : ℝ) * D / N) + (k + 1) * n / N) : ℂ)
          = ((A * N / 2 : ℝ) : ℂ) * Complex.exp (((2 * Real.pi * (b * (n - D) / N) + φ : ℝ) : ℂ) * Complex.I) := by
        unfold cis
        rw [mul_assoc, ← Complex.exp_add, ← hkb]
        push_cast
        congr 2
        ring
      rw [this, Complex.re_ofReal_mul, Complex.exp_ofReal_mul_I_re]
      ring
    · rw [if_neg hkb, if_neg hkb]; simp
  rw [sum_congr rfl hterm]
  by_cases hb0 : b = 0
  · subst hb0
    simp only [if_true, Nat.cast_zero, zero_mul, zero_div, neg_zero, cis_zero, mul_one, Complex.ofReal_re, mul_zero, zero_add]
    rw [sum_eq_zero]
    · ring
    · intro k _; rw [if_neg (by omega)]
  · rw [if_neg (by omega)]
    simp only [zero_mul, Complex.zero_re, zero_add]
    rw [Finset.sum_eq_single (b - 1)]
    · rw [if_pos (by omega)]
    · intro k _ hk; rw [if_neg (by omega)]
    · intro h; rw [mem_range] at h; exact absurd (by omega) h

/-- **C22 (band-limited records).** A record that is any finite sum of coherent tones strictly below half the sampling
rate is delayed exactly, for every real delay. -/
theorem C22_bandlimited_delay_exact {ι : Type} (S : Finset ι) (A φ : ι → ℝ) (b : ι → ℕ) (N : ℕ) (hN : N ≠ 0)
    (hb : ∀ i ∈ S, 2 * b i < N) (delay fs : ℝ) (hfs : fs ≠ 0) :
    fftDelay 1 ((List.range N).map fun (n : ℕ) => ∑ i ∈ S, A i * Real.cos (2 * Real.pi * (b i * n / N) + φ i)) delay fs
      = .ok ((List.range N).map fun (n : ℕ) =>
          ∑ i ∈ S, A i * Real.cos (2 * Real.pi * (b i * (n - delay * fs) / N) + φ i)) := by
  rw [fftDelay_eq _ delay fs (by simpa using hN) hfs]
  simp only [List.length_map, List.length_range]
  congr 1
  apply List.map_congr_left
  intro n _
  have h1 : delayed N (fun j => ((List.range N).map fun (n : ℕ) =>
        ∑ i ∈ S, A i * Real.cos (2 * Real.pi * (b i * n / N) + φ i)).getD j 0) (delay * fs) n
      = delayed N (fun n => ∑ i ∈ S, A i * Real.cos (2 * Real.pi * (b i * n / N) + φ i)) (delay * fs) n := by
    unfold delayed
    congr 1
    funext k
    congr 1
    apply dft_congr
    intro j hj
    beta_reduce
    rw [List.getD_eq_getElem?_getD, List.getElem?_map, List.getElem?_eq_getElem (by simpa using hj)]
    simp
  rw [h1, delayed_sum S N (fun i n => A i * Real.cos (2 * Real.pi * (b i * n / N) + φ i))]
  apply sum_congr rfl
  intro i hi
  exact delayed_tone N hN (b i) (hb i hi) (A i) (φ i) _ n

/-! ### Concrete cases -/

example : ([1, 2, 3] : List ℝ) ≠ [] ∧ (2 : ℝ) ≠ 0 ∧ (1 : ℝ) * 2 = ((2 : ℤ) : ℝ) := ⟨by simp, by norm_num, by norm_num⟩
example : ([1, 2, 3] : List ℝ).length % 2 = 1 := rfl
example : ∑ n ∈ range ([1, 2, 2, 1] : List ℝ).length, (-1 : ℝ) ^ n * ([1, 2, 2, 1] : List ℝ).getD n 0 = 0 := by
  simp [sum_range_succ]; norm_num
example : ∀ i ∈ ({1, 3} : Finset ℕ), 2 * i < 8 := by decide

end Verif
