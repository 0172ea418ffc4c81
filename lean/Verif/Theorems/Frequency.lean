import Verif.Proofs.Frequency
import Mathlib.Analysis.SpecialFunctions.Trigonometric.Basic
import Mathlib.Data.Int.ModEq
import Mathlib.Tactic.NormNum

/-!
# C01–C05: coherent bin search and aliasing
-/

namespace Verif

open Model Spec

variable {K : Type} [Field K] [LinearOrder K] [IsStrictOrderedRing K] [FloorRing K]

/-- **C01.** Whatever `find_coherent_frequency` returns is eligible, inside the search window around the
rounded target bin, the frequency is exactly `bin*fs/n_fft`, and every eligible bin of the window is
strictly farther from the target, or equally far and not smaller. -/
theorem C01_coherent_bin_optimal (fs fin : K) (n : ℤ) (odd : Bool) (r : ℤ) (f : K) (b : ℤ)
    (h : findCoherentFrequency fs fin n odd r = .ok (f, b)) :
    Eligible n odd b ∧ f = b * fs / n ∧
      ∃ c : ℤ, NearestEven (fin / fs * n) c ∧ c - r ≤ b ∧ b ≤ c + r ∧
        ∀ b' : ℤ, Eligible n odd b' → c - r ≤ b' → b' ≤ c + r →
          |(b : K) - fin / fs * n| < |(b' : K) - fin / fs * n| ∨
          (|(b : K) - fin / fs * n| = |(b' : K) - fin / fs * n| ∧ b ≤ b') := by
  unfold findCoherentFrequency at h
  by_cases hfs : fs = 0
  · simp [hfs] at h
  rw [if_neg hfs] at h
  simp only at h
  split at h
  · simp at h
  · rename_i d best tl hsort
    by_cases hn : n = 0
    · simp [hn] at h
    rw [if_neg hn] at h
    simp only [Except.ok.injEq, Prod.mk.injEq] at h
    obtain ⟨rfl, rfl⟩ := h
    obtain ⟨hm, hall⟩ := head_insertionSort_stable (candidates_pairwise _ n odd r) hsort
    rw [mem_candidates] at hm
    obtain ⟨rfl, h1, h2, h3⟩ := hm
    refine ⟨h3, rfl, rint (fin / fs * n), rint_nearestEven _, h1, h2, ?_⟩
    intro b' he hlo hhi
    exact hall (_, b') (mem_candidates.mpr ⟨rfl, hlo, hhi, he⟩)

/-- **C01, global form.** No eligible bin at all – inside or outside the search window – is closer to the
requested frequency than the returned one. -/
theorem C01_coherent_bin_globally_closest (fs fin : K) (n : ℤ) (odd : Bool) (r : ℤ) (f : K) (b : ℤ)
    (h : findCoherentFrequency fs fin n odd r = .ok (f, b)) (b' : ℤ) (he : Eligible n odd b') :
    |(b : K) - fin / fs * n| ≤ |(b' : K) - fin / fs * n| := by
  obtain ⟨_, _, c, hc, hlo, hhi, hall⟩ := C01_coherent_bin_optimal fs fin n odd r f b h
  set t := fin / fs * n
  by_cases hw : c - r ≤ b' ∧ b' ≤ c + r
  · rcases hall b' he hw.1 hw.2 with h1 | h1
    · exact h1.le
    · exact h1.1.le
  · have hct : |t - c| ≤ 1 / 2 := le_trans (hc.1 (rint t)) (abs_sub_rint_le t)
    rw [abs_le] at hct
    have h1 : (c : K) - r ≤ b := by exact_mod_cast hlo
    have h2 : (b : K) ≤ c + r := by exact_mod_cast hhi
    have hb : |(b : K) - t| ≤ r + 1 / 2 := by rw [abs_le]; constructor <;> linarith
    refine le_trans hb ?_
    rw [not_and_or, not_le, not_le] at hw
    rcases hw with hw | hw
    · have h3 : (b' : K) + 1 ≤ c - r := by exact_mod_cast hw
      exact le_trans (by linarith) (neg_le_abs _)
    · have h3 : (c : K) + r + 1 ≤ b' := by exact_mod_cast hw
      exact le_trans (by linarith) (le_abs_self _)

/-- Non-vacuity: 8 samples, target 2.5 cycles; the equally distant odd bins 1 … 5: bin 3 wins. -/
example : findCoherentFrequency (800 : ℚ) 250 8 true 3 = .ok (300, 3) := by decide +kernel
/-- A tie (bins 1 and 3 around an even target): the smaller bin is returned. -/
example : findCoherentFrequency (800 : ℚ) 200 8 true 3 = .ok (100, 1) := by decide +kernel

/-- **C02.** For a non-zero rate and length, `find_coherent_frequency` raises `ValueError` exactly when the
search window around the rounded target contains no eligible bin. -/
theorem C02_coherent_error_iff (fs fin : K) (n : ℤ) (odd : Bool) (r : ℤ) (hfs : fs ≠ 0) :
    findCoherentFrequency fs fin n odd r = .error .valueError ↔
      ∃ c : ℤ, NearestEven (fin / fs * n) c ∧
        ∀ b : ℤ, c - r ≤ b → b ≤ c + r → ¬ Eligible n odd b := by
  unfold findCoherentFrequency
  rw [if_neg hfs]
  simp only
  constructor
  · intro h
    split at h
    · rename_i hs
      refine ⟨rint (fin / fs * n), rint_nearestEven _, ?_⟩
      intro b h1 h2 he
      have hm := (mem_candidates (t := fin / fs * (n : K)) (n := n) (odd := odd) (r := r)
        (d := |(b : K) - fin / fs * n|) (b := b)).mpr ⟨rfl, h1, h2, he⟩
      have := (List.mem_insertionSort (fun a b : K × ℤ => a.1 ≤ b.1)).mpr hm
      rw [hs] at this
      simp at this
    · split_ifs at h <;> simp at h
  · rintro ⟨c, hc, hnone⟩
    have hcr : c = rint (fin / fs * n) := nearestEven_unique hc (rint_nearestEven _)
    subst hcr
    split
    · rfl
    · rename_i d b tl hs
      exfalso
      have hm : (d, b) ∈ coherentCandidates (fin / fs * (n : K)) n odd r :=
        (List.mem_insertionSort (fun a b : K × ℤ => a.1 ≤ b.1)).mp (hs ▸ List.mem_cons_self)
      rw [mem_candidates] at hm
      exact hnone b hm.2.1 hm.2.2.1 hm.2.2.2

/-- For valid rate and length the only possible failure is that `ValueError`; in every other case a bin
is returned. -/
theorem C02_coherent_total (fs fin : K) (n : ℤ) (odd : Bool) (r : ℤ) (hfs : fs ≠ 0) (hn : n ≠ 0) :
    findCoherentFrequency fs fin n odd r = .error .valueError ∨
      ∃ f b, findCoherentFrequency fs fin n odd r = .ok (f, b) := by
  unfold findCoherentFrequency
  rw [if_neg hfs]
  simp only
  split
  · left; rfl
  · right
    rw [if_neg hn]
    exact ⟨_, _, rfl⟩

/-- Non-vacuity of the failing case: radius 0 around the even bin 2. -/
example : findCoherentFrequency (800 : ℚ) 200 8 true 0 = .error .valueError := by decide +kernel

/-- **C03.** With the returned bin, sample index `k ↦ k*bin mod n_fft` never repeats within a record:
the capture visits `n_fft` distinct phases. -/
theorem C03_coherent_phases_distinct (fs fin : K) (n : ℤ) (odd : Bool) (r : ℤ) (f : K) (b : ℤ)
    (h : findCoherentFrequency fs fin n odd r = .ok (f, b))
    (i j : ℤ) (hi : 0 ≤ i ∧ i < n) (hj : 0 ≤ j ∧ j < n) (hij : i * b % n = j * b % n) : i = j := by
  obtain ⟨⟨_, _, hco⟩, _, _⟩ := C01_coherent_bin_optimal fs fin n odd r f b h
  have hmod : i * b ≡ j * b [ZMOD n] := hij
  have hg : Int.gcd n b = 1 := by rw [Int.gcd_comm]; exact Int.isCoprime_iff_gcd_eq_one.mp hco
  have hc := Int.ModEq.cancel_right_div_gcd (by omega) hmod
  rw [hg] at hc
  simp only [Nat.cast_one, Int.ediv_one] at hc
  have := hc.eq
  rwa [Int.emod_eq_of_lt hi.1 hi.2, Int.emod_eq_of_lt hj.1 hj.2] at this

/-- **C03, surjective form.** Every one of the `n_fft` phases is visited by some sample of the record. -/
theorem C03_coherent_phases_all_visited (fs fin : K) (n : ℤ) (odd : Bool) (r : ℤ) (f : K) (b : ℤ)
    (h : findCoherentFrequency fs fin n odd r = .ok (f, b))
    (p : ℤ) (hp : 0 ≤ p ∧ p < n) : ∃ i : ℤ, 0 ≤ i ∧ i < n ∧ i * b % n = p := by
  obtain ⟨⟨_, _, hco⟩, _, _⟩ := C01_coherent_bin_optimal fs fin n odd r f b h
  obtain ⟨u, v, huv⟩ := hco
  have hn : 0 < n := by omega
  refine ⟨(p * u) % n, Int.emod_nonneg _ (by omega), Int.emod_lt_of_pos _ hn, ?_⟩
  have h1 : ((p * u) % n) * b % n = (p * u) * b % n := by
    rw [Int.mul_emod, Int.emod_emod, ← Int.mul_emod]
  rw [h1]
  have h2 : p * u * b = p - n * (p * v) := by
    have : p * (u * b + v * n) = p * 1 := by rw [huv]
    linarith [this]
  rw [h2, Int.sub_mul_emod_self_left, Int.emod_eq_of_lt hp.1 hp.2]

/-- **C04.** The folded frequency is the alias of `fin` in the first Nyquist zone. -/
theorem C04_fold_is_alias (fin fs : K) (hfs : 0 < fs) : FirstZoneAlias fin fs (foldFrequency fin fs) := by
  have hne := hfs.ne'
  refine ⟨abs_nonneg _, ?_, ?_⟩
  · have h := abs_sub_rint_le (fin / fs)
    unfold foldFrequency
    have : fin - fs * rint (fin / fs) = fs * (fin / fs - rint (fin / fs)) := by field_simp
    rw [this, abs_mul, abs_of_pos hfs]
    calc fs * |fin / fs - rint (fin / fs)| ≤ fs * (1 / 2) := by gcongr
      _ = fs / 2 := by ring
  · refine ⟨rint (fin / fs), ?_⟩
    unfold foldFrequency
    rcases le_total 0 (fin - fs * rint (fin / fs)) with h | h
    · left; rw [abs_of_nonneg h]; ring
    · right; rw [abs_of_nonpos h]; ring

/-- **C04, uniqueness.** There is only one alias in the first Nyquist zone, so the folded frequency is
determined by the specification. -/
theorem C04_fold_unique (fin fs f : K) (hfs : 0 < fs) (h : FirstZoneAlias fin fs f) :
    f = foldFrequency fin fs := by
  obtain ⟨h0, h1, k, hk⟩ := h
  obtain ⟨g0, g1, m, hm⟩ := C04_fold_is_alias fin fs hfs
  set g := foldFrequency fin fs
  have key : ∀ (j : ℤ) (x : K), (j : K) * fs = x → |x| < fs → j = 0 := by
    intro j x hj hx
    by_contra hne
    have h1 : (1 : K) ≤ |(j : K)| := by
      have : (1 : ℤ) ≤ |j| := Int.one_le_abs hne
      exact_mod_cast this
    rw [← hj, abs_mul, abs_of_pos hfs] at hx
    nlinarith
  have key2 : ∀ (j : ℤ), (j : K) * fs = f + g → f + g = 0 ∨ f + g = fs := by
    intro j hj
    have hub : (j : K) * fs ≤ 1 * fs := by linarith
    have hlb : (0 : K) * fs ≤ j * fs := by linarith
    have hj1 : (j : K) ≤ 1 := le_of_mul_le_mul_right hub hfs
    have hj0 : (0 : K) ≤ j := le_of_mul_le_mul_right hlb hfs
    have a1 : j ≤ 1 := by exact_mod_cast hj1
    have a0 : 0 ≤ j := by exact_mod_cast hj0
    have : j = 0 ∨ j = 1 := by omega
    rcases this with rfl | rfl
    · left; rw [← hj]; simp
    · right; rw [← hj]; simp
  rcases hk with hk | hk <;> rcases hm with hm | hm
  · -- fin = k fs + f = m fs + g
    have e : ((k - m : ℤ) : K) * fs = g - f := by push_cast; linarith
    have := key2
    have hz : (k - m : ℤ) = 0 := by
      apply key _ _ e
      rw [abs_lt]; constructor <;> linarith
    rw [hz] at e; simp at e; linarith
  · have e : ((m - k : ℤ) : K) * fs = f + g := by push_cast; linarith
    rcases key2 _ e with h | h <;> linarith
  · have e : ((k - m : ℤ) : K) * fs = f + g := by push_cast; linarith
    rcases key2 _ e with h | h <;> linarith
  · have e : ((k - m : ℤ) : K) * fs = f - g := by push_cast; linarith
    have hz : (k - m : ℤ) = 0 := by
      apply key _ _ e
      rw [abs_lt]; constructor <;> linarith
    rw [hz] at e; simp at e; linarith

/-- **C04, symmetries.** Folding is even, periodic in `fs`, and idempotent. -/
theorem C04_fold_even_periodic_idempotent (fin fs : K) (hfs : 0 < fs) (k : ℤ) :
    foldFrequency (-fin) fs = foldFrequency fin fs ∧
    foldFrequency (fin + k * fs) fs = foldFrequency fin fs ∧
    foldFrequency (foldFrequency fin fs) fs = foldFrequency fin fs := by
  obtain ⟨h0, h1, m, hm⟩ := C04_fold_is_alias fin fs hfs
  refine ⟨?_, ?_, ?_⟩
  · symm; apply C04_fold_unique _ _ _ hfs
    refine ⟨h0, h1, -m, ?_⟩
    push_cast
    rcases hm with hm | hm
    · right; linarith
    · left; linarith
  · symm; apply C04_fold_unique _ _ _ hfs
    refine ⟨h0, h1, m + k, ?_⟩
    push_cast
    rcases hm with hm | hm
    · left; linarith
    · right; linarith
  · symm; apply C04_fold_unique _ _ _ hfs
    exact ⟨h0, h1, 0, Or.inl (by simp)⟩

/-- **C04, meaning.** Sampled at rate `fs`, a cosine at `fin` and one at the folded frequency give the
same samples. -/
theorem C04_fold_same_samples (fin fs : ℝ) (hfs : 0 < fs) (n : ℤ) :
    Real.cos (2 * Real.pi * fin * (n / fs)) = Real.cos (2 * Real.pi * foldFrequency fin fs * (n / fs)) := by
  obtain ⟨_, _, m, hm⟩ := C04_fold_is_alias fin fs hfs
  set f := foldFrequency fin fs
  have hne := hfs.ne'
  rcases hm with hm | hm
  · have : 2 * Real.pi * fin * (n / fs) = 2 * Real.pi * f * (n / fs) + ((m * n : ℤ) : ℝ) * (2 * Real.pi) := by
      rw [hm]; push_cast; field_simp
      ring
    rw [this, Real.cos_add_int_mul_two_pi]
  · have : 2 * Real.pi * fin * (n / fs) = -(2 * Real.pi * f * (n / fs)) + ((m * n : ℤ) : ℝ) * (2 * Real.pi) := by
      rw [hm]; push_cast; field_simp
      ring
    rw [this, Real.cos_add_int_mul_two_pi, Real.cos_neg]

/-- Non-vacuity: 900 at rate 800 folds to 100; the exact tie 1200 folds to 400. -/
example : foldFrequency (900 : ℚ) 800 = 100 ∧ foldFrequency (1200 : ℚ) 800 = 400 ∧
    foldFrequency (-2000 : ℚ) 800 = 400 := by decide +kernel

/-- **C05, false in general.** For odd `n_fft` and a fractional bin the result can exceed `n_fft/2`
(contradicting the documented range): bin 2.3 of a 5-point FFT
is mapped to 2.7 > 2.5. -/
theorem C05_fold_bin_range_false :
    ∃ r : ℚ, foldBin (23 / 10 : ℚ) 5 = .ok r ∧ ¬ r ≤ 5 / 2 := by
  refine ⟨27 / 10, by decide +kernel, by norm_num⟩

/-- **C05 (partial).** For even `n_fft` (any bin, fractional or negative) the folded bin is the alias in
`[0, n_fft/2]`. Missing part: odd `n_fft` with fractional bins, where the claim is false. -/
theorem C05_fold_bin_even_partial (bin : K) (n : ℕ) (hn : 0 < n) (he : Even n) :
    ∃ r, foldBin bin n = .ok r ∧ FirstZoneAlias bin (n : K) r := by
  have hnK : (0 : K) < n := by exact_mod_cast hn
  have h0 := pmod_nonneg bin hnK
  have h1 := pmod_lt bin hnK
  have hhalf : ((n / 2 : ℕ) : K) = (n : K) / 2 := by
    obtain ⟨m, rfl⟩ := he
    have : (m + m) / 2 = m := by omega
    rw [this]; push_cast; ring
  unfold foldBin
  rw [if_neg hn.ne']
  simp only [hhalf]
  split_ifs with h
  · refine ⟨_, rfl, by linarith, by linarith, ⌊bin / n⌋ + 1, Or.inr ?_⟩
    unfold pmod; push_cast; ring
  · refine ⟨_, rfl, h0, not_lt.mp h, ⌊bin / n⌋, Or.inl ?_⟩
    unfold pmod; ring

/-- **C05 (partial).** For every `n_fft ≥ 1`, even or odd, and every integer bin the folded bin is the
alias in `[0, n_fft/2]`. -/
theorem C05_fold_bin_integer_partial (bin : ℤ) (n : ℕ) (hn : 0 < n) :
    ∃ r, foldBin (bin : K) n = .ok r ∧ FirstZoneAlias (bin : K) (n : K) r := by
  have hnK : (0 : K) < n := by exact_mod_cast hn
  have h0 := pmod_nonneg (bin : K) hnK
  have h1 := pmod_lt (bin : K) hnK
  -- the wrapped bin is an integer
  have hz : pmod (bin : K) n = ((bin - n * ⌊(bin : K) / n⌋ : ℤ) : K) := by unfold pmod; push_cast; ring
  set z : ℤ := bin - n * ⌊(bin : K) / n⌋ with hzdef
  have hm : ((n / 2 : ℕ) : K) = (((n / 2 : ℕ) : ℤ) : K) := (Int.cast_natCast _).symm
  unfold foldBin
  rw [if_neg hn.ne']
  simp only
  split_ifs with h
  · rw [hz, hm] at h
    have h' : ((n / 2 : ℕ) : ℤ) + 1 ≤ z := by exact_mod_cast h
    have h2 : (n : ℤ) ≤ 2 * z := by omega
    have h2K : (n : K) ≤ 2 * z := by exact_mod_cast h2
    refine ⟨_, rfl, by linarith, by rw [hz]; linarith, ⌊(bin : K) / n⌋ + 1, Or.inr ?_⟩
    unfold pmod; push_cast; ring
  · rw [hz, hm, not_lt] at h
    have h' : z ≤ ((n / 2 : ℕ) : ℤ) := by exact_mod_cast h
    have h2 : 2 * z ≤ n := by omega
    have h2K : 2 * (z : K) ≤ n := by exact_mod_cast h2
    refine ⟨_, rfl, h0, by rw [hz]; linarith, ⌊(bin : K) / n⌋, Or.inl ?_⟩
    unfold pmod; ring

/-- Even when the range claim fails (odd length, fractional bin) the result is still an alias of the bin
inside `[0, n_fft/2 + 1/2)`. -/
theorem C05_fold_bin_any_partial (bin : K) (n : ℕ) (hn : 0 < n) :
    ∃ r, foldBin bin n = .ok r ∧ 0 ≤ r ∧ r < (n : K) / 2 + 1 / 2 ∧ Alias bin (n : K) r := by
  have hnK : (0 : K) < n := by exact_mod_cast hn
  have h0 := pmod_nonneg bin hnK
  have h1 := pmod_lt bin hnK
  have hlo : (n : K) ≤ 2 * ((n / 2 : ℕ) : K) + 1 := by
    have : n ≤ 2 * (n / 2) + 1 := by omega
    exact_mod_cast this
  have hhi : 2 * ((n / 2 : ℕ) : K) ≤ n := by
    have : 2 * (n / 2) ≤ n := by omega
    exact_mod_cast this
  unfold foldBin
  rw [if_neg hn.ne']
  simp only
  split_ifs with h
  · refine ⟨_, rfl, by linarith, by linarith, ⌊bin / n⌋ + 1, Or.inr ?_⟩
    unfold pmod; push_cast; ring
  · refine ⟨_, rfl, h0, by linarith, ⌊bin / n⌋, Or.inl ?_⟩
    unfold pmod; ring

example : foldBin (5000 : ℚ) 8192 = .ok 3192 ∧ foldBin (-100 : ℚ) 8192 = .ok 100 ∧
    foldBin (3 : ℚ) 5 = .ok 2 := by decide +kernel

end Verif
