import Verif.Model.MatlabSpectrum
import Verif.Theorems.Align
import Mathlib.Algebra.Order.Ring.Pow

/-!
# C122: phase alignment of `plotspec.m` and of `_align_spectrum_phase`
-/

namespace Verif

open Model Finset

/-- The harmonic bins of fundamental `b`: where `b·h`, folded at half the record length, lands for some `h` up to `N`. -/
def HarmonicBin (b N k : ℕ) : Prop := 2 * k ≤ N ∧ ∃ h, 1 ≤ h ∧ h ≤ N ∧ (b * h % N = k ∨ N ∣ b * h + k)

/-- The gain left by the `1e-20` guard of the Python phasor. -/
noncomputable def guardGain (z : ℂ) : ℝ := ‖z‖ / (‖z‖ + 1 / 10 ^ 20)

private theorem target_same (b h N : ℕ) : mlAlignTarget b h N = alignTarget b h N := by
  unfold mlAlignTarget alignTarget
  simp only
  have hm : b * h - b * h / N * N = b * h % N := by
    have := Nat.div_add_mod (b * h) N
    rw [mul_comm] at this
    omega
  rw [hm, mul_comm (b * h) 2]

private theorem target_lt (b h N : ℕ) (hN : 0 < N) : (alignTarget b h N).1 < N := by
  have hr := Nat.mod_lt (b * h) hN
  unfold alignTarget
  split_ifs with hc
  · exact hr
  · simp only
    have : b * h % N ≠ 0 := by
      intro h0
      obtain ⟨q, hq⟩ := Nat.dvd_of_mod_eq_zero h0
      apply hc
      rw [hq, show 2 * (N * q) = N * (2 * q) by ring, Nat.mul_div_cancel_left _ hN]
      omega
    omega

theorem ml_gain_pos (z : ℂ) (hz : z ≠ 0) : 0 < guardGain z := by
  unfold guardGain
  have := norm_pos_iff.mpr hz
  positivity

theorem ml_phasor (X : ℕ → ℂ) (b : ℕ) (hX : X b ≠ 0) :
    alignPhasor X b = (guardGain (X b) : ℂ) * (starRingEnd ℂ) (X b / (‖X b‖ : ℂ)) := by
  have hn := norm_pos_iff.mpr hX
  have h1 : (‖X b‖ : ℂ) ≠ 0 := by exact_mod_cast hn.ne'
  have h2 : ((‖X b‖ + 1 / 10 ^ 20 : ℝ) : ℂ) ≠ 0 := by
    have : 0 < ‖X b‖ + 1 / 10 ^ 20 := by positivity
    exact_mod_cast this.ne'
  unfold alignPhasor guardGain
  rw [← Complex.conj_ofReal (‖X b‖ / (‖X b‖ + 1 / 10 ^ 20)), ← map_mul]
  congr 1
  rw [Complex.ofReal_div]
  field_simp

/-- The two loops side by side. -/
theorem ml_loops (X : ℕ → ℂ) (b N : ℕ) (hN : 0 < N) (c : ℝ) (u : ℂ) (t : ℕ) :
    let s := (List.range t).foldl (fun (s : AlignState) (i : ℕ) => alignStep b N (c * u) s (i + 1)) ⟨X, ∅, c * u⟩
    let m := (List.range t).foldl (fun (s : AlignState) (i : ℕ) => mlAlignStep b N u s (i + 1)) ⟨Function.update X 0 0, ∅, u⟩
    s.hp = (c : ℂ) ^ (t + 1) * m.hp ∧ s.done = m.done ∧ m.X 0 = 0 ∧
    (∀ k, k ≠ 0 → k ∉ m.done → s.X k = m.X k ∧ m.X k = X k) ∧ (∀ k, k ≠ 0 → k ∈ m.done → ∃ h, 1 ≤ h ∧ h ≤ t ∧ s.X k = (c : ℂ) ^ h * m.X k) := by
  induction t with
  | zero =>
    refine ⟨by simp, rfl, by simp, fun k hk _ => ?_, fun k _ hk => absurd hk (notMem_empty k)⟩
    simp [Function.update_of_ne hk]
  | succ t ih =>
    simp only [List.range_succ, List.foldl_append, List.foldl_cons, List.foldl_nil]
    simp only at ih
    generalize (List.range t).foldl (fun (s : AlignState) (i : ℕ) => alignStep b N (c * u) s (i + 1)) ⟨X, ∅, c * u⟩ = s at ih
    generalize (List.range t).foldl (fun (s : AlignState) (i : ℕ) => mlAlignStep b N u s (i + 1)) ⟨Function.update X 0 0, ∅, u⟩ = m at ih
    obtain ⟨i1, i2, i0, i3, i4⟩ := ih
    have htl := target_lt b (t + 1) N hN
    unfold alignStep mlAlignStep
    simp only [target_same, i2]
    set T := alignTarget b (t + 1) N
    have hpp : s.hp * (c * u) = (c : ℂ) ^ (t + 1 + 1) * (m.hp * u) := by rw [i1]; ring
    by_cases hc : T.1 ∉ m.done
    · rw [if_pos ⟨htl, hc⟩, if_pos hc]
      simp only
      refine ⟨hpp, trivial, ?_, ?_, ?_⟩
      · by_cases h0 : T.1 = 0
        · rw [h0, Function.update_self, i0, zero_mul]
        · rw [Function.update_of_ne (Ne.symm h0), i0]
      · intro k hk0 hk
        rw [mem_insert, not_or] at hk
        rw [Function.update_of_ne hk.1, Function.update_of_ne hk.1]
        exact i3 k hk0 hk.2
      · intro k hk0 hk
        by_cases hkT : k = T.1
        · refine ⟨t + 1, by omega, le_refl _, ?_⟩
          subst hkT
          rw [Function.update_self, Function.update_self, (i3 _ hk0 hc).1, i1]
          split_ifs
          · rw [map_mul, map_pow, Complex.conj_ofReal]; ring
          · ring
        · rw [mem_insert] at hk
          rw [Function.update_of_ne hkT, Function.update_of_ne hkT]
          obtain ⟨h, h1, h2, h3⟩ := i4 k hk0 (hk.resolve_left hkT)
          exact ⟨h, h1, by omega, h3⟩
    · rw [if_neg (fun h => hc h.2), if_neg hc]
      refine ⟨hpp, i2, i0, i3, fun k hk0 hk => ?_⟩
      obtain ⟨h, h1, h2, h3⟩ := i4 k hk0 hk
      exact ⟨h, h1, by omega, h3⟩

theorem ml_done_iff (X : ℕ → ℂ) (b N : ℕ) (hN : 0 < N) (ph : ℂ) (k : ℕ) (hk : 0 < k) :
    k ∈ ((List.range N).foldl (fun (s : AlignState) (i : ℕ) => alignStep b N ph s (i + 1)) ⟨X, ∅, ph⟩).done ↔ HarmonicBin b N k := by
  rw [(align_loop X b N ph N).2.1 k]
  unfold HarmonicBin
  constructor
  · rintro ⟨_, h, h1, h2, he⟩
    obtain ⟨a1, a2⟩ := alignTarget_spec b h N k hN hk
    cases hb : (alignTarget b h N).2 with
    | false => obtain ⟨e1, e2⟩ := a1.mp ⟨he, hb⟩; exact ⟨by omega, h, h1, h2, Or.inl e1⟩
    | true => obtain ⟨e1, e2⟩ := a2.mp ⟨he, hb⟩; exact ⟨by omega, h, h1, h2, Or.inr e1⟩
  · rintro ⟨h2k, h, h1, h2, he⟩
    obtain ⟨a1, a2⟩ := alignTarget_spec b h N k hN hk
    refine ⟨by omega, h, h1, h2, ?_⟩
    by_cases hlt : 2 * k < N
    · rcases he with he | he
      · exact (a1.mpr ⟨he, hlt⟩).1
      · exact (a2.mpr ⟨he, h2k⟩).1
    · refine (a2.mpr ⟨?_, h2k⟩).1
      rcases he with he | he
      · have := Nat.div_add_mod (b * h) N
        rw [he] at this
        exact ⟨b * h / N + 1, by rw [mul_add]; omega⟩
      · exact he

theorem ml_cpow (c : ℝ) (hc : 0 < c) (u : ℂ) (hu : u ≠ 0) (x : ℂ) : ((c : ℂ) * u) ^ x = (c : ℂ) ^ x * u ^ x := by
  have hc' : (c : ℂ) ≠ 0 := by exact_mod_cast hc.ne'
  rw [Complex.cpow_def_of_ne_zero (mul_ne_zero hc' hu), Complex.cpow_def_of_ne_zero hc', Complex.cpow_def_of_ne_zero hu, Complex.log_ofReal_mul hc hu, ← Complex.exp_add,
    Complex.ofReal_log hc.le]
  congr 1
  ring

/-- **C122 (alignment, bin by bin).** Against `plotspec.m`, a harmonic bin aligned by `_align_spectrum_phase` is multiplied by a power of the guard gain, at most the
`N`-th; any other bin is multiplied by the gain to the power `k/bR` and turned by the fundamental's phase to the power `k/bR - k/b`, since Python divides by the
interpolated bin and `plotspec.m` by the whole one. -/
theorem C122_align (X : ℕ → ℂ) (b N k : ℕ) (bR : ℝ) (hN : 0 < N) (hb : 0 < b) (hX : X b ≠ 0) (hk : 0 < k) :
    (HarmonicBin b N k → ∃ h, 1 ≤ h ∧ h ≤ N ∧ alignSpectrumPhase X b bR N k = (guardGain (X b) : ℂ) ^ h * mlAlign X b N k) ∧
    (¬ HarmonicBin b N k → 0 < bR → alignSpectrumPhase X b bR N k =
      (guardGain (X b) : ℂ) ^ (((k : ℝ) / bR : ℝ) : ℂ) * (starRingEnd ℂ) (X b / (‖X b‖ : ℂ)) ^ (((k : ℝ) / bR - k / b : ℝ) : ℂ) * mlAlign X b N k) := by
  have hn := norm_pos_iff.mpr hX
  have hu0 : (starRingEnd ℂ) (X b / (‖X b‖ : ℂ)) ≠ 0 := by
    rw [Ne, map_eq_zero, div_eq_zero_iff, not_or]
    exact ⟨hX, by exact_mod_cast hn.ne'⟩
  have hub : Function.update X 0 0 b = X b := Function.update_of_ne hb.ne' _ _
  have hd := ml_done_iff X b N hN (alignPhasor X b) k hk
  rw [align_eq X b bR N k hb, if_neg hk.ne']
  unfold mlAlign
  simp only [hub]
  rw [ml_phasor X b hX] at hd ⊢
  set c := guardGain (X b) with hcd
  set u := (starRingEnd ℂ) (X b / (‖X b‖ : ℂ)) with hud
  obtain ⟨-, l2, -, l3, l4⟩ := ml_loops X b N hN c u N
  rw [l2] at hd ⊢
  constructor
  · intro hh
    have hmem := hd.mpr hh
    rw [if_pos hmem, if_pos hmem]
    exact l4 k hk.ne' hmem
  · intro hh hbR
    have hmem := fun h => hh (hd.mp h)
    obtain ⟨e1, e2⟩ := l3 k hk.ne' hmem
    rw [if_neg hmem, if_neg hmem, if_pos hbR, e1, ml_cpow c (ml_gain_pos _ hX) u hu0]
    have hsplit : u ^ (((k : ℝ) / bR : ℝ) : ℂ) = u ^ (((k : ℝ) / bR - k / b : ℝ) : ℂ) * u ^ (((k : ℝ) / b : ℝ) : ℂ) := by
      rw [← Complex.cpow_add _ _ hu0]
      congr 1
      push_cast
      ring
    rw [hsplit]
    ring

/-- Both leave zero at DC. -/
theorem C122_dc (X : ℕ → ℂ) (b N : ℕ) (bR : ℝ) (hN : 0 < N) (hb : 0 < b) : alignSpectrumPhase X b bR N 0 = 0 ∧ mlAlign X b N 0 = 0 := by
  constructor
  · rw [align_eq X b bR N 0 hb, if_pos rfl]
  · unfold mlAlign
    obtain ⟨-, -, l0, -⟩ := ml_loops X b N hN 1 ((starRingEnd ℂ) (Function.update X 0 0 b / (‖Function.update X 0 0 b‖ : ℂ))) N
    rw [l0]
    simp

/-- Every multiple of `gcd(b, N)` up to Nyquist is a harmonic bin: all bins, if `b` is coprime to the record length. -/
theorem C122_harmonic_bins (b N k : ℕ) (hN : 0 < N) (hb : 0 < b) (hk : 0 < k) (hkN : 2 * k ≤ N) : HarmonicBin b N k ↔ Nat.gcd b N ∣ k := by
  constructor
  · rintro ⟨_, h, _, _, he | he⟩
    · rw [← he]
      exact (Nat.dvd_mod_iff (Nat.gcd_dvd_right b N)).mpr ((Nat.gcd_dvd_left b N).mul_right h)
    · exact (Nat.dvd_add_right ((Nat.gcd_dvd_left b N).mul_right h)).mp ((Nat.gcd_dvd_right b N).trans he)
  · intro hg
    obtain ⟨h, h1, h2, -, h4⟩ := C34_harmonic_bins (fun _ => 1) b 1 N hb k hk hkN hg
    refine ⟨hkN, h, h1, h2, ?_⟩
    rcases h4 with ⟨x, -⟩ | ⟨x, -⟩
    · left
      rw [x, Nat.mod_eq_of_lt (by omega)]
    · exact Or.inr x

/-- **C122 (close).** At every multiple of `gcd(b, N)` - at every bin, if the two are coprime - the two alignments differ by at most `N·1e-20/|X[b]|` of its height. -/
theorem C122_close (X : ℕ → ℂ) (b N k : ℕ) (bR : ℝ) (hN : 0 < N) (hb : 0 < b) (hX : X b ≠ 0) (hg : Nat.gcd b N ∣ k) (hkN : 2 * k ≤ N) :
    ‖alignSpectrumPhase X b bR N k - mlAlign X b N k‖ ≤ N * (1 / 10 ^ 20 / ‖X b‖) * ‖mlAlign X b N k‖ := by
  rcases Nat.eq_zero_or_pos k with rfl | hk
  · obtain ⟨h1, h2⟩ := C122_dc X b N bR hN hb
    rw [h1, h2]
    simp
  obtain ⟨h, h1, h2, he⟩ := (C122_align X b N k bR hN hb hX hk).1 ((C122_harmonic_bins b N k hN hb hk hkN).mpr hg)
  have hn := norm_pos_iff.mpr hX
  have hc0 := ml_gain_pos (X b) hX
  have hc1 : guardGain (X b) ≤ 1 := by
    unfold guardGain
    rw [div_le_one (by positivity)]
    have : (0 : ℝ) < 1 / 10 ^ 20 := by norm_num
    linarith
  have hg : 1 - guardGain (X b) ≤ 1 / 10 ^ 20 / ‖X b‖ := by
    have e : 1 - guardGain (X b) = 1 / 10 ^ 20 / (‖X b‖ + 1 / 10 ^ 20) := by
      unfold guardGain
      field_simp
      ring
    rw [e]
    apply div_le_div_of_nonneg_left (by norm_num) hn
    have : (0 : ℝ) < 1 / 10 ^ 20 := by norm_num
    linarith
  have hbern : 1 - guardGain (X b) ^ h ≤ h * (1 - guardGain (X b)) := by
    have := one_add_mul_le_pow (show (-2 : ℝ) ≤ guardGain (X b) - 1 by linarith) h
    rw [add_sub_cancel] at this
    linarith
  have hhN : (h : ℝ) ≤ N := by exact_mod_cast h2
  have hpow : guardGain (X b) ^ h ≤ 1 := pow_le_one₀ hc0.le hc1
  rw [he, show (guardGain (X b) : ℂ) ^ h * mlAlign X b N k - mlAlign X b N k = ((guardGain (X b) ^ h - 1 : ℝ) : ℂ) * mlAlign X b N k by push_cast; ring, norm_mul,
    Complex.norm_real, Real.norm_eq_abs, abs_of_nonpos (by linarith)]
  apply mul_le_mul_of_nonneg_right _ (norm_nonneg _)
  calc -(guardGain (X b) ^ h - 1) ≤ h * (1 - guardGain (X b)) := by linarith
    _ ≤ N * (1 - guardGain (X b)) := mul_le_mul_of_nonneg_right hhN (by linarith)
    _ ≤ N * (1 / 10 ^ 20 / ‖X b‖) := mul_le_mul_of_nonneg_left hg (Nat.cast_nonneg _)

/-- A fundamental in bin 3 of 8: all bins are harmonic bins. -/
example (X : ℕ → ℂ) (hX : X 3 = 2) (k : ℕ) (hk : k ≤ 4) :
    ‖alignSpectrumPhase X 3 (13 / 4) 8 k - mlAlign X 3 8 k‖ ≤ (8 : ℕ) * (1 / 10 ^ 20 / ‖X 3‖) * ‖mlAlign X 3 8 k‖ :=
  C122_close X 3 8 k (13 / 4) (by norm_num) (by norm_num) (by rw [hX]; norm_num) (by rw [show Nat.gcd 3 8 = 1 by decide]; exact one_dvd k) (by omega)

/-- **C122 (refuted between harmonics).** Bins that are no harmonic are turned differently: with the peak in bin 2 of 8 read at 2.25, bin 1 of the two aligned
spectra has a different phase. -/
theorem C122_between_harmonics (X : ℕ → ℂ) (h2 : X 2 = -1) (h1 : X 1 = 1) :
    ¬ ∃ c : ℝ, alignSpectrumPhase X 2 (9 / 4) 8 1 = c * mlAlign X 2 8 1 := by
  have hX : X 2 ≠ 0 := by rw [h2]; norm_num
  have hnh : ¬ HarmonicBin 2 8 1 := by
    rw [C122_harmonic_bins 2 8 1 (by norm_num) (by norm_num) (by norm_num) (by norm_num)]
    decide
  rintro ⟨c, hc⟩
  have he := (C122_align X 2 8 1 (9 / 4) (by norm_num) (by norm_num) hX (by norm_num)).2 hnh (by norm_num)
  rw [he] at hc
  have hu : (starRingEnd ℂ) (X 2 / (‖X 2‖ : ℂ)) = -1 := by rw [h2]; simp
  have hml : mlAlign X 2 8 1 ≠ 0 := by
    intro h0
    rw [h0, mul_zero] at he
    rw [align_eq X 2 (9 / 4) 8 1 (by norm_num), if_neg one_ne_zero, if_neg (fun h => hnh ((ml_done_iff X 2 8 (by norm_num) _ 1 (by norm_num)).mp h)),
      (align_loop X 2 8 (alignPhasor X 2) 8).2.2.1 1 (fun h => hnh ((ml_done_iff X 2 8 (by norm_num) _ 1 (by norm_num)).mp h)), h1, one_mul,
      ml_phasor X 2 hX, Complex.cpow_eq_zero_iff, hu] at he
    have := he.1
    have hg := (ml_gain_pos (X 2) hX).ne'
    simp at this
    exact hg this
  have hc := mul_right_cancel₀ hml hc
  rw [hu] at hc
  have hg : (guardGain (X 2) : ℂ) ^ ((((1 : ℕ) : ℝ) / (9 / 4) : ℝ) : ℂ) = ((guardGain (X 2) ^ (((1 : ℕ) : ℝ) / (9 / 4) : ℝ) : ℝ) : ℂ) :=
    (Complex.ofReal_cpow (ml_gain_pos _ hX).le _).symm
  rw [hg] at hc
  have hgp : 0 < guardGain (X 2) ^ (((1 : ℕ) : ℝ) / (9 / 4) : ℝ) := Real.rpow_pos_of_pos (ml_gain_pos _ hX) _
  generalize guardGain (X 2) ^ (((1 : ℕ) : ℝ) / (9 / 4) : ℝ) = g at hc hgp
  have hm1 : (-1 : ℂ) ^ ((((1 : ℕ) : ℝ) / (9 / 4) - ((1 : ℕ) : ℝ) / ((2 : ℕ) : ℝ) : ℝ) : ℂ) = Complex.exp (((-(Real.pi / 18) : ℝ) : ℂ) * Complex.I) := by
    rw [show (((1 : ℕ) : ℝ) / (9 / 4) - ((1 : ℕ) : ℝ) / ((2 : ℕ) : ℝ) : ℝ) = -(1 / 18) by norm_num, Complex.cpow_def_of_ne_zero (by norm_num), Complex.log_neg_one,
      show (Real.pi : ℂ) * Complex.I * ((-(1 / 18) : ℝ) : ℂ) = ((-(Real.pi / 18) : ℝ) : ℂ) * Complex.I by push_cast; ring]
  rw [hm1] at hc
  have him := congrArg Complex.im hc
  rw [Complex.im_ofReal_mul, Complex.exp_ofReal_mul_I_im, Complex.ofReal_im, Real.sin_neg] at him
  have hs : 0 < Real.sin (Real.pi / 18) := Real.sin_pos_of_pos_of_lt_pi (by positivity) (by linarith [Real.pi_pos])
  have := mul_pos hgp hs
  linarith

end Verif
