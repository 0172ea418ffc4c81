import Verif.Proofs.Spectrum
import Verif.Theorems.Tone
import Mathlib.Analysis.SpecialFunctions.Pow.Complex
import Mathlib.Data.Nat.ModEq
import Mathlib.Data.Int.ModEq

/-!
# C34: phase alignment and coherent averaging
-/

namespace Verif

open Model Finset

/-- The harmonic loop after `t` passes. -/
theorem align_loop (X : ℕ → ℂ) (b N : ℕ) (ph : ℂ) (t : ℕ) :
    let s := (List.range t).foldl (fun (s : AlignState) (i : ℕ) => alignStep b N ph s (i + 1)) ⟨X, ∅, ph⟩
    s.hp = ph ^ (t + 1) ∧
    (∀ k, k ∈ s.done ↔ k < N ∧ ∃ h, 1 ≤ h ∧ h ≤ t ∧ (alignTarget b h N).1 = k) ∧
    (∀ k, k ∉ s.done → s.X k = X k) ∧
    (∀ k h, 1 ≤ h → h ≤ t → (alignTarget b h N).1 = k → k < N → (∀ h', 1 ≤ h' → h' < h → (alignTarget b h' N).1 ≠ k) →
      s.X k = X k * (if (alignTarget b h N).2 then (starRingEnd ℂ) (ph ^ h) else ph ^ h)) := by
  induction t with
  | zero =>
    refine ⟨by simp, ?_, fun k _ => rfl, fun k h h1 h2 => by omega⟩
    intro k
    simp only [List.range_zero, List.foldl_nil, notMem_empty, false_iff, not_and, not_exists]
    intro _ h h1 h2
    omega
  | succ t ih =>
    simp only [List.range_succ, List.foldl_append, List.foldl_cons, List.foldl_nil]
    simp only at ih
    generalize (List.range t).foldl (fun (s : AlignState) (i : ℕ) => alignStep b N ph s (i + 1)) ⟨X, ∅, ph⟩ = s at ih
    obtain ⟨i1, i2, i3, i4⟩ := ih
    unfold alignStep
    simp only
    by_cases hc : (alignTarget b (t + 1) N).1 < N ∧ (alignTarget b (t + 1) N).1 ∉ s.done
    · rw [if_pos hc]
      simp only
      refine ⟨by rw [i1]; ring, ?_, ?_, ?_⟩
      · intro k
        rw [mem_insert, i2]
        constructor
        · rintro (h | ⟨h, h', ha, hb, hk⟩)
          · subst h; exact ⟨hc.1, t + 1, by omega, by omega, rfl⟩
          · exact ⟨h, h', ha, by omega, hk⟩
        · rintro ⟨hk, h, ha, hb, he⟩
          by_cases hh : h = t + 1
          · subst hh; exact Or.inl he.symm
          · exact Or.inr ⟨hk, h, ha, by omega, he⟩
      · intro k hk
        rw [mem_insert, not_or] at hk
        rw [Function.update_of_ne hk.1]
        exact i3 k hk.2
      · intro k h h1 h2 he hk hmin
        by_cases hh : h = t + 1
        · subst hh
          subst he
          rw [Function.update_self, i1, i3 _ hc.2]
        · have hne : k ≠ (alignTarget b (t + 1) N).1 := by
            rintro rfl
            exact hc.2 ((i2 _).mpr ⟨hc.1, h, h1, by omega, he⟩)
          rw [Function.update_of_ne hne]
          exact i4 k h h1 (by omega) he hk hmin
    · rw [if_neg hc]
      refine ⟨by rw [i1]; ring, ?_, i3, ?_⟩
      · intro k
        rw [i2]
        constructor
        · rintro ⟨h, h', ha, hb, hk⟩
          exact ⟨h, h', ha, by omega, hk⟩
        · rintro ⟨hk, h, ha, hb, he⟩
          by_cases hh : h = t + 1
          · subst hh
            have : k ∈ s.done := by
              by_contra hn
              exact hc ⟨by rw [he]; exact hk, by rw [he]; exact hn⟩
            obtain ⟨_, h', ha', hb', he'⟩ := (i2 k).mp this
            exact ⟨hk, h', ha', hb', he'⟩
          · exact ⟨hk, h, ha, by omega, he⟩
      · intro k h h1 h2 he hk hmin
        by_cases hh : h = t + 1
        · subst hh
          exfalso
          have : k ∈ s.done := by
            by_contra hn
            exact hc ⟨by rw [he]; exact hk, by rw [he]; exact hn⟩
          obtain ⟨_, h', ha', hb', he'⟩ := (i2 k).mp this
          exact hmin h' ha' (by omega) he'
        · exact i4 k h h1 (by omega) he hk hmin

theorem align_eq (X : ℕ → ℂ) (b : ℕ) (bR : ℝ) (N k : ℕ) (hb : 0 < b) :
    alignSpectrumPhase X b bR N k =
      if k = 0 then 0
      else if k ∈ ((List.range N).foldl (fun (s : AlignState) (i : ℕ) => alignStep b N (alignPhasor X b) s (i + 1))
        ⟨X, ∅, alignPhasor X b⟩).done then
        ((List.range N).foldl (fun (s : AlignState) (i : ℕ) => alignStep b N (alignPhasor X b) s (i + 1))
          ⟨X, ∅, alignPhasor X b⟩).X k
      else ((List.range N).foldl (fun (s : AlignState) (i : ℕ) => alignStep b N (alignPhasor X b) s (i + 1))
          ⟨X, ∅, alignPhasor X b⟩).X k * alignPhasor X b ^ (((if 0 < bR then (k : ℝ) / bR else 0 : ℝ)) : ℂ) := by
  unfold alignSpectrumPhase
  rw [if_neg hb.ne']

/-- Where a harmonic lands: unreflected iff `b·h ≡ k` with `2k < N`, reflected iff `b·h ≡ -k` with `0 < 2k ≤ N`. -/
theorem alignTarget_spec (b h N k : ℕ) (hN : 0 < N) (hk : 0 < k) :
    ((alignTarget b h N).1 = k ∧ (alignTarget b h N).2 = false ↔ b * h % N = k ∧ 2 * k < N) ∧
    ((alignTarget b h N).1 = k ∧ (alignTarget b h N).2 = true ↔ N ∣ b * h + k ∧ 2 * k ≤ N) := by
  have hq := Nat.div_add_mod (b * h) N
  have hr := Nat.mod_lt (b * h) hN
  set q := b * h / N
  set r := b * h % N with hrdef
  have hz : 2 * (b * h) / N = 2 * q + 2 * r / N := by
    rw [← hq, mul_add, show 2 * (N * q) + 2 * r = 2 * r + N * (2 * q) by ring, Nat.add_mul_div_left _ _ hN]
    ring
  have hdv : N ∣ b * h + k ↔ N ∣ r + k := by
    rw [← hq, add_assoc]
    exact (Nat.dvd_add_right (Dvd.intro q rfl))
  rw [hdv]
  unfold alignTarget
  rw [hz]
  by_cases h2 : 2 * r < N
  · rw [Nat.div_eq_of_lt h2, if_pos (by omega)]
    constructor
    · simp only [and_true, ← hrdef]
      constructor
      · intro h; exact ⟨h, by omega⟩
      · intro h; exact h.1
    · simp
      rintro ⟨c, hc⟩
      by_contra hn
      have : c = 1 := by
        have h1 : N * c < N * 2 := by omega
        have h3 : c < 2 := Nat.lt_of_mul_lt_mul_left h1
        have h4 : c ≠ 0 := by rintro rfl; omega
        omega
      subst this
      omega
  · have h1 : 2 * r / N = 1 := by
      apply Nat.div_eq_of_lt_le <;> omega
    rw [h1, if_neg (by omega)]
    constructor
    · simp
      rintro h; omega
    · simp
      rw [← hrdef]
      constructor
      · intro h
        exact ⟨⟨1, by omega⟩, by omega⟩
      · rintro ⟨⟨c, hc⟩, hkk⟩
        have : c = 1 := by
          have h1 : N * c < N * 2 := by omega
          have h3 : c < 2 := Nat.lt_of_mul_lt_mul_left h1
          have h4 : c ≠ 0 := by rintro rfl; omega
          omega
        subst this
        omega

private theorem target_iff (b h N k : ℕ) (hN : 0 < N) (hk : 0 < k) :
    (alignTarget b h N).1 = k ↔ (b * h % N = k ∧ 2 * k < N) ∨ (N ∣ b * h + k ∧ 2 * k ≤ N) := by
  obtain ⟨h1, h2⟩ := alignTarget_spec b h N k hN hk
  rw [← h1, ← h2]
  cases (alignTarget b h N).2 <;> simp

/-- **C34 (harmonic bins).** Every one-sided bin (other than DC) that is an alias of a harmonic is multiplied exactly once,
by the `h`-th power of the fundamental's conjugate phasor for the lowest harmonic `h` that lands there, conjugated when the
alias is mirrored. -/
theorem C34_harmonic_bins (X : ℕ → ℂ) (b : ℕ) (bR : ℝ) (N : ℕ) (hb : 0 < b) (k : ℕ) (hk : 0 < k) (hkN : 2 * k ≤ N)
    (hg : Nat.gcd b N ∣ k) :
    ∃ h, 1 ≤ h ∧ h ≤ N ∧ (∀ h', 1 ≤ h' → h' < h → ¬ N ∣ b * h' + k ∧ ¬ b * h' ≡ k [MOD N]) ∧
      ((b * h ≡ k [MOD N] ∧ alignSpectrumPhase X b bR N k = X k * alignPhasor X b ^ h) ∨
       (N ∣ b * h + k ∧ alignSpectrumPhase X b bR N k = X k * (starRingEnd ℂ) (alignPhasor X b ^ h))) := by
  have hN : 0 < N := by omega
  -- some harmonic lands on k
  have hex : ∃ h, 1 ≤ h ∧ h ≤ N ∧ (alignTarget b h N).1 = k := by
    obtain ⟨c, hc⟩ := hg
    obtain ⟨u, hu⟩ : ∃ u : ℤ, (N : ℤ) ∣ b * u - k := by
      refine ⟨Nat.gcdA b N * c, -(Nat.gcdB b N * c), ?_⟩
      have := Nat.gcd_eq_gcd_ab b N
      have hk' : (k : ℤ) = (Nat.gcd b N : ℤ) * c := by exact_mod_cast hc
      rw [hk', this]
      ring
    have hm0 := Int.emod_nonneg u (show (N : ℤ) ≠ 0 by omega)
    have hm1 := Int.emod_lt_of_pos u (show (0 : ℤ) < N by omega)
    have hd : (N : ℤ) ∣ b * (u % N) - k := by
      have e : (b : ℤ) * (u % N) - k = (b * u - k) - N * (b * (u / N)) := by
        have := Int.emod_add_mul_ediv u N
        rw [show u % (N : ℤ) = u - N * (u / N) by linarith]
        ring
      rw [e]
      exact dvd_sub hu (Dvd.intro _ rfl)
    obtain ⟨v, hv⟩ : ∃ v : ℕ, (v : ℤ) = u % N := ⟨(u % N).toNat, by omega⟩
    rw [← hv] at hd hm0 hm1
    refine ⟨if v = 0 then N else v, ?_, ?_, ?_⟩
    · split_ifs <;> omega
    · split_ifs <;> omega
    · by_cases hv0 : v = 0
      · exfalso
        subst hv0
        simp at hd
        have := Int.le_of_dvd (by omega) hd
        omega
      · rw [if_neg hv0]
        rw [target_iff b v N k hN hk]
        have hmod : b * v % N = k % N := by
          have h1 : ((b * v : ℕ) : ℤ) ≡ k [ZMOD N] := by
            apply Int.ModEq.symm
            rw [Int.modEq_iff_dvd]
            push_cast
            exact hd
          exact Int.natCast_modEq_iff.mp h1
        by_cases h2 : 2 * k < N
        · exact Or.inl ⟨by rw [hmod, Nat.mod_eq_of_lt (by omega)], h2⟩
        · refine Or.inr ⟨?_, hkN⟩
          have hN2 : N = 2 * k := by omega
          rw [Nat.dvd_iff_mod_eq_zero, Nat.add_mod, hmod, ← Nat.add_mod, show k + k = N by omega, Nat.mod_self]
  classical
  set h := Nat.find hex with hh
  obtain ⟨h1, h2, h3⟩ := Nat.find_spec hex
  rw [← hh] at h1 h2 h3
  have hmin : ∀ h', 1 ≤ h' → h' < h → (alignTarget b h' N).1 ≠ k := by
    intro h' ha hb' he
    exact Nat.find_min hex hb' ⟨ha, by omega, he⟩
  obtain ⟨l1, l2, l3, l4⟩ := align_loop X b N (alignPhasor X b) N
  have hdone := (l2 k).mpr ⟨by omega, h, h1, h2, h3⟩
  have hval := l4 k h h1 h2 h3 (by omega) hmin
  have hal : alignSpectrumPhase X b bR N k = X k *
      (if (alignTarget b h N).2 then (starRingEnd ℂ) (alignPhasor X b ^ h) else alignPhasor X b ^ h) := by
    rw [align_eq _ _ _ _ _ hb, if_neg (by omega), if_pos hdone, hval]
  refine ⟨h, h1, h2, ?_, ?_⟩
  · intro h' ha hb'
    have := hmin h' ha hb'
    rw [Ne, target_iff b h' N k hN hk] at this
    push Not at this
    constructor
    · intro hd
      have := this.2 hd
      omega
    · intro hd
      by_cases h2k : 2 * k < N
      · have := this.1 (by have := hd; unfold Nat.ModEq at this; rw [this, Nat.mod_eq_of_lt (by omega)])
        omega
      · have hN2 : N = 2 * k := by omega
        have h4 := this.2 (by
          unfold Nat.ModEq at hd
          rw [Nat.dvd_iff_mod_eq_zero, Nat.add_mod, hd, ← Nat.add_mod, show k + k = N by omega, Nat.mod_self])
        omega
  · obtain ⟨s1, s2⟩ := alignTarget_spec b h N k hN hk
    cases hf : (alignTarget b h N).2
    · left
      have := s1.mp ⟨h3, hf⟩
      refine ⟨?_, ?_⟩
      · unfold Nat.ModEq
        rw [this.1, Nat.mod_eq_of_lt (by omega)]
      · rw [hal, hf]; simp
    · right
      have := s2.mp ⟨h3, hf⟩
      refine ⟨this.1, ?_⟩
      rw [hal, hf]; simp

/-- **C34 (other bins).** Bins above Nyquist and bins no harmonic aliases to are rotated by the fractional power
`phasor^(k/bin_r)`; DC is zeroed. -/
theorem C34_other_bins (X : ℕ → ℂ) (b : ℕ) (bR : ℝ) (N : ℕ) (hb : 0 < b) (hbR : 0 < bR) :
    alignSpectrumPhase X b bR N 0 = 0 ∧ ∀ k, 0 < k → k < N → (N < 2 * k ∨ ¬ Nat.gcd b N ∣ k) →
      alignSpectrumPhase X b bR N k = X k * alignPhasor X b ^ ((k / bR : ℝ) : ℂ) := by
  constructor
  · rw [align_eq _ _ _ _ _ hb, if_pos rfl]
  · intro k hk hkN hor
    obtain ⟨l1, l2, l3, l4⟩ := align_loop X b N (alignPhasor X b) N
    have hnd : k ∉ ((List.range N).foldl (fun (s : AlignState) (i : ℕ) => alignStep b N (alignPhasor X b) s (i + 1))
        ⟨X, ∅, alignPhasor X b⟩).done := by
      intro hc
      obtain ⟨_, h, h1, h2, h3⟩ := (l2 k).mp hc
      rw [target_iff b h N k (by omega) hk] at h3
      have hle : 2 * k ≤ N := by omega
      have hg : Nat.gcd b N ∣ k := by
        rcases h3 with ⟨h3, _⟩ | ⟨h3, _⟩
        · rw [← h3]
          exact (Nat.dvd_mod_iff (Nat.gcd_dvd_right b N)).mpr (Dvd.dvd.mul_right (Nat.gcd_dvd_left b N) h)
        · have := dvd_trans (Nat.gcd_dvd_right b N) h3
          exact (Nat.dvd_add_right (Dvd.dvd.mul_right (Nat.gcd_dvd_left b N) h)).mp this
      rcases hor with h | h
      · omega
      · exact h hg
    rw [align_eq _ _ _ _ _ hb, if_neg (by omega), if_neg hnd, l3 k hnd, if_pos hbR]

/-- Modulus of the alignment phasor: one up to the `1e-20` guard. -/
theorem alignPhasor_norm (X : ℕ → ℂ) (b : ℕ) : ‖alignPhasor X b‖ = ‖X b‖ / (‖X b‖ + 1 / 10 ^ 20) := by
  unfold alignPhasor
  rw [RCLike.norm_conj, norm_div, Complex.norm_real, Real.norm_eq_abs, abs_of_pos (by positivity)]

/-- **C34 (magnitudes).** Alignment never raises a bin, and lowers it only by the `1e-20` regularisation: by at most the
factor `(|X_b|/(|X_b|+1e-20))^e` with `e ≤ max(N, k/bin_r)`. -/
theorem C34_magnitudes (X : ℕ → ℂ) (b : ℕ) (bR : ℝ) (N : ℕ) (hb : 0 < b) (hbR : 0 < bR) (hX : X b ≠ 0) (k : ℕ) (hk : 0 < k)
    (hkN : k < N) :
    ‖alignSpectrumPhase X b bR N k‖ ≤ ‖X k‖ ∧
      ‖X k‖ * (‖X b‖ / (‖X b‖ + 1 / 10 ^ 20)) ^ max (N : ℝ) (k / bR) ≤ ‖alignSpectrumPhase X b bR N k‖ := by
  have hpos : 0 < ‖X b‖ := norm_pos_iff.mpr hX
  have hρ0 : 0 < ‖X b‖ / (‖X b‖ + 1 / 10 ^ 20) := by positivity
  have hρ1 : ‖X b‖ / (‖X b‖ + 1 / 10 ^ 20) ≤ 1 := by
    rw [div_le_one (by positivity)]
    have : (0 : ℝ) < 1 / 10 ^ 20 := by positivity
    linarith
  have main : ∃ e : ℝ, 0 ≤ e ∧ e ≤ max (N : ℝ) (k / bR) ∧
      ‖alignSpectrumPhase X b bR N k‖ = ‖X k‖ * (‖X b‖ / (‖X b‖ + 1 / 10 ^ 20)) ^ e := by
    by_cases hc : 2 * k ≤ N ∧ Nat.gcd b N ∣ k
    · obtain ⟨h, h1, h2, _, h3⟩ := C34_harmonic_bins X b bR N hb k hk hc.1 hc.2
      refine ⟨h, by positivity, le_trans (by exact_mod_cast h2) (le_max_left _ _), ?_⟩
      rw [Real.rpow_natCast, ← alignPhasor_norm, ← norm_pow]
      rcases h3 with ⟨_, h3⟩ | ⟨_, h3⟩
      · rw [h3, norm_mul]
      · rw [h3, norm_mul, RCLike.norm_conj]
    · refine ⟨k / bR, by positivity, le_max_right _ _, ?_⟩
      rw [(C34_other_bins X b bR N hb hbR).2 k hk hkN (by
        by_cases h : 2 * k ≤ N
        · right; intro hg; exact hc ⟨h, hg⟩
        · left; omega), norm_mul, Complex.norm_cpow_real, alignPhasor_norm]
  obtain ⟨e, he0, he1, he⟩ := main
  rw [he]
  constructor
  · exact mul_le_of_le_one_right (norm_nonneg _) (Real.rpow_le_one hρ0.le hρ1 he0)
  · exact mul_le_mul_of_nonneg_left (Real.rpow_le_rpow_of_exponent_ge hρ0 hρ1 he1) (norm_nonneg _)

private theorem cis_pow (x : ℝ) (h : ℕ) : cis x ^ h = cis (h * x) := by
  induction h with
  | zero => simp [cis_zero]
  | succ h ih => rw [pow_succ, ih, ← cis_add]; congr 1; push_cast; ring

private theorem cis_add_nat (x : ℝ) (c : ℤ) : cis (x + c) = cis x := by
  rw [cis_add, cis_int, mul_one]

/-- **C34 (shift invariance of the aligned spectrum).** Delaying or advancing the record circularly (which multiplies bin `k`
by `e^{2πi·k·s/N}`) does not change any aligned one-sided bin that is an alias of a harmonic of the fundamental - all of them
when the fundamental bin is coprime with `N`. -/
theorem C34_shift_invariant (X : ℕ → ℂ) (b : ℕ) (bR bR' : ℝ) (N : ℕ) (hb : 0 < b) (hN : 0 < N) (s : ℤ) (k : ℕ)
    (hkN : 2 * k ≤ N) (hg : Nat.gcd b N ∣ k) :
    alignSpectrumPhase (fun k => X k * cis (k * s / N)) b bR' N k = alignSpectrumPhase X b bR N k := by
  have hNR : (N : ℝ) ≠ 0 := by exact_mod_cast hN.ne'
  by_cases hk : k = 0
  · subst hk
    rw [align_eq _ _ _ _ _ hb, align_eq _ _ _ _ _ hb, if_pos rfl, if_pos rfl]
  have hk : 0 < k := by omega
  set X' : ℕ → ℂ := fun k => X k * cis (k * s / N) with hX'
  have hph : alignPhasor X' b = alignPhasor X b * cis (-(b * s / N)) := by
    unfold alignPhasor
    simp only [hX', norm_mul, norm_cis, mul_one]
    rw [mul_div_right_comm, map_mul, conj_cis]
  obtain ⟨h, h1, h2, h3, h4⟩ := C34_harmonic_bins X b bR N hb k hk hkN hg
  obtain ⟨g, g1, g2, g3, g4⟩ := C34_harmonic_bins X' b bR' N hb k hk hkN hg
  have hgh : g = h := by
    rcases lt_trichotomy g h with hlt | heq | hlt
    · exfalso
      have := h3 g g1 hlt
      rcases g4 with ⟨x, _⟩ | ⟨x, _⟩
      · exact this.2 x
      · exact this.1 x
    · exact heq
    · exfalso
      have := g3 h h1 hlt
      rcases h4 with ⟨x, _⟩ | ⟨x, _⟩
      · exact this.2 x
      · exact this.1 x
  subst hgh
  have pos : b * g ≡ k [MOD N] → X' k * alignPhasor X' b ^ g = X k * alignPhasor X b ^ g := by
    intro hm
    have hd : (N : ℤ) ∣ (k : ℤ) - (b * g : ℕ) := (Nat.modEq_iff_dvd).mp hm
    obtain ⟨c, hc⟩ := hd
    have hcR : (k : ℝ) - b * g = N * c := by exact_mod_cast hc
    rw [hph, mul_pow, cis_pow]
    simp only [hX']
    rw [show X k * cis (k * s / N) * (alignPhasor X b ^ g * cis (g * -(b * s / N)))
      = X k * alignPhasor X b ^ g * (cis (k * s / N) * cis (g * -(b * s / N))) by ring, ← cis_add]
    have e : (k * s / N + g * -(b * s / N) : ℝ) = 0 + ((c * s : ℤ) : ℝ) := by
      push_cast
      rw [show (k * s / N + g * -(b * s / N) : ℝ) = (k - b * g) * s / N by ring, hcR]
      field_simp
      ring
    rw [e, cis_add_nat, cis_zero, mul_one]
  have neg : N ∣ b * g + k → X' k * (starRingEnd ℂ) (alignPhasor X' b ^ g) = X k * (starRingEnd ℂ) (alignPhasor X b ^ g) := by
    intro hm
    obtain ⟨c, hc⟩ := hm
    have hcR : (b : ℝ) * g + k = N * c := by exact_mod_cast hc
    rw [hph, mul_pow, cis_pow, map_mul, conj_cis]
    simp only [hX']
    rw [show X k * cis (k * s / N) * ((starRingEnd ℂ) (alignPhasor X b ^ g) * cis (-(g * -(b * s / N))))
      = X k * (starRingEnd ℂ) (alignPhasor X b ^ g) * (cis (k * s / N) * cis (-(g * -(b * s / N)))) by ring, ← cis_add]
    have e : (k * s / N + -(g * -(b * s / N)) : ℝ) = 0 + ((c * s : ℤ) : ℝ) := by
      push_cast
      rw [show (k * s / N + -(g * -(b * s / N)) : ℝ) = (b * g + k) * s / N by ring, hcR]
      field_simp
      ring
    rw [e, cis_add_nat, cis_zero, mul_one]
  -- both alternatives pick the same value (they coincide when both congruences hold)
  have both : ∀ Y : ℕ → ℂ, ∀ r : ℝ, b * g ≡ k [MOD N] → N ∣ b * g + k →
      (alignSpectrumPhase Y b r N k = Y k * (starRingEnd ℂ) (alignPhasor Y b ^ g)) := by
    intro Y r ha hb'
    have hN2 : N = 2 * k := by
      have h5 : (k + k) % N = 0 := by
        have := (Nat.ModEq.add_right k ha).symm
        unfold Nat.ModEq at this
        rw [this]
        exact Nat.mod_eq_zero_of_dvd hb'
      have := Nat.le_of_dvd (by omega) (Nat.dvd_of_mod_eq_zero h5)
      omega
    obtain ⟨l1, l2, l3, l4⟩ := align_loop Y b N (alignPhasor Y b) N
    have ht : (alignTarget b g N).1 = k ∧ (alignTarget b g N).2 = true :=
      (alignTarget_spec b g N k hN hk).2.mpr ⟨hb', hkN⟩
    have hval := l4 k g g1 g2 ht.1 (by omega) (by
      intro h' ha' hb'' he
      rw [target_iff b h' N k hN hk] at he
      rcases he with ⟨_, he⟩ | ⟨he, _⟩
      · omega
      · exact (h3 h' ha' hb'').1 he)
    rw [align_eq _ _ _ _ _ hb, if_neg (by omega), if_pos ((l2 k).mpr ⟨by omega, g, g1, g2, ht.1⟩), hval, ht.2]
    simp
  rcases h4 with ⟨hm, hv⟩ | ⟨hm, hv⟩ <;> rcases g4 with ⟨gm, gv⟩ | ⟨gm, gv⟩
  · rw [hv, gv, pos hm]
  · rw [gv, both X bR hm gm, neg gm]
  · rw [hv, both X' bR' gm hm, neg hm]
  · rw [hv, gv, neg hm]

/-! ## Coherent averaging -/

/-- The record read from sample `s` on, wrapping around. -/
def rotated (N s : ℕ) (x : ℕ → ℝ) : ℕ → ℝ := fun n => x ((n + s) % N)

private theorem rot_bij {M : Type} [AddCommMonoid M] (N s : ℕ) (hN : 0 < N) (f : ℕ → M) :
    ∑ n ∈ range N, f ((n + s) % N) = ∑ n ∈ range N, f n := by
  apply sum_nbij' (fun n => (n + s) % N) (fun n => (n + (N - s % N)) % N)
  · intro n _; rw [mem_range]; exact Nat.mod_lt _ hN
  · intro n _; rw [mem_range]; exact Nat.mod_lt _ hN
  · intro n hn
    rw [mem_range] at hn
    have h1 := Nat.mod_lt s hN
    have h2 := Nat.div_add_mod s N
    rw [Nat.mod_add_mod]
    have e : n + s + (N - s % N) = n + N * (s / N + 1) := by
      have : N * (s / N + 1) = N * (s / N) + N := by ring
      omega
    rw [e, Nat.add_mul_mod_self_left, Nat.mod_eq_of_lt hn]
  · intro n hn
    rw [mem_range] at hn
    have h1 := Nat.mod_lt s hN
    have h2 := Nat.div_add_mod s N
    rw [Nat.mod_add_mod]
    have e : n + (N - s % N) + s = n + N * (s / N + 1) := by
      have : N * (s / N + 1) = N * (s / N) + N := by ring
      omega
    rw [e, Nat.add_mul_mod_self_left, Nat.mod_eq_of_lt hn]
  · intro n _; rfl

/-- Reading from sample `s` on multiplies bin `k` by `e^{2πi·k·s/N}`. -/
theorem dft_rotated (N s : ℕ) (hN : 0 < N) (x : ℕ → ℝ) (k : ℕ) :
    dft N (fun n => (rotated N s x n : ℂ)) k = dft N (fun n => (x n : ℂ)) k * cis (k * s / N) := by
  have hNR : (N : ℝ) ≠ 0 := by exact_mod_cast hN.ne'
  unfold dft
  rw [← rot_bij N s hN (fun n => (x n : ℂ) * cis (-(((k : ℤ) : ℝ) * n / N))), sum_mul]
  apply sum_congr rfl
  intro n _
  unfold rotated
  beta_reduce
  rw [mul_assoc, ← cis_add]
  congr 1
  have h := Nat.div_add_mod (n + s) N
  generalize (n + s) / N = q at h
  generalize (n + s) % N = r at h
  have hR : ((n : ℝ) + s) = N * q + r := by exact_mod_cast h.symm
  have e : (-(((k : ℤ) : ℝ) * n / N) : ℝ) = -(((k : ℤ) : ℝ) * r / N) + k * s / N + ((-(k * q) : ℤ) : ℝ) := by
    rw [show (n : ℝ) = N * q + r - s by linarith]
    push_cast
    field_simp
    ring
  rw [e, cis_add_nat]

/-- Fundamental bin located in one run of the coherent average. -/
noncomputable def runFundamental (x : ℕ → ℝ) (N n : ℕ) : ℕ :=
  (locateFundamental ((List.range (N / 2 + 1)).map fun (k : ℕ) => ‖dft N (fun n => (x n : ℂ)) k‖ ^ 2) n).1

private theorem coherentRun_rotated (x : ℕ → ℝ) (N n s : ℕ) (hN : 0 < N) (hcop : Nat.Coprime (runFundamental x N n) N) :
    (coherentRun x N n = none ∧ coherentRun (rotated N s x) N n = none) ∨
    ∃ Y Y', coherentRun x N n = some Y ∧ coherentRun (rotated N s x) N n = some Y' ∧ ∀ k, k ≤ N / 2 → Y' k = Y k := by
  have hsmall : (∀ m < N, |rotated N s x m| < 1 / 10 ^ 10) ↔ ∀ m < N, |x m| < 1 / 10 ^ 10 := by
    constructor
    · intro h m hm
      have h1 := Nat.mod_lt s hN
      have h2 := Nat.div_add_mod s N
      have := h ((m + (N - s % N)) % N) (Nat.mod_lt _ hN)
      unfold rotated at this
      rw [Nat.mod_add_mod] at this
      have e : m + (N - s % N) + s = m + N * (s / N + 1) := by
        have : N * (s / N + 1) = N * (s / N) + N := by ring
        omega
      rwa [e, Nat.add_mul_mod_self_left, Nat.mod_eq_of_lt hm] at this
    · intro h m _
      exact h _ (Nat.mod_lt _ hN)
  have hX : (fun k : ℕ => dft N (fun n => (rotated N s x n : ℂ)) k) = fun k : ℕ => dft N (fun n => (x n : ℂ)) k * cis (k * (s : ℤ) / N) := by
    funext k
    rw [dft_rotated N s hN x k]
    push_cast
    rfl
  have hpw : ((List.range (N / 2 + 1)).map fun (k : ℕ) => ‖dft N (fun n => (rotated N s x n : ℂ)) k‖ ^ 2)
      = (List.range (N / 2 + 1)).map fun (k : ℕ) => ‖dft N (fun n => (x n : ℂ)) k‖ ^ 2 := by
    apply List.map_congr_left
    intro k _
    rw [dft_rotated N s hN x k, norm_mul, norm_cis, mul_one]
  unfold coherentRun
  simp only [hpw]
  unfold runFundamental at hcop
  generalize locateFundamental ((List.range (N / 2 + 1)).map fun (k : ℕ) => ‖dft N (fun n => (x n : ℂ)) k‖ ^ 2) n = bf at *
  by_cases h1 : ∀ m < N, |x m| < 1 / 10 ^ 10
  · rw [if_pos h1, if_pos (hsmall.mpr h1)]
    exact Or.inl ⟨rfl, rfl⟩
  · rw [if_neg h1, if_neg (fun h => h1 (hsmall.mp h))]
    by_cases h2 : bf.1 = 0
    · rw [if_pos h2, if_pos h2]
      exact Or.inl ⟨rfl, rfl⟩
    · rw [if_neg h2, if_neg h2]
      refine Or.inr ⟨_, _, rfl, rfl, ?_⟩
      intro k hk
      rw [hX]
      exact C34_shift_invariant _ _ _ _ N (by omega) hN s k (by omega) (by rw [hcop]; exact one_dvd k)

/-- **C34 (coherent average of shifted captures).** When the fundamental bin is coprime with the record length, coherently
averaging any number of captures that differ only by where they start in the periodic record gives the spectrum of one
capture: nothing is lost. (`runs` are the records after windowing.) -/
theorem C34_coherent_average_of_shifts (x : ℕ → ℝ) (N n : ℕ) (hN : 0 < N) (hcop : Nat.Coprime (runFundamental x N n) N)
    (shifts : List ℕ) (hne : shifts ≠ []) :
    coherentAverage (shifts.map fun s => rotated N s x) N n = coherentAverage [x] N n := by
  unfold coherentAverage
  apply List.map_congr_left
  intro k hk
  rw [List.mem_range] at hk
  congr 3
  unfold coherentSum
  simp only
  cases hx : coherentRun x N n with
  | none =>
    have : (shifts.map fun s => rotated N s x).filterMap (fun x => coherentRun x N n) = [] := by
      rw [List.filterMap_eq_nil_iff]
      intro y hy
      obtain ⟨s, _, rfl⟩ := List.mem_map.mp hy
      rcases coherentRun_rotated x N n s hN hcop with h | ⟨Y, Y', h, _⟩
      · exact h.2
      · rw [hx] at h; cases h
    rw [this]
    simp [hx]
  | some Y =>
    have main : ∀ l : List ℕ,
        ((l.map fun s => rotated N s x).filterMap (fun x => coherentRun x N n)).length = l.length ∧
        (((l.map fun s => rotated N s x).filterMap (fun x => coherentRun x N n)).map fun X => X k).sum = l.length * Y k := by
      intro l
      induction l with
      | nil => simp
      | cons s l ih =>
        rcases coherentRun_rotated x N n s hN hcop with h | ⟨Z, Z', h, h', hv⟩
        · rw [hx] at h; cases h.1
        · rw [hx] at h
          injection h with h
          subst h
          simp only [List.map_cons, List.filterMap_cons, h', List.length_cons, List.sum_cons]
          rw [ih.1, ih.2, hv k (by omega)]
          refine ⟨rfl, ?_⟩
          push_cast
          ring
    obtain ⟨h1, h2⟩ := main shifts
    rw [h1, h2]
    simp only [List.filterMap_cons, hx, List.filterMap_nil, List.map_cons, List.map_nil, List.sum_cons, List.sum_nil, add_zero,
      List.length_cons, List.length_nil]
    have hl : 0 < shifts.length := List.length_pos_iff.mpr hne
    rw [if_pos hl, if_pos (by norm_num)]
    have hNC : (N : ℂ) ≠ 0 := by exact_mod_cast hN.ne'
    have hlC : (shifts.length : ℂ) ≠ 0 := by exact_mod_cast hl.ne'
    push_cast
    field_simp

/-! ## What the alignment loses -/

/-- Negating a record whose fundamental bin is coprime with an even length negates every even aligned bin. -/
private theorem align_neg_even (X : ℕ → ℂ) (b : ℕ) (bR : ℝ) (N : ℕ) (hb : 0 < b) (hcop : Nat.Coprime b N) (hN : N % 2 = 0)
    (hN0 : 0 < N) (k : ℕ) (hkN : 2 * k ≤ N) (hk : k % 2 = 0) :
    alignSpectrumPhase (fun k => -X k) b bR N k = - alignSpectrumPhase X b bR N k := by
  by_cases hk0 : k = 0
  · subst hk0
    rw [align_eq _ _ _ _ _ hb, align_eq _ _ _ _ _ hb, if_pos rfl, if_pos rfl, neg_zero]
  have hph : alignPhasor (fun k => -X k) b = - alignPhasor X b := by
    unfold alignPhasor
    rw [norm_neg, neg_div, map_neg]
  have hbo : b % 2 = 1 := by
    by_contra h
    have h1 : 2 ∣ b := by omega
    have h2 : 2 ∣ N := by omega
    have := Nat.dvd_gcd h1 h2
    rw [hcop] at this
    omega
  have hpar : ∀ h, (N ∣ b * h + k ∨ b * h ≡ k [MOD N]) → h % 2 = 0 := by
    intro h hh
    have h2 : 2 ∣ N := by omega
    have : (b * h) % 2 = 0 := by
      rcases hh with hh | hh
      · have := dvd_trans h2 hh
        omega
      · have := Nat.ModEq.of_dvd h2 hh
        unfold Nat.ModEq at this
        omega
    rw [Nat.mul_mod, hbo, one_mul, Nat.mod_mod] at this
    exact this
  obtain ⟨t1, t2, t3, t4⟩ := align_loop X b N (alignPhasor X b) N
  obtain ⟨u1, u2, u3, u4⟩ := align_loop (fun k => -X k) b N (alignPhasor (fun k => -X k) b) N
  obtain ⟨h, h1, h2, h3, _⟩ := C34_harmonic_bins X b bR N hb k (by omega) hkN (by rw [hcop]; exact one_dvd k)
  have hlt : k < N := by omega
  -- the first harmonic reaching k, from the loop itself
  have hex : ∃ h, 1 ≤ h ∧ h ≤ N ∧ (alignTarget b h N).1 = k := by
    rename_i hor
    refine ⟨h, h1, h2, ?_⟩
    rw [target_iff b h N k hN0 (by omega)]
    by_cases h2k : 2 * k < N
    · rcases hor with ⟨hm, _⟩ | ⟨hm, _⟩
      · left
        refine ⟨?_, h2k⟩
        unfold Nat.ModEq at hm
        rw [hm, Nat.mod_eq_of_lt hlt]
      · exact Or.inr ⟨hm, hkN⟩
    · right
      refine ⟨?_, hkN⟩
      rcases hor with ⟨hm, _⟩ | ⟨hm, _⟩
      · unfold Nat.ModEq at hm
        rw [Nat.dvd_iff_mod_eq_zero, Nat.add_mod, hm, ← Nat.add_mod, show k + k = N by omega, Nat.mod_self]
      · exact hm
  classical
  set g := Nat.find hex with hg
  obtain ⟨g1, g2, g3⟩ := Nat.find_spec hex
  rw [← hg] at g1 g2 g3
  have hmin : ∀ h', 1 ≤ h' → h' < g → (alignTarget b h' N).1 ≠ k := by
    intro h' ha hb' he
    exact Nat.find_min hex hb' ⟨ha, by omega, he⟩
  have hge : g % 2 = 0 := by
    apply hpar
    rcases (target_iff b g N k hN0 (by omega)).mp g3 with ⟨hm, h2k⟩ | ⟨hm, _⟩
    · right
      unfold Nat.ModEq
      rw [hm, Nat.mod_eq_of_lt hlt]
    · exact Or.inl hm
  rw [align_eq _ _ _ _ _ hb, align_eq _ _ _ _ _ hb, if_neg hk0, if_neg hk0, if_pos ((t2 k).mpr ⟨hlt, g, g1, g2, g3⟩),
    if_pos ((u2 k).mpr ⟨hlt, g, g1, g2, g3⟩), t4 k g g1 g2 g3 hlt hmin, u4 k g g1 g2 g3 hlt hmin, hph,
    Even.neg_pow (Nat.even_iff.mpr hge), neg_mul]

/-- An aligned run never exceeds its own spectrum. -/
private theorem coherentRun_norm_le (x : ℕ → ℝ) (N n : ℕ) (hN : 0 < N) (hcop : Nat.Coprime (runFundamental x N n) N)
    (Y : ℕ → ℂ) (h : coherentRun x N n = some Y) (k : ℕ) (hk : k ≤ N / 2) : ‖Y k‖ ≤ ‖dft N (fun n => (x n : ℂ)) k‖ := by
  unfold coherentRun at h
  simp only at h
  unfold runFundamental at hcop
  generalize locateFundamental ((List.range (N / 2 + 1)).map fun (k : ℕ) => ‖dft N (fun n => (x n : ℂ)) k‖ ^ 2) n = bf at *
  by_cases h1 : ∀ m < N, |x m| < 1 / 10 ^ 10
  · rw [if_pos h1] at h; cases h
  rw [if_neg h1] at h
  by_cases h2 : bf.1 = 0
  · rw [if_pos h2] at h; cases h
  rw [if_neg h2] at h
  injection h with h
  rw [← h]
  set X : ℕ → ℂ := fun k => dft N (fun n => (x n : ℂ)) k with hX
  have hρ : ‖alignPhasor X bf.1‖ ≤ 1 := by
    rw [alignPhasor_norm, div_le_one (by positivity)]
    have : (0 : ℝ) < 1 / 10 ^ 20 := by positivity
    linarith
  by_cases hk0 : k = 0
  · subst hk0
    rw [align_eq _ _ _ _ _ (by omega), if_pos rfl, norm_zero]
    exact norm_nonneg _
  · obtain ⟨g, _, _, _, h3⟩ := C34_harmonic_bins X bf.1 bf.2 N (by omega) k (by omega) (by omega) (by rw [hcop]; exact one_dvd k)
    have hg : ‖alignPhasor X bf.1 ^ g‖ ≤ 1 := by rw [norm_pow]; exact pow_le_one₀ (norm_nonneg _) hρ
    rcases h3 with ⟨_, h3⟩ | ⟨_, h3⟩
    · rw [h3, norm_mul]
      exact mul_le_of_le_one_right (norm_nonneg _) hg
    · rw [h3, norm_mul, RCLike.norm_conj]
      exact mul_le_of_le_one_right (norm_nonneg _) hg

private theorem coherentSum_norm_le (runs : List (ℕ → ℝ)) (N n k : ℕ) (B : ℝ) (hN : 0 < N) (hB0 : 0 ≤ B)
    (hB : ∀ x ∈ runs, ∀ Y, coherentRun x N n = some Y → ‖Y k‖ ≤ B) : ‖coherentSum runs N n k‖ ≤ B / N := by
  have hNR : (0 : ℝ) < N := by exact_mod_cast hN
  have hb : ∀ l : List (ℕ → ℂ), (∀ Y ∈ l, ‖Y k‖ ≤ B) → ‖(l.map fun X => X k).sum‖ ≤ l.length * B := by
    intro l
    induction l with
    | nil => simp
    | cons Y l ih =>
      intro hl
      simp only [List.map_cons, List.sum_cons, List.length_cons]
      have h1 := hl Y (by simp)
      have h2 := ih (fun Z hZ => hl Z (by simp [hZ]))
      have h3 := norm_add_le (Y k) ((l.map fun X => X k).sum)
      push_cast
      linarith
  unfold coherentSum
  simp only
  have hl := hb (runs.filterMap fun x => coherentRun x N n) (by
    intro Y hY
    obtain ⟨x, hx, h⟩ := List.mem_filterMap.mp hY
    exact hB x hx Y h)
  generalize runs.filterMap (fun x => coherentRun x N n) = l at *
  rw [norm_div]
  by_cases h0 : 0 < l.length
  · rw [if_pos h0, norm_mul, Complex.norm_natCast, Complex.norm_natCast]
    have hlR : (0 : ℝ) < l.length := by exact_mod_cast h0
    rw [div_le_div_iff₀ (by positivity) hNR]
    nlinarith
  · have : l = [] := by
      cases l with
      | nil => rfl
      | cons a l => exact absurd (by simp) h0
    subst this
    simp
    positivity

/-- **C34 (what is lost).** If two captures are the negative of each other (a coherent tone captured half a period later) and the
fundamental bin is coprime with an even record length, coherent averaging cancels every even bin: in particular the two
window-leakage bins next to the (odd) fundamental. -/
theorem C34_opposite_captures_cancel_even_bins (x : ℕ → ℝ) (N n : ℕ) (hN : N % 2 = 0) (hN0 : 0 < N)
    (hcop : Nat.Coprime (runFundamental x N n) N) (k : ℕ) (hk : k ≤ N / 2) (hke : k % 2 = 0) :
    (coherentAverage [x, fun m => -x m] N n).getD k 0 = 0 := by
  have hX : (fun k : ℕ => dft N (fun m => ((-x m : ℝ) : ℂ)) k) = fun k : ℕ => -dft N (fun m => (x m : ℂ)) k := by
    funext k
    unfold dft
    rw [← sum_neg_distrib]
    apply sum_congr rfl
    intro m _
    push_cast
    ring
  have hpw : ((List.range (N / 2 + 1)).map fun (k : ℕ) => ‖dft N (fun m => ((-x m : ℝ) : ℂ)) k‖ ^ 2)
      = (List.range (N / 2 + 1)).map fun (k : ℕ) => ‖dft N (fun m => (x m : ℂ)) k‖ ^ 2 := by
    apply List.map_congr_left
    intro k _
    rw [congrFun hX k, norm_neg]
  have hs : coherentSum [x, fun m => -x m] N n k = 0 := by
    unfold coherentSum
    simp only
    have hrun : (coherentRun x N n = none ∧ coherentRun (fun m => -x m) N n = none) ∨
        ∃ Y Y', coherentRun x N n = some Y ∧ coherentRun (fun m => -x m) N n = some Y' ∧ Y' k = - Y k := by
      unfold coherentRun
      simp only [hpw, abs_neg]
      unfold runFundamental at hcop
      generalize locateFundamental ((List.range (N / 2 + 1)).map fun (k : ℕ) => ‖dft N (fun n => (x n : ℂ)) k‖ ^ 2) n = bf at *
      by_cases h1 : ∀ m < N, |x m| < 1 / 10 ^ 10
      · rw [if_pos h1, if_pos h1]; exact Or.inl ⟨rfl, rfl⟩
      · rw [if_neg h1, if_neg h1]
        by_cases h2 : bf.1 = 0
        · rw [if_pos h2, if_pos h2]; exact Or.inl ⟨rfl, rfl⟩
        · rw [if_neg h2, if_neg h2]
          refine Or.inr ⟨_, _, rfl, rfl, ?_⟩
          rw [hX]
          exact align_neg_even _ _ _ N (by omega) hcop hN hN0 k (by omega) hke
    rcases hrun with ⟨h1, h2⟩ | ⟨Y, Y', h1, h2, h3⟩
    · have hf : [x, fun m => -x m].filterMap (fun x => coherentRun x N n) = [] := by simp [h1, h2]
      rw [hf]; simp
    · have hf : [x, fun m => -x m].filterMap (fun x => coherentRun x N n) = [Y, Y'] := by simp [h1, h2]
      rw [hf]; simp [h3]
  unfold coherentAverage
  rw [List.getD_eq_getElem?_getD, List.getElem?_map, List.getElem?_range (by omega)]
  simp only [Option.map_some, Option.getD_some]
  rw [hs]
  unfold oneSided
  simp

/-- **C34 (defect).** Two full-scale captures of the same coherent tone half a period apart, Hann window, coherent averaging:
`compute_spectrum` reports a signal power of at most `10·log10(2/3) ≈ -1.76` dBFS. The same captures power-averaged, or a
single capture, read 0 dBFS (`C26_coherent_tone`). The alignment treats the leakage bins as harmonics of their own. -/
theorem C34_window_leakage_lost (lib : WinLib) (a : SpectrumArgs) (hwin : a.win = "hann") (N b : ℕ) (A φ : ℝ) (hA : 0 < A)
    (hN : N % 2 = 0) (hcop : Nat.Coprime b N) (hb : 1 < b) (hbN : 2 * (b + 1) < N) (hs : a.scale = .scalar A)
    (hcoh : a.coherent = true) (hcut : a.cutoff = 0) (hass : a.assumed = none) (n : ℕ)
    (hn : rfftInbandBinCount (N : ℤ) a.osr = .ok n) (hbn : b < n) (r : SpectrumResult)
    (h : computeSpectrum lib [toneRow N b A φ 0, toneRow N b A (φ + Real.pi) 0] a = .ok r) :
    r.sigPwr ≤ 10 * Real.logb 10 (2 / 3) := by
  have hNR : (0 : ℝ) < N := by exact_mod_cast (by omega : 0 < N)
  have hprep : prepareFftInput [toneRow N b A φ 0, toneRow N b A (φ + Real.pi) 0] a.scale
      = .ok [toneRow N b 1 φ 0, toneRow N b 1 (φ + Real.pi) 0] := by
    unfold prepareFftInput
    rw [hs]
    have ho : orient [toneRow N b A φ 0, toneRow N b A (φ + Real.pi) 0] = [toneRow N b A φ 0, toneRow N b A (φ + Real.pi) 0] := by
      have : (toneRow N b A φ 0).length = N := by simp [toneRow]
      unfold orient
      simp only [List.length_cons, List.length_nil, List.headD_cons, this]
      rw [if_neg (by omega), if_neg (by omega)]
    simp only [ho, peakAmplitude, List.map_cons, List.map_nil]
    rw [if_pos hA.ne', if_pos hA.ne', prepare_toneRow N b A φ 0 A (by omega) (by omega) hA.ne',
      prepare_toneRow N b A _ 0 A (by omega) (by omega) hA.ne', div_self hA.ne']
  obtain ⟨d, n', hd, hn', _, hnl, hpl, hN0, _, hnn, hpow, hm⟩ := computeSpectrum_ok lib _ a r h
  have hdd : d = [toneRow N b 1 φ 0, toneRow N b 1 (φ + Real.pi) 0] := by rw [hprep] at hd; injection hd with h; exact h.symm
  subst hdd
  have hlen : (([toneRow N b 1 φ 0, toneRow N b 1 (φ + Real.pi) 0] : List (List ℝ)).headD []).length = N := by simp [toneRow]
  rw [hlen] at hn' hpow hm hpl
  have hnn' : n' = n := by rw [hn] at hn'; injection hn' with h; exact h.symm
  subst hnn'
  have hw : LobeWindow (windowVector lib a.win N) N 1 := by
    have := C26_default_side_bin_covers_lobe lib "hann" (by decide) (by decide) N (by omega) (by show 2 * 1 < N; omega)
    rw [hwin]; exact this
  have hwv : windowVector lib a.win N = fun n => generalCosine [1 / 2, 1 / 2] N n := by
    rw [hwin]; rfl
  set w := windowVector lib a.win N with hwdef
  set x : ℕ → ℝ := fun n => 1 * Real.cos (2 * Real.pi * (b * n / N) + φ) * w n with hx
  -- window spectrum
  have hW : ∀ k : ℤ, dft N (fun n => (w n : ℂ)) k = ∑ j ∈ range 2, ((([1 / 2, 1 / 2] : List ℝ).getD j 0 * (-1) ^ j / 2 : ℝ) : ℂ) *
      ((if (N : ℤ) ∣ k - j then (N : ℂ) else 0) + (if (N : ℤ) ∣ k + j then (N : ℂ) else 0)) := by
    intro k
    rw [hwv]
    exact dft_generalCosine _ N (by omega) k
  have hnd1 : ¬ (N : ℤ) ∣ 1 := by intro hd; have := Int.le_of_dvd one_pos hd; omega
  have hnd2 : ¬ (N : ℤ) ∣ 2 := by intro hd; have := Int.le_of_dvd two_pos hd; omega
  have hW0 : dft N (fun n => (w n : ℂ)) 0 = ((N / 2 : ℝ) : ℂ) := by
    rw [hW, sum_range_succ, sum_range_one]
    simp [hnd1]
    ring
  have hW1 : dft N (fun n => (w n : ℂ)) 1 = ((-(N / 4) : ℝ) : ℂ) := by
    rw [hW, sum_range_succ, sum_range_one]
    simp [hnd1, show ((1 : ℤ) + 1) = 2 from rfl, hnd2]
    ring
  have hWm1 : dft N (fun n => (w n : ℂ)) (-1) = ((-(N / 4) : ℝ) : ℂ) := by
    rw [hW, sum_range_succ, sum_range_one]
    simp [hnd1, show ((-1 : ℤ) - 1) = -2 from rfl, hnd2]
    ring
  have hw2 : ∑ n ∈ range N, w n ^ 2 = 3 / 8 * N := by
    have hl := lobe_sum N b 1 w hw hb hbN
    obtain ⟨c, rfl⟩ : ∃ c, b = c + 1 := ⟨b - 1, by omega⟩
    rw [show c + 1 - 1 = c by omega, show c + 1 + 1 + 1 = c + 3 by omega] at hl
    rw [show Ico c (c + 3) = {c, c + 1, c + 2} by ext i; simp only [mem_Ico, mem_insert, mem_singleton]; omega] at hl
    rw [sum_insert (by simp), sum_insert (by simp), sum_singleton] at hl
    rw [show (((c : ℕ) : ℤ) - ((c + 1 : ℕ) : ℤ)) = -1 by push_cast; ring,
      show (((c + 1 : ℕ) : ℤ) - ((c + 1 : ℕ) : ℤ)) = 0 by ring,
      show (((c + 2 : ℕ) : ℤ) - ((c + 1 : ℕ) : ℤ)) = 1 by push_cast; ring, hW0, hW1, hWm1] at hl
    rw [Complex.norm_real, Complex.norm_real, Real.norm_eq_abs, Real.norm_eq_abs, sq_abs, sq_abs] at hl
    have : (N : ℝ) * ∑ n ∈ range N, w n ^ 2 = N * (3 / 8 * N) := by rw [← hl]; ring
    exact mul_left_cancel₀ hNR.ne' this
  -- run spectrum
  have hbin : ∀ k, k ≤ N / 2 → ‖dft N (fun n => (x n : ℂ)) k‖ ^ 2 = 1 / 4 * ‖dft N (fun n => (w n : ℂ)) ((k : ℤ) - b)‖ ^ 2 := by
    intro k hk
    have := tone_bin N b 1 1 φ w hw hb hbN k hk
    simp only [hx]
    rw [this]
    ring
  have hXb : ‖dft N (fun n => (x n : ℂ)) b‖ = N / 4 := by
    have := hbin b (by omega)
    rw [sub_self, hW0, Complex.norm_real, Real.norm_eq_abs, sq_abs] at this
    have h2 : ‖dft N (fun n => (x n : ℂ)) b‖ ^ 2 = (N / 4) ^ 2 := by rw [this]; ring
    exact (sq_eq_sq₀ (norm_nonneg _) (by positivity)).mp h2
  have hfund : runFundamental x N n' = b := by
    unfold runFundamental
    have hpwl : ((List.range (N / 2 + 1)).map fun (k : ℕ) => ‖dft N (fun n => (x n : ℂ)) k‖ ^ 2).length = N / 2 + 1 := by simp
    have hg : ∀ k, k ≤ N / 2 → ((List.range (N / 2 + 1)).map fun (k : ℕ) => ‖dft N (fun n => (x n : ℂ)) k‖ ^ 2).getD k 0
        = ‖dft N (fun n => (x n : ℂ)) k‖ ^ 2 := by
      intro k hk
      rw [List.getD_eq_getElem?_getD, List.getElem?_map, List.getElem?_range (by omega)]
      rfl
    obtain ⟨f1, f2, f3, _⟩ := C27_fundamental_strongest ((List.range (N / 2 + 1)).map fun (k : ℕ) => ‖dft N (fun n => (x n : ℂ)) k‖ ^ 2) n'
      (by rw [hpwl]; omega) (by omega)
    show fundamentalBin _ n' = b
    set f := fundamentalBin ((List.range (N / 2 + 1)).map fun (k : ℕ) => ‖dft N (fun n => (x n : ℂ)) k‖ ^ 2) n'
    by_contra hne
    have h5 := f3 b (by omega) (by omega)
    rw [hg b (by omega), hg f (by omega), hbin b (by omega), hbin f (by omega), sub_self] at h5
    have hp := hw.peak ((f : ℤ) - b) (by
      rintro ⟨c, hc⟩
      have b1 : -(N : ℤ) < (f : ℤ) - b := by omega
      have b2 : (f : ℤ) - b < N := by omega
      have hN' : (0 : ℤ) < N := by omega
      rw [hc] at b1 b2
      have : -1 < c := by nlinarith
      have : c < 1 := by nlinarith
      have hc0 : c = 0 := by omega
      rw [hc0] at hc
      omega)
    have := pow_lt_pow_left₀ hp (norm_nonneg _) two_ne_zero
    linarith
  -- the coherent spectrum
  have hcorr : powerCorrection (windowGain w N) (windowEnbw w N) = 32 / 3 := by
    rw [powerCorrection_eq w N (by omega) hw.mean, hw2]
    field_simp
    norm_num
  have hp : r.power = (coherentAverage (runsOf [toneRow N b 1 φ 0, toneRow N b 1 (φ + Real.pi) 0] w) N n').map (· * (32 / 3)) := by
    rw [hpow]
    unfold applyCutoff rawSpectrum
    rw [if_neg (by rw [hcut]; exact lt_irrefl 0)]
    simp only [hcoh, if_true]
    rw [← hwdef, hcorr]
  have hrun_congr : ∀ y y' : ℕ → ℝ, (∀ m < N, y m = y' m) → coherentRun y N n' = coherentRun y' N n' := by
    intro y y' hy
    have hd : (fun k : ℕ => dft N (fun m => (y m : ℂ)) k) = fun k : ℕ => dft N (fun m => (y' m : ℂ)) k := by
      funext k
      exact dft_congr N _ _ k (fun m hm => by rw [hy m hm])
    have hpw : ((List.range (N / 2 + 1)).map fun (k : ℕ) => ‖dft N (fun m => (y m : ℂ)) k‖ ^ 2)
      = (List.range (N / 2 + 1)).map fun (k : ℕ) => ‖dft N (fun m => (y' m : ℂ)) k‖ ^ 2 := by
      apply List.map_congr_left
      intro k _
      rw [congrFun hd k]
    have hsm : (∀ m < N, |y m| < 1 / 10 ^ 10) ↔ ∀ m < N, |y' m| < 1 / 10 ^ 10 := by
      constructor <;> intro h m hm
      · rw [← hy m hm]; exact h m hm
      · rw [hy m hm]; exact h m hm
    unfold coherentRun
    simp only [hd, hpw, hsm]
  have hca : coherentAverage (runsOf [toneRow N b 1 φ 0, toneRow N b 1 (φ + Real.pi) 0] w) N n' = coherentAverage [x, fun m => -x m] N n' := by
    have e1 := hrun_congr (fun m => (toneRow N b 1 φ 0).getD m 0 * w m) x (fun m hm => by
      rw [toneRow_getD N b 1 φ 0 m hm, add_zero])
    have e2 := hrun_congr (fun m => (toneRow N b 1 (φ + Real.pi) 0).getD m 0 * w m) (fun m => -x m) (fun m hm => by
      rw [toneRow_getD N b 1 _ 0 m hm, add_zero, ← add_assoc, Real.cos_add_pi]
      simp only [hx]
      ring)
    have hfm : (runsOf [toneRow N b 1 φ 0, toneRow N b 1 (φ + Real.pi) 0] w).filterMap (fun x => coherentRun x N n')
        = [x, fun m => -x m].filterMap (fun x => coherentRun x N n') := by
      unfold runsOf
      simp only [List.map_cons, List.map_nil, List.filterMap_cons, List.filterMap_nil]
      rw [e1, e2]
    unfold coherentAverage coherentSum
    simp only [hfm]
  rw [hca] at hp
  have hpget : ∀ k, r.power.getD k 0 = (coherentAverage [x, fun m => -x m] N n').getD k 0 * (32 / 3) := by
    intro k
    rw [hp, List.getD_eq_getElem?_getD, List.getElem?_map, List.getD_eq_getElem?_getD]
    cases (coherentAverage [x, fun m => -x m] N n')[k]? <;> simp
  have hXn : ∀ k : ℕ, ‖dft N (fun m => ((-x m : ℝ) : ℂ)) k‖ = ‖dft N (fun m => (x m : ℂ)) k‖ := by
    intro k
    have : dft N (fun m => ((-x m : ℝ) : ℂ)) k = -dft N (fun m => (x m : ℂ)) k := by
      unfold dft
      rw [← sum_neg_distrib]
      apply sum_congr rfl
      intro m _
      push_cast
      ring
    rw [this, norm_neg]
  have hfund' : runFundamental (fun m => -x m) N n' = b := by
    rw [← hfund]
    unfold runFundamental
    simp only [hXn]
  have hle : ∀ k, k ≤ N / 2 → ‖coherentSum [x, fun m => -x m] N n' k‖ ≤ ‖dft N (fun n => (x n : ℂ)) k‖ / N := by
    intro k hk
    apply coherentSum_norm_le _ _ _ _ _ (by omega) (norm_nonneg _)
    intro y hy Y hY
    simp only [List.mem_cons, List.not_mem_nil, or_false] at hy
    rcases hy with rfl | rfl
    · exact coherentRun_norm_le _ N n' (by omega) (by rw [hfund]; exact hcop) Y hY k hk
    · rw [← hXn]
      exact coherentRun_norm_le _ N n' (by omega) (by rw [hfund']; exact hcop) Y hY k hk
  have hcaget : ∀ k, k ≤ N / 2 → (coherentAverage [x, fun m => -x m] N n').getD k 0
      = oneSided N k (‖coherentSum [x, fun m => -x m] N n' k‖ ^ 2) := by
    intro k hk
    unfold coherentAverage
    rw [List.getD_eq_getElem?_getD, List.getElem?_map, List.getElem?_range (by omega)]
    rfl
  have hbodd : b % 2 = 1 := by
    by_contra h
    have := Nat.dvd_gcd (show 2 ∣ b by omega) (show 2 ∣ N by omega)
    rw [hcop] at this
    omega
  have hzero : ∀ k, k ≠ b → r.power.getD k 0 = 0 := by
    intro k hkb
    rw [hpget]
    by_cases hk : k ≤ N / 2
    · by_cases hke : k % 2 = 0
      · rw [C34_opposite_captures_cancel_even_bins x N n' hN (by omega) (by rw [hfund]; exact hcop) k hk hke, zero_mul]
      · have h0 : ‖dft N (fun n => (x n : ℂ)) k‖ = 0 := by
          have := hbin k hk
          rw [window_outside N b 1 w hw hb hbN k (by omega) (by omega), norm_zero] at this
          have h2 : ‖dft N (fun n => (x n : ℂ)) k‖ ^ 2 = 0 := by rw [this]; ring
          exact pow_eq_zero_iff (two_ne_zero) |>.mp h2
        have := hle k hk
        rw [h0, zero_div] at this
        rw [hcaget k hk, le_antisymm this (norm_nonneg _)]
        unfold oneSided
        simp
    · rw [List.getD_eq_getElem?_getD, List.getElem?_eq_none (by rw [coherentAverage_length]; omega)]
      simp
  have hpb : r.power.getD b 0 ≤ 2 / 3 := by
    rw [hpget, hcaget b (by omega)]
    have h1 := hle b (by omega)
    rw [hXb] at h1
    have h2 : ‖coherentSum [x, fun m => -x m] N n' b‖ ≤ 1 / 4 := by
      refine le_trans h1 (le_of_eq ?_)
      field_simp
    have h3 : oneSided N b (‖coherentSum [x, fun m => -x m] N n' b‖ ^ 2) = ‖coherentSum [x, fun m => -x m] N n' b‖ ^ 2 := by
      unfold oneSided
      simp only
      rw [if_neg (by omega), if_neg (by omega)]
    rw [h3]
    have := norm_nonneg (coherentSum [x, fun m => -x m] N n' b)
    nlinarith
  have hpb0 : 0 ≤ r.power.getD b 0 := by
    rw [hpget, hcaget b (by omega)]
    exact mul_nonneg (oneSided_nonneg _ _ _ (sq_nonneg _)) (by norm_num)
  obtain ⟨bins, spur, noise, _, _, _, hr⟩ := spectrumMetrics_ok _ _ _ _ _ _ _ hm
  set sb := sideBinOf lib a N n' r.power
  have hsig : signalPower r.power n' sb (locateFundamental r.power n').1 ≤ 2 / 3 := by
    unfold signalPower
    rw [slice_sum]
    refine le_trans ?_ hpb
    rw [sum_congr rfl (g := fun k => if k = b then r.power.getD b 0 else 0) (by
      intro k _
      split_ifs with hk
      · rw [hk]
      · exact hzero k hk), sum_ite_eq']
    split_ifs
    · exact le_refl _
    · exact hpb0
  have e : r.sigPwr = sigPwrDbfs a (signalPower r.power n' sb (locateFundamental r.power n').1) := by
    conv_lhs => rw [hr]
    rfl
  rw [e]
  unfold sigPwrDbfs
  rw [hass]
  simp only
  have hmax : max (signalPower r.power n' sb (locateFundamental r.power n').1) (1 / 10 ^ 30) ≤ 2 / 3 :=
    max_le hsig (by norm_num)
  have hmp : (0 : ℝ) < max (signalPower r.power n' sb (locateFundamental r.power n').1) (1 / 10 ^ 30) :=
    lt_of_lt_of_le (by positivity) (le_max_right _ _)
  have := Real.logb_le_logb_of_le (b := 10) (by norm_num) hmp hmax
  linarith

/-! ### Concrete cases -/

example (X : ℕ → ℂ) : ∃ h, 1 ≤ h ∧ h ≤ 8 ∧ (∀ h', 1 ≤ h' → h' < h → ¬ 8 ∣ 3 * h' + 2 ∧ ¬ 3 * h' ≡ 2 [MOD 8]) ∧
    ((3 * h ≡ 2 [MOD 8] ∧ alignSpectrumPhase X 3 3 8 2 = X 2 * alignPhasor X 3 ^ h) ∨
     (8 ∣ 3 * h + 2 ∧ alignSpectrumPhase X 3 3 8 2 = X 2 * (starRingEnd ℂ) (alignPhasor X 3 ^ h))) :=
  C34_harmonic_bins X 3 3 8 (by norm_num) 2 (by norm_num) (by norm_num) (by decide)

/-- The hypotheses of `C34_window_leakage_lost` are met by 3 cycles in 16 samples. -/
example (lib : WinLib) (r : SpectrumResult)
    (h : computeSpectrum lib [toneRow 16 3 1 0 0, toneRow 16 3 1 (0 + Real.pi) 0]
      { scale := .scalar 1, win := "hann", coherent := true } = .ok r) : r.sigPwr ≤ 10 * Real.logb 10 (2 / 3) :=
  C34_window_leakage_lost lib { scale := .scalar 1, win := "hann", coherent := true } rfl 16 3 1 0 one_pos (by decide) (by decide)
    (by decide) (by decide) rfl rfl rfl rfl 9 (C25_osr_one 16 (by norm_num)) (by decide) r h

end Verif
