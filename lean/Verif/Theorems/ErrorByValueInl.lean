import Verif.Proofs.InPhase
import Verif.Proofs.Sinad
import Verif.Theorems.ErrorByValue
import Verif.Theorems.SineFitConverge

/-!
# C154: the value-binned mean error is the INL profile
-/

namespace Verif

open Model Finset

/-! ## Specification -/

/-- `α s + β` is the least-squares straight line through the points `(s t, y t)`. -/
def Spec.IsBestLine (N : ℕ) (s y : ℕ → ℝ) (α β : ℝ) : Prop :=
  ∀ α' β' : ℝ, ∑ t ∈ range N, (y t - (α * s t + β)) ^ 2 ≤ ∑ t ∈ range N, (y t - (α' * s t + β')) ^ 2

/-- Codes `z` of the input `s`, converted with an input-referred error of at most `ρ`; `T c` is the transition level between the codes `c` and `c + 1`. -/
structure Spec.Converted (N : ℕ) (z : ℕ → ℤ) (s : ℕ → ℝ) (T : ℤ → ℝ) (lo hi : ℤ) (ρ : ℝ) : Prop where
  range : ∀ t < N, lo ≤ z t ∧ z t ≤ hi
  lower : ∀ t < N, lo < z t → T (z t - 1) - ρ ≤ s t
  upper : ∀ t < N, z t < hi → s t ≤ T (z t) + ρ

/-- The range of the bins is the range of the codes: requested, or inferred from raw codes that reach both ends. -/
def Spec.CodeRange (N : ℕ) (z : ℕ → ℤ) (lo hi : ℤ) (given : Option (ℝ × ℝ)) : Prop :=
  given = some ((lo : ℝ), (hi : ℝ)) ∨ given = none ∧ (∃ t < N, 2 < |z t|) ∧ (∃ t < N, z t = lo) ∧ ∃ t < N, z t = hi

/-- How far the code `c` is from the line `α s + β` in the middle between its two transition levels. -/
noncomputable def Spec.lineDeviation (T : ℤ → ℝ) (α β : ℝ) (c : ℤ) : ℝ := c - (α * ((T (c - 1) + T c) / 2) + β)

/-! ## One bin per code -/

/-- **C154 (one bin per code).** With as many bins as codes every bin holds one code: the bin centres are the codes, and a sample is counted in the bin of its code. -/
theorem C154_code_bins (solve : Lstsq) (N : ℕ) (z : ℕ → ℤ) (freq : Option ℝ) (clipPercent : ℝ) (given : Option (ℝ × ℝ)) (maxIter : ℤ) (tol : ℝ) (r : ValueBins) (lo hi : ℤ)
    (hlt : lo < hi) (hz : ∀ t < N, lo ≤ z t ∧ z t ≤ hi) (hg : Spec.CodeRange N z lo hi given)
    (h : rearrangeByValue solve N (fun t => (z t : ℝ)) freq (hi - lo + 1) clipPercent given maxIter tol = .ok r) :
    (∀ b, r.centers b = lo + b) ∧ ∀ t < N, lo + (r.index t : ℤ) = z t := by
  obtain ⟨hnb, hnear⟩ := C49_nearest_bin solve N _ freq _ clipPercent given maxIter tol r h
  obtain ⟨g1, g2, _⟩ := C49_range solve N _ freq _ clipPercent given maxIter tol r h (by omega)
  have hcen : ∀ b, r.centers b = lo + b := by
    obtain ⟨l, u, fit, h1, _, _, hinf, _, _, _, _, rfl⟩ := value_ok solve N _ freq _ clipPercent given maxIter tol r h
    obtain ⟨k, hk⟩ : ∃ k : ℕ, hi - lo = k := ⟨(hi - lo).toNat, by omega⟩
    have hkR : (hi : ℝ) - lo = k := by exact_mod_cast hk
    have hk0 : (k : ℝ) ≠ 0 := by
      have : k ≠ 0 := by omega
      exact_mod_cast this
    have hnbv : (((hi - lo + 1).toNat : ℕ) : ℝ) = k + 1 := by
      have : (hi - lo + 1).toNat = k + 1 := by omega
      rw [this]; push_cast; ring
    have hends : l = lo ∧ u = hi := by
      have hN1 : (1 : ℕ) ≤ (hi - lo + 1).toNat := by omega
      have c0 : valueCenter (hi - lo + 1).toNat l u 0 = l := by simp [valueCenter]
      have c1 : valueCenter (hi - lo + 1).toNat l u ((hi - lo + 1).toNat - 1) = u := by
        unfold valueCenter
        rw [Nat.cast_sub hN1, hnbv, Nat.cast_one, add_sub_cancel_right]
        have : (k : ℝ) * ((u - l) / k) = u - l := by field_simp
        linarith
      rcases hg with rfl | ⟨rfl, ⟨t0, ht0, h2⟩, ⟨t1, ht1, e1⟩, t2, ht2, e2⟩
      · obtain ⟨e1, e2⟩ := g1 _ _ rfl
        simp only [c0, c1] at e1 e2
        exact ⟨e1, e2⟩
      · obtain ⟨k1, ⟨ta, hta, k2⟩, tb, htb, k3⟩ := g2 rfl ⟨t0, ht0, by exact_mod_cast h2⟩
        simp only [c0, c1] at k1 k2 k3
        constructor
        · apply le_antisymm
          · have := (k1 t1 ht1).1; rw [e1] at this; exact this
          · rw [← k2]; exact_mod_cast (hz ta hta).1
        · apply le_antisymm
          · rw [← k3]; exact_mod_cast (hz tb htb).2
          · have := (k1 t2 ht2).2; rw [e2] at this; exact this
    intro b
    show valueCenter _ l u b = _
    unfold valueCenter
    rw [hends.1, hends.2, hnbv, hkR, add_sub_cancel_right, div_self hk0, mul_one]
  refine ⟨hcen, fun t ht => ?_⟩
  obtain ⟨_, hn⟩ := hnear t
  obtain ⟨a1, a2⟩ := hz t ht
  have h1 := hn (z t - lo).toNat (by omega)
  have e : (((z t - lo).toNat : ℕ) : ℝ) = z t - lo := by
    have : (((z t - lo).toNat : ℕ) : ℤ) = z t - lo := by omega
    exact_mod_cast this
  rw [hcen, hcen, e, show (z t : ℝ) - (lo + (z t - lo)) = 0 by ring, abs_zero] at h1
  have h2 := abs_eq_zero.mp (le_antisymm h1 (abs_nonneg _))
  have h3 : (z t : ℝ) = lo + r.index t := by linarith
  have h4 : z t = lo + r.index t := by exact_mod_cast h3
  omega

/-! ## The profile -/

private theorem mean_near (S : Finset ℕ) (hS : S.Nonempty) (e : ℕ → ℝ) (v d : ℝ) (h : ∀ t ∈ S, |e t - v| ≤ d) : |(∑ t ∈ S, e t) / S.card - v| ≤ d := by
  have hc : (0 : ℝ) < S.card := by exact_mod_cast hS.card_pos
  have e1 : (∑ t ∈ S, e t) / S.card - v = (∑ t ∈ S, (e t - v)) / S.card := by
    rw [sum_sub_distrib, sum_const, nsmul_eq_mul]
    field_simp
  rw [e1, abs_div, abs_of_pos hc, div_le_iff₀ hc]
  refine (abs_sum_le_sum_abs _ _).trans ((sum_le_sum h).trans ?_)
  rw [sum_const, nsmul_eq_mul, mul_comm]

private theorem rms_near (S : Finset ℕ) (hS : S.Nonempty) (e : ℕ → ℝ) (v d : ℝ) (h : ∀ t ∈ S, |e t - v| ≤ d) : Real.sqrt ((∑ t ∈ S, e t ^ 2) / S.card) ≤ |v| + d := by
  have hc : (0 : ℝ) < S.card := by exact_mod_cast hS.card_pos
  obtain ⟨t0, ht0⟩ := hS
  have hd : 0 ≤ d := (abs_nonneg _).trans (h t0 ht0)
  apply Real.sqrt_le_iff.mpr
  refine ⟨by positivity, ?_⟩
  rw [div_le_iff₀ hc]
  have h1 : ∀ t ∈ S, e t ^ 2 ≤ (|v| + d) ^ 2 := by
    intro t ht
    have h2 : |e t| ≤ |v| + d := by
      have := abs_add_le (e t - v) v
      rw [sub_add_cancel] at this
      linarith [h t ht]
    rw [← sq_abs (e t)]
    exact pow_le_pow_left₀ (abs_nonneg _) h2 2
  refine (sum_le_sum h1).trans ?_
  rw [sum_const, nsmul_eq_mul, mul_comm]

/-- **C154 (profile).** One bin per code, and a fitted record within `δ` of a line `α s + β` of the input: the mean error of a code inside the range is its deviation from that line in
the middle between its transition levels, up to `α` times half the width of the code and the noise, and `δ`; the RMS error is at most the magnitude of the deviation plus that. -/
theorem C154_profile (solve : Lstsq) (N : ℕ) (z : ℕ → ℤ) (freq : Option ℝ) (clipPercent : ℝ) (given : Option (ℝ × ℝ)) (maxIter : ℤ) (tol : ℝ) (r : ValueBins) (lo hi : ℤ)
    (hlt : lo < hi) (hg : Spec.CodeRange N z lo hi given)
    (h : rearrangeByValue solve N (fun t => (z t : ℝ)) freq (hi - lo + 1) clipPercent given maxIter tol = .ok r)
    (s : ℕ → ℝ) (T : ℤ → ℝ) (ρ : ℝ) (hT : Spec.Converted N z s T lo hi ρ) (α β δ : ℝ) (hα : 0 ≤ α) (hfit : ∀ t < N, |r.fitted t - (α * s t + β)| ≤ δ)
    (c : ℤ) (h1 : lo < c) (h2 : c < hi) (hit : ∃ t < N, z t = c) (hk : KeptBin (hi - lo + 1).toNat clipPercent (c - lo).toNat) :
    ∃ m ms, r.mean (c - lo).toNat = some m ∧ r.rms (c - lo).toNat = some ms ∧
      |m - Spec.lineDeviation T α β c| ≤ α * ((T c - T (c - 1)) / 2 + ρ) + δ ∧ ms ≤ |Spec.lineDeviation T α β c| + (α * ((T c - T (c - 1)) / 2 + ρ) + δ) := by
  obtain ⟨_, hidx⟩ := C154_code_bins solve N z freq clipPercent given maxIter tol r lo hi hlt hT.range hg h
  obtain ⟨hnb, _⟩ := C49_nearest_bin solve N _ freq _ clipPercent given maxIter tol r h
  have hnb' : r.nBins = (hi - lo + 1).toNat := by omega
  obtain ⟨hmem, _⟩ := C49_bin_members solve N _ freq _ clipPercent given maxIter tol r h (c - lo).toNat
  obtain ⟨_, hm⟩ := hmem (by rw [hnb']; exact hk)
  obtain ⟨t0, ht0, hz0⟩ := hit
  have hne : ((range N).filter fun t => r.index t = (c - lo).toNat).Nonempty := by
    refine ⟨t0, ?_⟩
    rw [mem_filter, mem_range]
    have := hidx t0 ht0
    exact ⟨ht0, by omega⟩
  obtain ⟨e1, e2⟩ := hm hne
  have hdec : ∀ t, r.err t + r.fitted t = (z t : ℝ) := by
    obtain ⟨l, u, fit, _, _, _, _, _, _, _, _, rfl⟩ := value_ok solve N _ freq _ clipPercent given maxIter tol r h
    intro t
    simp
  have hclose : ∀ t ∈ (range N).filter fun t => r.index t = (c - lo).toNat, |r.err t - Spec.lineDeviation T α β c| ≤ α * ((T c - T (c - 1)) / 2 + ρ) + δ := by
    intro t ht
    rw [mem_filter, mem_range] at ht
    have hzt : z t = c := by
      have := hidx t ht.1
      omega
    have k1 := hT.lower t ht.1 (by omega)
    have k2 := hT.upper t ht.1 (by omega)
    rw [hzt] at k1 k2
    have k3 := hfit t ht.1
    have k4 := hdec t
    rw [hzt] at k4
    rw [abs_le] at k3 ⊢
    unfold Spec.lineDeviation
    have m1 := mul_le_mul_of_nonneg_left k1 hα
    have m2 := mul_le_mul_of_nonneg_left k2 hα
    constructor <;> nlinarith
  exact ⟨_, _, e1, e2, mean_near _ hne _ _ _ hclose, rms_near _ hne _ _ _ hclose⟩

/-! ## The fit of a monotone converter is in phase with its input -/

theorem coherent_sums_shift (N b : ℕ) (hb : 0 < b) (hbN : 2 * b < N) (φ : ℝ) :
    ∑ t ∈ range N, Real.cos (2 * Real.pi * ((b : ℝ) / N) * t + φ) = 0 ∧ ∑ t ∈ range N, Real.sin (2 * Real.pi * ((b : ℝ) / N) * t + φ) = 0 ∧
    ∑ t ∈ range N, Real.cos (2 * Real.pi * ((b : ℝ) / N) * t + φ) ^ 2 = N / 2 ∧ ∑ t ∈ range N, Real.sin (2 * Real.pi * ((b : ℝ) / N) * t + φ) ^ 2 = N / 2 ∧
    ∑ t ∈ range N, Real.sin (2 * Real.pi * ((b : ℝ) / N) * t + φ) * Real.cos (2 * Real.pi * ((b : ℝ) / N) * t + φ) = 0 := by
  have e : ∀ t : ℕ, 2 * Real.pi * ((b : ℝ) / N) * t = 2 * Real.pi * (b * t / N) := fun t => by ring
  have h1 := sum_binCos (N := N) (b := b) hb hbN φ
  have h2 := sum_binCos (N := N) (b := b) hb hbN (φ - Real.pi / 2)
  have h3 := sum_binCos2 (N := N) (b := b) hb hbN (2 * φ)
  have h4 := sum_binCos2 (N := N) (b := b) hb hbN (2 * φ - Real.pi / 2)
  have hc2 : ∑ t ∈ range N, Real.cos (2 * Real.pi * ((b : ℝ) / N) * t + φ) ^ 2 = N / 2 := by
    have : ∀ t ∈ range N, Real.cos (2 * Real.pi * ((b : ℝ) / N) * t + φ) ^ 2 = 1 / 2 + 1 / 2 * Real.cos (2 * (2 * Real.pi * (b * t / N)) + 2 * φ) := by
      intro t _
      rw [Real.cos_sq, e, mul_add]
      ring
    rw [sum_congr rfl this, sum_add_distrib, ← mul_sum, h3]
    simp
    ring
  refine ⟨by simpa only [e] using h1, ?_, hc2, ?_, ?_⟩
  · rw [← h2]
    refine sum_congr rfl fun t _ => ?_
    rw [e, ← add_sub_assoc, Real.cos_sub_pi_div_two]
  · rw [sum_congr rfl fun t _ => Real.sin_sq _, sum_sub_distrib, hc2]
    simp
    ring
  · have : ∀ t ∈ range N, Real.sin (2 * Real.pi * ((b : ℝ) / N) * t + φ) * Real.cos (2 * Real.pi * ((b : ℝ) / N) * t + φ)
        = 1 / 2 * Real.cos (2 * (2 * Real.pi * (b * t / N)) + (2 * φ - Real.pi / 2)) := by
      intro t _
      rw [← add_sub_assoc, Real.cos_sub_pi_div_two, e, ← mul_add, Real.sin_two_mul]
      ring
    rw [sum_congr rfl this, ← mul_sum, h4, mul_zero]

/-- What the fit at a coherent frequency without refinement returns, in terms of the phase of the input. -/
theorem coherent_fit_parts (solve : Lstsq) (hs : IsLstsq solve) (N b : ℕ) (hb : 0 < b) (hbN : 2 * b < N) (y : ℕ → ℝ) (φ tol : ℝ) (r : SineFit)
    (h : fitCore solve N y (some ((b : ℝ) / N)) 0 tol = .ok r) :
    ∃ c P Q : ℝ, (∀ t, r.fitted t = c + P * Real.cos (2 * Real.pi * ((b : ℝ) / N) * t + φ) + Q * Real.sin (2 * Real.pi * ((b : ℝ) / N) * t + φ)) ∧
      ∑ t ∈ range N, y t = N * c ∧ ∑ t ∈ range N, y t * Real.cos (2 * Real.pi * ((b : ℝ) / N) * t + φ) = N / 2 * P ∧
      ∑ t ∈ range N, y t * Real.sin (2 * Real.pi * ((b : ℝ) / N) * t + φ) = N / 2 * Q := by
  obtain ⟨_, r0, r1, r2⟩ := C58_least_squares solve hs N y _ tol r h
  rw [fit_some] at h
  injection h with h
  obtain ⟨a, b', c, hfit⟩ : ∃ a b' c : ℝ, ∀ t, r.fitted t = a * Real.cos (2 * Real.pi * ((b : ℝ) / N) * t) + b' * Real.sin (2 * Real.pi * ((b : ℝ) / N) * t) + c := by
    rw [← h]
    exact ⟨_, _, _, fun t => rfl⟩
  have hres : ∀ t, r.residuals t = y t - r.fitted t := by
    rw [← h]
    exact fun t => rfl
  have hrot : ∀ t, r.fitted t = c + (a * Real.cos φ - b' * Real.sin φ) * Real.cos (2 * Real.pi * ((b : ℝ) / N) * t + φ)
      + (a * Real.sin φ + b' * Real.cos φ) * Real.sin (2 * Real.pi * ((b : ℝ) / N) * t + φ) := by
    intro t
    rw [hfit, Real.cos_add, Real.sin_add]
    have := Real.sin_sq_add_cos_sq φ
    linear_combination -(a * Real.cos (2 * Real.pi * ((b : ℝ) / N) * t) + b' * Real.sin (2 * Real.pi * ((b : ℝ) / N) * t)) * this
  refine ⟨c, _, _, hrot, ?_, ?_, ?_⟩
  all_goals
    obtain ⟨s1, s2, s3, s4, s5⟩ := coherent_sums_shift N b hb hbN φ
  · have e : ∑ t ∈ range N, y t = ∑ t ∈ range N, (r.residuals t + r.fitted t) := sum_congr rfl fun t _ => by rw [hres]; ring
    rw [e, sum_add_distrib, r0, sum_congr rfl fun t _ => hrot t, sum_add_distrib, sum_add_distrib, ← mul_sum, ← mul_sum, s1, s2]
    simp
  · have e : ∀ t ∈ range N, y t * Real.cos (2 * Real.pi * ((b : ℝ) / N) * t + φ)
        = (Real.cos φ * (r.residuals t * Real.cos (2 * Real.pi * ((b : ℝ) / N) * t)) - Real.sin φ * (r.residuals t * Real.sin (2 * Real.pi * ((b : ℝ) / N) * t)))
          + (c * Real.cos (2 * Real.pi * ((b : ℝ) / N) * t + φ) + (a * Real.cos φ - b' * Real.sin φ) * Real.cos (2 * Real.pi * ((b : ℝ) / N) * t + φ) ^ 2
          + (a * Real.sin φ + b' * Real.cos φ) * (Real.sin (2 * Real.pi * ((b : ℝ) / N) * t + φ) * Real.cos (2 * Real.pi * ((b : ℝ) / N) * t + φ))) := by
      intro t _
      have e1 : y t = r.residuals t + r.fitted t := by rw [hres]; ring
      rw [e1, add_mul]
      congr 1
      · rw [Real.cos_add]; ring
      · rw [hrot]; ring
    rw [sum_congr rfl e, sum_add_distrib, sum_sub_distrib, ← mul_sum, ← mul_sum, r1, r2, sum_add_distrib, sum_add_distrib, ← mul_sum, ← mul_sum, ← mul_sum, s1, s3, s5]
    ring
  · have e : ∀ t ∈ range N, y t * Real.sin (2 * Real.pi * ((b : ℝ) / N) * t + φ)
        = (Real.sin φ * (r.residuals t * Real.cos (2 * Real.pi * ((b : ℝ) / N) * t)) + Real.cos φ * (r.residuals t * Real.sin (2 * Real.pi * ((b : ℝ) / N) * t)))
          + (c * Real.sin (2 * Real.pi * ((b : ℝ) / N) * t + φ) + (a * Real.cos φ - b' * Real.sin φ) * (Real.sin (2 * Real.pi * ((b : ℝ) / N) * t + φ) * Real.cos (2 * Real.pi * ((b : ℝ) / N) * t + φ))
          + (a * Real.sin φ + b' * Real.cos φ) * Real.sin (2 * Real.pi * ((b : ℝ) / N) * t + φ) ^ 2) := by
      intro t _
      have e1 : y t = r.residuals t + r.fitted t := by rw [hres]; ring
      rw [e1, add_mul]
      congr 1
      · rw [Real.sin_add]; ring
      · rw [hrot]; ring
    rw [sum_congr rfl e, sum_add_distrib, sum_add_distrib, ← mul_sum, ← mul_sum, r1, r2, sum_add_distrib, sum_add_distrib, ← mul_sum, ← mul_sum, ← mul_sum, s2, s4, s5]
    ring

/-- **C154 (in phase).** The output of any monotone converter driven by a coherent sine with `b` periods in `N` samples, `b` and `N` without common factor, fitted at that frequency: the
fitted sine is the least-squares straight line through output against input, with a slope that is not negative, up to `2 / N` of the output range. -/
theorem C154_in_phase (solve : Lstsq) (hs : IsLstsq solve) (N b : ℕ) (hb : 0 < b) (hbN : 2 * b < N) (hcop : Nat.Coprime b N) (A φ D lo hi tol : ℝ) (hA : 0 < A) (f : ℝ → ℝ)
    (hf : Monotone f) (hr : ∀ t < N, lo ≤ f (sineAt A ((b : ℝ) / N) φ D t) ∧ f (sineAt A ((b : ℝ) / N) φ D t) ≤ hi) :
    ∃ α β r, 0 ≤ α ∧ Spec.IsBestLine N (sineAt A ((b : ℝ) / N) φ D) (fun t => f (sineAt A ((b : ℝ) / N) φ D t)) α β ∧
      fitCore solve N (fun t => f (sineAt A ((b : ℝ) / N) φ D t)) (some ((b : ℝ) / N)) 0 tol = .ok r ∧
      ∀ t, |r.fitted t - (α * sineAt A ((b : ℝ) / N) φ D t + β)| ≤ 2 * (hi - lo) / N := by
  obtain ⟨y, hy⟩ : ∃ y : ℕ → ℝ, y = fun t => f (sineAt A ((b : ℝ) / N) φ D t) := ⟨_, rfl⟩
  have hNR : (0 : ℝ) < N := by exact_mod_cast (by omega : 0 < N)
  obtain ⟨r, hfit⟩ : ∃ r, fitCore solve N y (some ((b : ℝ) / N)) 0 tol = .ok r := ⟨_, fit_some solve N y _ 0 tol⟩
  obtain ⟨c, P, Q, e1, e2, e3, e4⟩ := coherent_fit_parts solve hs N b hb hbN y φ tol r hfit
  obtain ⟨s1, s2, s3, s4, s5⟩ := coherent_sums_shift N b hb hbN φ
  have hP : 0 ≤ P := by
    have h1 : ∑ t ∈ range N, y t * Real.cos (2 * Real.pi * ((b : ℝ) / N) * t + φ)
        = ∑ t ∈ range N, (y t - f D) * Real.cos (2 * Real.pi * ((b : ℝ) / N) * t + φ) := by
      rw [sum_congr rfl fun t _ => sub_mul (y t) (f D) _, sum_sub_distrib, ← mul_sum, s1]
      ring
    have h2 : 0 ≤ ∑ t ∈ range N, (y t - f D) * Real.cos (2 * Real.pi * ((b : ℝ) / N) * t + φ) := by
      refine sum_nonneg fun t _ => ?_
      rw [hy]
      unfold sineAt
      rcases le_total 0 (Real.cos (2 * Real.pi * ((b : ℝ) / N) * t + φ)) with h | h
      · exact mul_nonneg (sub_nonneg.mpr (hf (by nlinarith))) h
      · exact mul_nonneg_of_nonpos_of_nonpos (sub_nonpos.mpr (hf (by nlinarith))) h
    rw [← h1, e3] at h2
    exact nonneg_of_mul_nonneg_right h2 (by positivity)
  have hQ : |Q| ≤ 2 * (hi - lo) / N := by
    have h1 := quadrature_bound N b hb hbN hcop A φ D lo hi hA f hf hr s2
    have h2 : ∑ t ∈ range N, f (A * Real.cos (2 * Real.pi * ((b : ℝ) / N) * t + φ) + D) * Real.sin (2 * Real.pi * ((b : ℝ) / N) * t + φ) = N / 2 * Q := by
      rw [← e4, hy]; rfl
    rw [h2, abs_mul, abs_of_pos (by positivity : (0 : ℝ) < N / 2)] at h1
    rw [le_div_iff₀ hNR]
    linarith
  have hline : ∀ t, P / A * sineAt A ((b : ℝ) / N) φ D t + (c - D * (P / A)) = c + P * Real.cos (2 * Real.pi * ((b : ℝ) / N) * t + φ) := by
    intro t
    unfold sineAt
    field_simp
    ring
  rw [← hy]
  refine ⟨P / A, c - D * (P / A), r, by positivity, ?_, hfit, fun t => ?_⟩
  · intro α' β'
    have h1 : ∀ t ∈ range N, (y t - (α' * sineAt A ((b : ℝ) / N) φ D t + β')) ^ 2
        = (y t - (P / A * sineAt A ((b : ℝ) / N) φ D t + (c - D * (P / A)))) ^ 2
          + (2 * (c - D * α' - β') * (y t - (c + P * Real.cos (2 * Real.pi * ((b : ℝ) / N) * t + φ)))
            + 2 * (P - A * α') * ((y t - (c + P * Real.cos (2 * Real.pi * ((b : ℝ) / N) * t + φ))) * Real.cos (2 * Real.pi * ((b : ℝ) / N) * t + φ)))
          + ((P - A * α') * Real.cos (2 * Real.pi * ((b : ℝ) / N) * t + φ) + (c - D * α' - β')) ^ 2 := by
      intro t _
      rw [hline]
      unfold sineAt
      ring
    have h2 : ∑ t ∈ range N, (y t - (c + P * Real.cos (2 * Real.pi * ((b : ℝ) / N) * t + φ))) = 0 := by
      rw [sum_sub_distrib, e2, sum_add_distrib, ← mul_sum, s1]
      simp
    have h3 : ∑ t ∈ range N, (y t - (c + P * Real.cos (2 * Real.pi * ((b : ℝ) / N) * t + φ))) * Real.cos (2 * Real.pi * ((b : ℝ) / N) * t + φ) = 0 := by
      have : ∀ t ∈ range N, (y t - (c + P * Real.cos (2 * Real.pi * ((b : ℝ) / N) * t + φ))) * Real.cos (2 * Real.pi * ((b : ℝ) / N) * t + φ)
          = y t * Real.cos (2 * Real.pi * ((b : ℝ) / N) * t + φ) - (c * Real.cos (2 * Real.pi * ((b : ℝ) / N) * t + φ) + P * Real.cos (2 * Real.pi * ((b : ℝ) / N) * t + φ) ^ 2) := fun t _ => by ring
      rw [sum_congr rfl this, sum_sub_distrib, e3, sum_add_distrib, ← mul_sum, ← mul_sum, s1, s3]
      ring
    rw [sum_congr rfl h1, sum_add_distrib, sum_add_distrib, sum_add_distrib, ← mul_sum, ← mul_sum, h2, h3, mul_zero, mul_zero, add_zero, add_zero]
    exact le_add_of_nonneg_right (sum_nonneg fun t _ => sq_nonneg _)
  · rw [hline, e1, show c + P * Real.cos (2 * Real.pi * ((b : ℝ) / N) * t + φ) + Q * Real.sin (2 * Real.pi * ((b : ℝ) / N) * t + φ)
      - (c + P * Real.cos (2 * Real.pi * ((b : ℝ) / N) * t + φ)) = Q * Real.sin (2 * Real.pi * ((b : ℝ) / N) * t + φ) by ring, abs_mul]
    calc |Q| * |Real.sin (2 * Real.pi * ((b : ℝ) / N) * t + φ)| ≤ |Q| * 1 := mul_le_mul_of_nonneg_left (Real.abs_sin_le_one _) (abs_nonneg _)
      _ ≤ _ := by rw [mul_one]; exact hQ

/-- **C154 (INL).** A monotone converter with codes `lo … hi` and transition levels `T`, driven by a coherent sine that gives codes inside that range, analysed with one bin per code at the
known frequency without refinement: the mean error of every code that occurs is the deviation of the code from the best-fit line of the converter - its best-fit INL, in LSB - up to half the
width of the code and `2 (hi - lo) / N`. -/
theorem C154_inl (solve : Lstsq) (hs : IsLstsq solve) (N b : ℕ) (hb : 0 < b) (hbN : 2 * b < N) (hcop : Nat.Coprime b N) (A φ D clipPercent tol : ℝ) (hA : 0 < A) (q : ℝ → ℤ)
    (hq : Monotone q) (T : ℤ → ℝ) (lo hi : ℤ) (hlt : lo < hi) (hT : Spec.Converted N (fun t => q (sineAt A ((b : ℝ) / N) φ D t)) (sineAt A ((b : ℝ) / N) φ D) T lo hi 0)
    (given : Option (ℝ × ℝ)) (hg : Spec.CodeRange N (fun t => q (sineAt A ((b : ℝ) / N) φ D t)) lo hi given) (r : ValueBins)
    (h : rearrangeByValue solve N (fun t => (q (sineAt A ((b : ℝ) / N) φ D t) : ℝ)) (some ((b : ℝ) / N)) (hi - lo + 1) clipPercent given 0 tol = .ok r) :
    ∃ α β, 0 ≤ α ∧ Spec.IsBestLine N (sineAt A ((b : ℝ) / N) φ D) (fun t => (q (sineAt A ((b : ℝ) / N) φ D t) : ℝ)) α β ∧
      ∀ c, lo < c → c < hi → (∃ t < N, q (sineAt A ((b : ℝ) / N) φ D t) = c) → KeptBin (hi - lo + 1).toNat clipPercent (c - lo).toNat →
        ∃ m, r.mean (c - lo).toNat = some m ∧ |m - Spec.lineDeviation T α β c| ≤ α * ((T c - T (c - 1)) / 2) + 2 * (hi - lo) / N := by
  obtain ⟨α, β, fit, h1, h2, h3, h4⟩ := C154_in_phase solve hs N b hb hbN hcop A φ D lo hi tol hA (fun v => (q v : ℝ)) (fun u v huv => by
    show (q u : ℝ) ≤ q v
    exact_mod_cast hq huv) (fun t ht => ⟨by exact_mod_cast (hT.range t ht).1, by exact_mod_cast (hT.range t ht).2⟩)
  refine ⟨α, β, h1, h2, fun c k1 k2 hit hk => ?_⟩
  have hfit : ∀ t, r.fitted t = fit.fitted t := by
    obtain ⟨l, u, fit', _, _, _, _, _, hf', _, _, rfl⟩ := value_ok solve N _ _ _ clipPercent given 0 tol r h
    rw [h3] at hf'
    injection hf' with hf'
    intro t
    rw [hf']
  obtain ⟨m, _, e1, _, e2, _⟩ := C154_profile solve N (fun t => q (sineAt A ((b : ℝ) / N) φ D t)) _ clipPercent given 0 tol r lo hi hlt hg h _ T 0 hT α β _ h1
    (fun t _ => by rw [hfit]; exact h4 t) c k1 k2 hit hk
  exact ⟨m, e1, by simpa using e2⟩

/-- **C154 (with refinement).** With the default refinement of the frequency, for every sine and line there are `ε` and `S`, the same for all converters: if all codes are within `ν ≤ ε` of
the line and the given frequency is exact, the mean error of every code that occurs is its deviation from that line up to half its width, the input-referred noise `ρ`, and `S ν`. -/
theorem C154_refined (solve : Lstsq) (hs : IsLstsq solve) (N : ℕ) (hN : 5 ≤ N) (A f φ D α β : ℝ) (hA : 0 < A) (hα : 0 < α) (h0 : 1 / 10 ^ 10 ≤ f) (h1 : f ≤ 1 / 2 - 1 / 10 ^ 10) :
    ∃ ε S : ℝ, 0 < ε ∧ 0 < S ∧ ∀ (z : ℕ → ℤ) (T : ℤ → ℝ) (lo hi : ℤ) (ρ ν clipPercent tol : ℝ) (maxIter : ℕ) (given : Option (ℝ × ℝ)) (r : ValueBins), lo < hi →
      Spec.Converted N z (sineAt A f φ D) T lo hi ρ → Spec.CodeRange N z lo hi given → (∀ t < N, |(z t : ℝ) - (α * sineAt A f φ D t + β)| ≤ ν) → ν ≤ ε →
      rearrangeByValue solve N (fun t => (z t : ℝ)) (some f) (hi - lo + 1) clipPercent given maxIter tol = .ok r →
      ∀ c, lo < c → c < hi → (∃ t < N, z t = c) → KeptBin (hi - lo + 1).toNat clipPercent (c - lo).toNat →
        ∃ m, r.mean (c - lo).toNat = some m ∧ |m - Spec.lineDeviation T α β c| ≤ α * ((T c - T (c - 1)) / 2 + ρ) + S * ν := by
  obtain ⟨ε, B, S, hε, _, hS, hmain⟩ := C100_convergence solve hs N hN (α * A) f φ (α * D + β) (by positivity) h0 h1
  refine ⟨ε, S, hε, hS, fun z T lo hi ρ ν clipPercent tol maxIter given r hlt hT hg hz hν h c k1 k2 hit hk => ?_⟩
  obtain ⟨fit, e1, e2, _⟩ := hmain (fun t => (z t : ℝ)) ν f maxIter tol (fun t ht => by
    have := hz t ht
    unfold sineAt at this
    rw [show α * A * Real.cos (2 * Real.pi * f * t + φ) + (α * D + β) = α * (A * Real.cos (2 * Real.pi * f * t + φ) + D) + β by ring]
    exact this) hν (by simpa using hε.le)
  have hfit : ∀ t, r.fitted t = fit.fitted t := by
    obtain ⟨l, u, fit', _, _, _, _, _, hf', _, _, rfl⟩ := value_ok solve N _ _ _ clipPercent given maxIter tol r h
    rw [e1] at hf'
    injection hf' with hf'
    intro t
    rw [hf']
  obtain ⟨m, _, m1, _, m2, _⟩ := C154_profile solve N z _ clipPercent given maxIter tol r lo hi hlt hg h _ T ρ hT α β (S * ν) hα.le
    (fun t ht => by
      have := e2.6 t ht
      rw [sub_self, abs_zero, mul_zero, zero_div, zero_add] at this
      rw [hfit]
      unfold sineAt
      rw [show α * (A * Real.cos (2 * Real.pi * f * t + φ) + D) + β = α * A * Real.cos (2 * Real.pi * f * t + φ) + (α * D + β) by ring]
      exact this) c k1 k2 hit hk
  exact ⟨m, m1, m2⟩

/-! ## A concrete case -/

/-- The codes of an ideal converter, eight samples of one period of `3 cos`. -/
private theorem demo_converted : Spec.Converted 8 (fun t => ⌊sineAt 3 (((1 : ℕ) : ℝ) / (8 : ℕ)) 0 0 t⌋) (sineAt 3 (((1 : ℕ) : ℝ) / (8 : ℕ)) 0 0) (fun c => (c : ℝ) + 1) (-3) 3 0 := by
  refine ⟨fun t _ => ⟨?_, ?_⟩, fun t _ _ => ?_, fun t _ _ => ?_⟩
  · rw [Int.le_floor]
    unfold sineAt
    push_cast
    linarith [Real.neg_one_le_cos (2 * Real.pi * (1 / 8) * t + 0)]
  · rw [← Int.lt_add_one_iff, Int.floor_lt]
    unfold sineAt
    push_cast
    linarith [Real.cos_le_one (2 * Real.pi * (1 / 8) * t + 0)]
  · push_cast
    linarith [Int.floor_le (sineAt 3 (((1 : ℕ) : ℝ) / (8 : ℕ)) 0 0 t)]
  · linarith [Int.lt_floor_add_one (sineAt 3 (((1 : ℕ) : ℝ) / (8 : ℕ)) 0 0 t)]

/-- Its mean error at code 0, which occurs at the third sample. -/
example : ∃ (solve : Lstsq) (r : ValueBins) (α β m : ℝ), 0 ≤ α ∧
    rearrangeByValue solve 8 (fun t => (⌊sineAt 3 (((1 : ℕ) : ℝ) / (8 : ℕ)) 0 0 t⌋ : ℝ)) (some (((1 : ℕ) : ℝ) / (8 : ℕ))) 7 0 (some (-3, 3)) 0 0 = .ok r ∧ r.mean 3 = some m ∧
    |m - (0 - (α * (1 / 2) + β))| ≤ α * (1 / 2) + 3 / 2 := by
  obtain ⟨solve, hs⟩ := exists_lstsq
  obtain ⟨r, hr⟩ := (C49_errors solve 8 (fun t => (⌊sineAt 3 (((1 : ℕ) : ℝ) / (8 : ℕ)) 0 0 t⌋ : ℝ)) (some (((1 : ℕ) : ℝ) / (8 : ℕ))) 7 0 (some (-3, 3)) 0 0).2.2 (by norm_num) (by norm_num) rfl
    ⟨-3, 3, rfl, by norm_num⟩
  obtain ⟨α, β, h1, _, h2⟩ := C154_inl solve hs 8 1 (by norm_num) (by norm_num) (by norm_num) 3 0 0 0 0 (by norm_num) (fun v => ⌊v⌋) Int.floor_mono _ (-3) 3 (by norm_num) demo_converted
    (some (-3, 3)) (Or.inl (by push_cast; rfl)) r hr
  obtain ⟨m, e1, e2⟩ := h2 0 (by norm_num) (by norm_num) ⟨2, by norm_num, by
    have : sineAt 3 (((1 : ℕ) : ℝ) / (8 : ℕ)) 0 0 2 = 0 := by
      unfold sineAt
      rw [show 2 * Real.pi * (((1 : ℕ) : ℝ) / (8 : ℕ)) * ((2 : ℕ) : ℝ) + 0 = Real.pi / 2 by push_cast; ring, Real.cos_pi_div_two]
      norm_num
    simp only [this]
    simp⟩ (Or.inl rfl)
  refine ⟨solve, r, α, β, m, h1, hr, e1, ?_⟩
  unfold Spec.lineDeviation at e2
  norm_num at e2 ⊢
  exact e2

end Verif
