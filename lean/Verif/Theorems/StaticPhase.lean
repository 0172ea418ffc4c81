import Verif.Proofs.InPhase
import Verif.Theorems.HarmonicSplit
import Verif.Theorems.HarmonicNoise

/-!
# C155: harmonics of a static converter lie on the real axis of the polar plot
-/

namespace Verif

open Model Finset Spec

/-! ## Specification -/

/-- A static characteristic of total variation at most `V` on `[D - A, D + A]`: difference of two monotone functions that rise by at most `V` in total. -/
def Spec.Variation (f : ℝ → ℝ) (A D V : ℝ) : Prop :=
  ∃ u d : ℝ → ℝ, Monotone u ∧ Monotone d ∧ (∀ v, f v = u v - d v) ∧ (u (A + D) - u (-A + D)) + (d (A + D) - d (-A + D)) ≤ V

/-! ## Auxiliary sums -/

private theorem sum_pair {n b H : ℕ} (h : HarmonicsApart n b H) (j k : ℕ) (hj : j < H) (hk : k < H) (a c : ℝ) :
    ∑ t ∈ range n, Real.cos (((j : ℝ) + 1) * (2 * Real.pi * ((b : ℝ) / n) * t) - a) * Real.cos (((k : ℝ) + 1) * (2 * Real.pi * ((b : ℝ) / n) * t) - c)
      = if j = k then n / 2 * Real.cos (a - c) else 0 := by
  have hz : ∀ (m : ℤ) (e : ℝ), m ≠ 0 → |m| ≤ 2 * H → ∑ t ∈ range n, Real.cos ((m : ℝ) * (2 * Real.pi * ((b : ℝ) / n) * t) + e) = 0 := by
    intro m e h0 h1
    have hd : ¬ (n : ℤ) ∣ m * b := by
      intro hd
      refine h.apart m.natAbs (by omega) (by have := Int.natCast_natAbs m; omega) ?_
      have := Int.natAbs_dvd_natAbs.mpr hd
      rwa [Int.natAbs_natCast, Int.natAbs_mul, Int.natAbs_natCast] at this
    have := sum_cos_zero n h.pos.ne' (m * b) hd e
    rw [← this]
    refine sum_congr rfl fun t _ => ?_
    congr 2
    push_cast
    ring
  have e : ∀ t ∈ range n, Real.cos (((j : ℝ) + 1) * (2 * Real.pi * ((b : ℝ) / n) * t) - a) * Real.cos (((k : ℝ) + 1) * (2 * Real.pi * ((b : ℝ) / n) * t) - c)
      = 1 / 2 * Real.cos ((((j : ℤ) - k : ℤ) : ℝ) * (2 * Real.pi * ((b : ℝ) / n) * t) + (c - a)) + 1 / 2 * Real.cos ((((j : ℤ) + k + 2 : ℤ) : ℝ) * (2 * Real.pi * ((b : ℝ) / n) * t) + (-a - c)) := by
    intro t _
    push_cast
    rw [show ((j : ℝ) - k) * (2 * Real.pi * ((b : ℝ) / n) * t) + (c - a) = (((j : ℝ) + 1) * (2 * Real.pi * ((b : ℝ) / n) * t) - a) - (((k : ℝ) + 1) * (2 * Real.pi * ((b : ℝ) / n) * t) - c) by ring,
      show ((j : ℝ) + k + 2) * (2 * Real.pi * ((b : ℝ) / n) * t) + (-a - c) = (((j : ℝ) + 1) * (2 * Real.pi * ((b : ℝ) / n) * t) - a) + (((k : ℝ) + 1) * (2 * Real.pi * ((b : ℝ) / n) * t) - c) by ring,
      Real.cos_sub (((j : ℝ) + 1) * (2 * Real.pi * ((b : ℝ) / n) * t) - a), Real.cos_add (((j : ℝ) + 1) * (2 * Real.pi * ((b : ℝ) / n) * t) - a)]
    ring
  rw [sum_congr rfl e, sum_add_distrib, ← mul_sum, ← mul_sum, hz ((j : ℤ) + k + 2) _ (by omega) (by rw [abs_of_nonneg (by omega)]; omega), mul_zero, add_zero]
  split_ifs with hjk
  · subst hjk
    rw [sum_congr rfl fun (t : ℕ) _ => by rw [sub_self, Int.cast_zero, zero_mul, zero_add], sum_const, card_range, nsmul_eq_mul, ← Real.cos_neg (c - a), neg_sub]
    ring
  · rw [hz _ _ (by omega) (by rw [abs_le]; omega), mul_zero]

private theorem sum_one {n b H : ℕ} (h : HarmonicsApart n b H) (k : ℕ) (hk : k < H) (c : ℝ) :
    ∑ t ∈ range n, Real.cos (((k : ℝ) + 1) * (2 * Real.pi * ((b : ℝ) / n) * t) - c) = 0 := by
  have hd : ¬ (n : ℤ) ∣ ((k : ℤ) + 1) * b := by
    intro hd
    refine h.apart (k + 1) (by omega) (by omega) ?_
    exact_mod_cast hd
  have := sum_cos_zero n h.pos.ne' (((k : ℤ) + 1) * b) hd (-c)
  rw [← this]
  refine sum_congr rfl fun t _ => ?_
  congr 1
  push_cast
  ring

private theorem abs_sin_mul_le (K : ℕ) (χ : ℝ) : |Real.sin (K * χ)| ≤ K * |Real.sin χ| := by
  induction K with
  | zero => simp
  | succ K ih =>
    push_cast
    rw [add_mul, one_mul, Real.sin_add]
    refine (abs_add_le _ _).trans ?_
    rw [abs_mul, abs_mul]
    have h1 := Real.abs_cos_le_one χ
    have h2 := Real.abs_cos_le_one (K * χ)
    have h3 := abs_nonneg (Real.sin (K * χ))
    have h4 := abs_nonneg (Real.sin χ)
    nlinarith

/-- **C155 (projection).** Magnitude and phase reported for harmonic `k + 1` are those of the record's component at that frequency: the correlation of the record with the harmonic at
any angle is the magnitude times the cosine of the angle between them. -/
theorem C155_projection (solve : Lstsq) (hs : IsLstsq solve) (runs n b : ℕ) (hn : n ≠ 1) (x : ℕ → ℕ → ℝ) (H : ℕ) (freq : Option ℝ) (maxIter : ℤ) (tol : ℝ) (r : HarmonicSplit)
    (h : decomposeHarmonic solve runs n x H freq maxIter tol = .ok r) (hf : r.fundamentalFreq = (b : ℝ) / n) (ha : HarmonicsApart n b H) :
    ∃ ψ : ℝ, ∀ k < H, ∀ ζ : ℝ, ∑ t ∈ range n, averageRecord runs x t * Real.cos (((k : ℝ) + 1) * (2 * Real.pi * ((b : ℝ) / n) * t) - ζ)
      = n / 4 * (r.magnitudes k * Real.cos (((k : ℝ) + 1) * ψ + r.phases k - ζ)) := by
  obtain ⟨s1, _, s3, s4, _, _⟩ := C51_split solve hs runs n hn x H freq maxIter tol r h
  obtain ⟨D, ψ, c1, c2, c3, c4⟩ := C51_reconstruction solve runs n hn x H freq maxIter tol r h
  rw [Int.toNat_natCast] at c2
  refine ⟨ψ, fun k hk ζ => ?_⟩
  have hrec : ∀ t : ℕ, averageRecord runs x t = r.noiseResidual t + (D + ∑ j ∈ range H, r.magnitudes j / 2 * Real.cos (((j : ℝ) + 1) * (2 * Real.pi * ((b : ℝ) / n) * t) - (((j : ℝ) + 1) * ψ + r.phases j))) := by
    intro t
    rw [← s1 t, c1, c2, hf, range_eq_Ico, ← sum_Ico_consecutive _ (Nat.zero_le 1) (by omega : 1 ≤ H)]
    have e0 : ∑ j ∈ Ico 0 1, r.magnitudes j / 2 * Real.cos (((j : ℝ) + 1) * (2 * Real.pi * ((b : ℝ) / n) * t) - (((j : ℝ) + 1) * ψ + r.phases j))
        = r.magnitudes 0 / 2 * Real.cos (2 * Real.pi * ((b : ℝ) / n) * t - ψ) := by
      simp [c4]
    have e1 : ∑ j ∈ Ico 1 H, r.magnitudes j / 2 * Real.cos (((j : ℝ) + 1) * (2 * Real.pi * ((b : ℝ) / n) * t) - (((j : ℝ) + 1) * ψ + r.phases j))
        = ∑ j ∈ Ico 1 H, r.magnitudes j / 2 * Real.cos (((j : ℝ) + 1) * (2 * Real.pi * ((b : ℝ) / n) * t - ψ) - r.phases j) := by
      refine sum_congr rfl fun j _ => ?_
      congr 2
      ring
    rw [e0, e1]
    ring
  obtain ⟨q1, q2⟩ := s4 k (by exact_mod_cast hk)
  rw [hf] at q1 q2
  have e : ∀ t ∈ range n, averageRecord runs x t * Real.cos (((k : ℝ) + 1) * (2 * Real.pi * ((b : ℝ) / n) * t) - ζ)
      = (Real.cos ζ * (r.noiseResidual t * Real.cos (((k : ℝ) + 1) * (2 * Real.pi * ((b : ℝ) / n) * t))) + Real.sin ζ * (r.noiseResidual t * Real.sin (((k : ℝ) + 1) * (2 * Real.pi * ((b : ℝ) / n) * t))))
        + (D * Real.cos (((k : ℝ) + 1) * (2 * Real.pi * ((b : ℝ) / n) * t) - ζ)
        + ∑ j ∈ range H, r.magnitudes j / 2 * (Real.cos (((j : ℝ) + 1) * (2 * Real.pi * ((b : ℝ) / n) * t) - (((j : ℝ) + 1) * ψ + r.phases j)) * Real.cos (((k : ℝ) + 1) * (2 * Real.pi * ((b : ℝ) / n) * t) - ζ))) := by
    intro t _
    obtain ⟨w, hw⟩ : ∃ w, w = ((k : ℝ) + 1) * (2 * Real.pi * ((b : ℝ) / n) * t) := ⟨_, rfl⟩
    rw [hrec, ← hw, add_mul, add_mul D, sum_mul]
    congr 1
    · rw [Real.cos_sub]; ring
    · congr 1
      exact sum_congr rfl fun j _ => by ring
  rw [sum_congr rfl e, sum_add_distrib, sum_add_distrib, sum_add_distrib, ← mul_sum, ← mul_sum, ← mul_sum, q1, q2, sum_one ha k hk, sum_comm]
  have e2 : ∀ j ∈ range H, ∑ t ∈ range n, r.magnitudes j / 2 * (Real.cos (((j : ℝ) + 1) * (2 * Real.pi * ((b : ℝ) / n) * t) - (((j : ℝ) + 1) * ψ + r.phases j)) * Real.cos (((k : ℝ) + 1) * (2 * Real.pi * ((b : ℝ) / n) * t) - ζ))
      = if j = k then n / 4 * (r.magnitudes k * Real.cos (((k : ℝ) + 1) * ψ + r.phases k - ζ)) else 0 := by
    intro j hj
    rw [← mul_sum, sum_pair ha j k (mem_range.mp hj) hk]
    split_ifs with hjk
    · subst hjk; ring
    · ring
  rw [sum_congr rfl e2, sum_ite_eq' (range H) k, if_pos (mem_range.mpr hk)]
  ring

/-! ## Static converters -/

private theorem quad_static (N b K : ℕ) (hK : 1 ≤ K) (hKN : 2 * K < N) (hcop : Nat.Coprime b N) (A φ D V : ℝ) (hA : 0 < A) (f : ℝ → ℝ) (hV : Variation f A D V) :
    |∑ t ∈ range N, f (sineAt A ((b : ℝ) / N) φ D t) * Real.sin (K * (2 * Real.pi * ((b : ℝ) / N) * t + φ))| ≤ V := by
  obtain ⟨u, d, hu, hd, hfe, hVe⟩ := hV
  have hs : ∑ t ∈ range N, Real.sin (K * (2 * Real.pi * ((b : ℝ) / N) * t + φ)) = 0 := by
    have hdv : ¬ (N : ℤ) ∣ (K : ℤ) * b := by
      intro hd'
      have h1 : N ∣ K * b := by exact_mod_cast hd'
      have h2 := hcop.symm.dvd_of_dvd_mul_right h1
      have := Nat.le_of_dvd (by omega) h2
      omega
    have := sum_cos_zero N (by omega) ((K : ℤ) * b) hdv (K * φ - Real.pi / 2)
    rw [← this]
    refine sum_congr rfl fun t _ => ?_
    rw [← add_sub_assoc, Real.cos_sub_pi_div_two]
    congr 1
    push_cast
    ring
  have hr : ∀ g : ℝ → ℝ, Monotone g → ∀ t < N, g (-A + D) ≤ g (A * Real.cos (2 * Real.pi * ((b : ℝ) / N) * t + φ) + D) ∧ g (A * Real.cos (2 * Real.pi * ((b : ℝ) / N) * t + φ) + D) ≤ g (A + D) := by
    intro g hg t _
    have h1 := Real.neg_one_le_cos (2 * Real.pi * ((b : ℝ) / N) * t + φ)
    have h2 := Real.cos_le_one (2 * Real.pi * ((b : ℝ) / N) * t + φ)
    exact ⟨hg (by nlinarith), hg (by nlinarith)⟩
  have h1 := quadrature_bound_harmonic N b K hK hKN.le hcop A φ D _ _ hA u hu (hr u hu) hs
  have h2 := quadrature_bound_harmonic N b K hK hKN.le hcop A φ D _ _ hA d hd (hr d hd) hs
  have e : ∑ t ∈ range N, f (sineAt A ((b : ℝ) / N) φ D t) * Real.sin (K * (2 * Real.pi * ((b : ℝ) / N) * t + φ))
      = ∑ t ∈ range N, u (A * Real.cos (2 * Real.pi * ((b : ℝ) / N) * t + φ) + D) * Real.sin (K * (2 * Real.pi * ((b : ℝ) / N) * t + φ))
        - ∑ t ∈ range N, d (A * Real.cos (2 * Real.pi * ((b : ℝ) / N) * t + φ) + D) * Real.sin (K * (2 * Real.pi * ((b : ℝ) / N) * t + φ)) := by
    rw [← sum_sub_distrib]
    refine sum_congr rfl fun t _ => ?_
    rw [hfe]
    unfold sineAt
    ring
  rw [e]
  exact (abs_sub _ _).trans (by linarith)

/-- **C155 (static).** The average of the runs is a static characteristic `f` of total variation `V`, driven by a coherent sine, periods and samples without common factor, analysed at the
frequency of the sine: the part of every harmonic that is off the real axis of the polar plot is at most `4 V / N` times `1 + (k + 1)` magnitude over fundamental magnitude. -/
theorem C155_static (solve : Lstsq) (hs : IsLstsq solve) (runs N b : ℕ) (hcop : Nat.Coprime b N) (x : ℕ → ℕ → ℝ) (H : ℕ) (hH : 2 * H < N) (freq : Option ℝ) (maxIter : ℤ) (tol : ℝ)
    (r : HarmonicSplit) (h : decomposeHarmonic solve runs N x H freq maxIter tol = .ok r) (hf : r.fundamentalFreq = (b : ℝ) / N) (A φ D V : ℝ) (hA : 0 < A) (f : ℝ → ℝ)
    (hV : Variation f A D V) (hx : ∀ t < N, averageRecord runs x t = f (sineAt A ((b : ℝ) / N) φ D t)) (k : ℕ) (hk : k < H) :
    r.magnitudes 0 * |r.magnitudes k * Real.sin (r.phases k)| ≤ 4 * V / N * (r.magnitudes 0 + ((k : ℝ) + 1) * r.magnitudes k) := by
  have hNR : (0 : ℝ) < N := by exact_mod_cast (by omega : 0 < N)
  have ha : HarmonicsApart N b H := ⟨by omega, fun m h0 h1 hd => by
    have h2 := hcop.symm.dvd_of_dvd_mul_right hd
    have := Nat.le_of_dvd h0 h2
    omega⟩
  obtain ⟨ψ, hp⟩ := C155_projection solve hs runs N b (by omega) x H freq maxIter tol r h hf ha
  obtain ⟨_, _, _, _, hm, hp0⟩ := C51_reconstruction solve runs N (by omega) x H freq maxIter tol r h
  have hq : ∀ j < H, r.magnitudes j * |Real.sin (((j : ℝ) + 1) * (φ + ψ) + r.phases j)| ≤ 4 * V / N := by
    intro j hj
    have h1 := quad_static N b (j + 1) (by omega) (by omega) hcop A φ D V hA f hV
    have h2 := hp j hj (Real.pi / 2 - ((j : ℝ) + 1) * φ)
    have e1 : ∑ t ∈ range N, averageRecord runs x t * Real.cos (((j : ℝ) + 1) * (2 * Real.pi * ((b : ℝ) / N) * t) - (Real.pi / 2 - ((j : ℝ) + 1) * φ))
        = ∑ t ∈ range N, f (sineAt A ((b : ℝ) / N) φ D t) * Real.sin (((j + 1 : ℕ) : ℝ) * (2 * Real.pi * ((b : ℝ) / N) * t + φ)) := by
      refine sum_congr rfl fun t ht => ?_
      rw [hx t (mem_range.mp ht), show ((j : ℝ) + 1) * (2 * Real.pi * ((b : ℝ) / N) * t) - (Real.pi / 2 - ((j : ℝ) + 1) * φ)
        = ((j + 1 : ℕ) : ℝ) * (2 * Real.pi * ((b : ℝ) / N) * t + φ) - Real.pi / 2 by push_cast; ring, Real.cos_sub_pi_div_two]
    have e2 : ((j : ℝ) + 1) * ψ + r.phases j - (Real.pi / 2 - ((j : ℝ) + 1) * φ) = (((j : ℝ) + 1) * (φ + ψ) + r.phases j) - Real.pi / 2 := by ring
    rw [e1, e2, Real.cos_sub_pi_div_two] at h2
    rw [h2, abs_mul, abs_mul, abs_of_nonneg (hm j).1, abs_of_pos (by positivity : (0 : ℝ) < N / 4)] at h1
    rw [le_div_iff₀ hNR]
    linarith
  have q0 := hq 0 (by omega)
  have qk := hq k hk
  rw [Nat.cast_zero, zero_add, one_mul, hp0, add_zero] at q0
  have m0 := (hm 0).1
  have mk := (hm k).1
  have e : Real.sin (r.phases k) = Real.sin (((k : ℝ) + 1) * (φ + ψ) + r.phases k) * Real.cos (((k : ℝ) + 1) * (φ + ψ))
      - Real.cos (((k : ℝ) + 1) * (φ + ψ) + r.phases k) * Real.sin (((k : ℝ) + 1) * (φ + ψ)) := by
    rw [← Real.sin_sub]
    congr 1
    ring
  have h1 : |Real.sin (r.phases k)| ≤ |Real.sin (((k : ℝ) + 1) * (φ + ψ) + r.phases k)| + ((k : ℝ) + 1) * |Real.sin (φ + ψ)| := by
    rw [e]
    refine (abs_sub _ _).trans ?_
    rw [abs_mul, abs_mul]
    have a1 := abs_sin_mul_le (k + 1) (φ + ψ)
    push_cast at a1
    have a2 := Real.abs_cos_le_one (((k : ℝ) + 1) * (φ + ψ))
    have a3 := Real.abs_cos_le_one (((k : ℝ) + 1) * (φ + ψ) + r.phases k)
    have a4 := abs_nonneg (Real.sin (((k : ℝ) + 1) * (φ + ψ) + r.phases k))
    have a5 := abs_nonneg (Real.sin (((k : ℝ) + 1) * (φ + ψ)))
    nlinarith
  rw [abs_mul, abs_of_nonneg mk]
  have h2 : r.magnitudes 0 * (r.magnitudes k * |Real.sin (r.phases k)|)
      ≤ r.magnitudes 0 * (r.magnitudes k * |Real.sin (((k : ℝ) + 1) * (φ + ψ) + r.phases k)|) + ((k : ℝ) + 1) * r.magnitudes k * (r.magnitudes 0 * |Real.sin (φ + ψ)|) := by
    have := mul_le_mul_of_nonneg_left h1 (mul_nonneg m0 mk)
    nlinarith
  have h3 := mul_le_mul_of_nonneg_left qk m0
  have h4 := mul_le_mul_of_nonneg_left q0 (by positivity : 0 ≤ ((k : ℝ) + 1) * r.magnitudes k)
  linarith

/-- A quantiser of 21 levels, 7 periods in 1000 samples, 5 harmonics: off-axis part of the third harmonic at most `0.08 (1 + 3 m₃ / m₁)`. -/
example (solve : Lstsq) (hs : IsLstsq solve) :
    ∃ r, decomposeHarmonic solve 1 1000 (fun _ t => (⌊sineAt 10 (((7 : ℕ) : ℝ) / (1000 : ℕ)) 1 (1 / 2) t⌋ : ℝ)) (5 : ℕ) (some (((7 : ℕ) : ℝ) / (1000 : ℕ))) 0 (1 / 10 ^ 9) = .ok r ∧
      r.magnitudes 0 * |r.magnitudes 2 * Real.sin (r.phases 2)| ≤ 8 / 100 * (r.magnitudes 0 + 3 * r.magnitudes 2) := by
  obtain ⟨r, hr, hf⟩ := (C51_frequency solve 1 1000 (fun _ t => (⌊sineAt 10 (((7 : ℕ) : ℝ) / (1000 : ℕ)) 1 (1 / 2) t⌋ : ℝ)) (5 : ℕ) (((7 : ℕ) : ℝ) / (1000 : ℕ)) (1 / 10 ^ 9) 0).2.1
    (by norm_num)
  refine ⟨r, hr, ?_⟩
  have := C155_static solve hs 1 1000 7 (by norm_num) _ 5 (by norm_num) _ 0 _ r hr (hf rfl) 10 1 (1 / 2) 20 (by norm_num) (fun v => (⌊v⌋ : ℝ))
    ⟨fun v => (⌊v⌋ : ℝ), fun _ => 0, fun v w h => by simpa using Int.floor_mono h, fun _ _ _ => le_rfl, fun _ => by ring, by
      beta_reduce
      rw [show ⌊((10 : ℝ) + 1 / 2)⌋ = 10 by rw [Int.floor_eq_iff]; norm_num, show ⌊(-(10 : ℝ) + 1 / 2)⌋ = -10 by rw [Int.floor_eq_iff]; norm_num]; norm_num⟩
    (fun t _ => by unfold averageRecord; simp) 2 (by norm_num)
  norm_num at this ⊢
  linarith

end Verif
