import Verif.Proofs.PhaseCount
import Mathlib.MeasureTheory.Integral.IntervalIntegral.Basic

/-!
# Lemmas for C154: the output of a monotone converter driven by a sine has almost no quadrature component
-/

namespace Verif

open Finset

/-- The samples of a coherent sine visit the phases `φ + 2πj/N`, each once; `j` may run over any window of `N` integers. -/
theorem sum_phases (N b : ℕ) (hN : 0 < N) (hcop : Nat.Coprime b N) (φ : ℝ) (j0 : ℤ) (F : ℝ → ℝ) (hF : ∀ (u : ℝ) (k : ℤ), F (u + k * (2 * Real.pi)) = F u) :
    ∑ t ∈ range N, F (2 * Real.pi * ((b : ℝ) / N) * t + φ) = ∑ j ∈ Ico j0 (j0 + N), F (φ + 2 * Real.pi / N * j) := by
  have hNR : (N : ℝ) ≠ 0 := by exact_mod_cast hN.ne'
  have hNZ : (N : ℤ) ≠ 0 := by exact_mod_cast hN.ne'
  obtain ⟨g, hg⟩ : ∃ g : ℕ → ℤ, ∀ t, g t = j0 + ((b : ℤ) * t - j0) % N := ⟨_, fun _ => rfl⟩
  have hinj : Set.InjOn g (range N : Set ℕ) := by
    intro i hi k hk hik
    rw [mem_coe, mem_range] at hi hk
    rw [hg, hg] at hik
    have h1 : ((b : ℤ) * i - j0) % N = ((b : ℤ) * k - j0) % N := by linarith
    have h2 : (N : ℤ) ∣ ((b : ℤ) * k - j0) - ((b : ℤ) * i - j0) := (Int.emod_eq_emod_iff_emod_sub_eq_zero.mp h1.symm) |> Int.dvd_of_emod_eq_zero
    have h3 : (N : ℤ) ∣ b * ((k : ℤ) - i) := by
      have e : ((b : ℤ) * k - j0) - ((b : ℤ) * i - j0) = b * ((k : ℤ) - i) := by ring
      rwa [e] at h2
    have hc : IsCoprime (N : ℤ) (b : ℤ) := (Nat.isCoprime_iff_coprime.mpr hcop).symm
    have h4 := hc.dvd_of_dvd_mul_left h3
    have h5 := Int.eq_zero_of_abs_lt_dvd h4 (by rw [abs_lt]; omega)
    omega
  have himg : (range N).image g = Ico j0 (j0 + N) := by
    apply eq_of_subset_of_card_le
    · intro j hj
      rw [mem_image] at hj
      obtain ⟨t, _, rfl⟩ := hj
      rw [mem_Ico, hg]
      have h1 := Int.emod_nonneg ((b : ℤ) * t - j0) hNZ
      have h2 := Int.emod_lt_of_pos ((b : ℤ) * t - j0) (by exact_mod_cast hN : (0 : ℤ) < N)
      constructor <;> linarith
    · rw [card_image_of_injOn hinj, card_range, Int.card_Ico]
      simp
  rw [← himg, sum_image hinj]
  refine sum_congr rfl fun t _ => ?_
  have h := Int.emod_add_mul_ediv ((b : ℤ) * t - j0) N
  have e : (g t : ℝ) = b * t - N * ((((b : ℤ) * t - j0) / N : ℤ) : ℝ) := by
    have : g t = b * t - N * (((b : ℤ) * t - j0) / N) := by rw [hg]; linarith
    rw [this]
    push_cast
    ring
  rw [← hF (φ + 2 * Real.pi / N * (g t : ℝ)) (((b : ℤ) * t - j0) / N), e]
  congr 1
  field_simp
  ring

/-- Sum of sines at equally spaced phases. -/
theorem sum_sin_steps (h θ : ℝ) (m : ℕ) : 2 * Real.sin (h / 2) * ∑ i ∈ range m, Real.sin (θ + h * i) = Real.cos (θ - h / 2) - Real.cos (θ + h * m - h / 2) := by
  induction m with
  | zero => simp
  | succ m ih =>
    rw [sum_range_succ, mul_add, ih]
    push_cast
    have e1 : Real.cos (θ + h * m - h / 2) = Real.cos ((θ + h * m) - h / 2) := rfl
    have e2 : θ + h * (m + 1) - h / 2 = (θ + h * m) + h / 2 := by ring
    rw [e2, Real.cos_add, Real.cos_sub (θ + h * m)]
    ring

/-- Samples selected by a threshold on the sine: their quadrature components, of the fundamental or of a harmonic `K`, add up to at most one. -/
theorem arc_sum (N b K : ℕ) (hK : 1 ≤ K) (hKN : 2 * K ≤ N) (hcop : Nat.Coprime b N) (φ : ℝ) (U : ℝ → Prop) [DecidablePred U] (hU : ∀ u v, u ≤ v → U u → U v) :
    |∑ t ∈ range N, if U (Real.cos (2 * Real.pi * ((b : ℝ) / N) * t + φ)) then Real.sin (K * (2 * Real.pi * ((b : ℝ) / N) * t + φ)) else 0| ≤ 1 := by
  have hN : 2 ≤ N := by omega
  have hK' : (1 : ℝ) ≤ K := by exact_mod_cast hK
  have hKN' : (2 : ℝ) * K ≤ N := by exact_mod_cast hKN
  have hpi := Real.pi_pos
  have hNR : (2 : ℝ) ≤ N := by exact_mod_cast hN
  obtain ⟨h, hh⟩ : ∃ h : ℝ, h = 2 * Real.pi / N := ⟨_, rfl⟩
  have hpos : 0 < h := by rw [hh]; positivity
  have hhN : h * N = 2 * Real.pi := by rw [hh]; field_simp
  have hle : h ≤ Real.pi := by rw [hh, div_le_iff₀ (by linarith)]; nlinarith
  obtain ⟨j0, hj0⟩ : ∃ j0 : ℤ, j0 = ⌈(-Real.pi - φ) / h⌉ := ⟨_, rfl⟩
  have a1 : -Real.pi ≤ φ + h * j0 := by
    have := Int.le_ceil ((-Real.pi - φ) / h)
    rw [← hj0, div_le_iff₀ hpos] at this
    linarith
  have a2 : φ + h * j0 < -Real.pi + h := by
    have := Int.ceil_lt_add_one ((-Real.pi - φ) / h)
    rw [← hj0, ← sub_lt_iff_lt_add, lt_div_iff₀ hpos] at this
    linarith
  rw [sum_phases N b (by omega) hcop φ j0 (fun u => if U (Real.cos u) then Real.sin (K * u) else 0) (fun u k => by
    rw [Real.cos_add_int_mul_two_pi, show (K : ℝ) * (u + k * (2 * Real.pi)) = K * u + ((K * k : ℤ) : ℝ) * (2 * Real.pi) by push_cast; ring, Real.sin_add_int_mul_two_pi])]
  rw [← hh, ← sum_filter]
  obtain ⟨S, hS⟩ : ∃ S : Finset ℤ, S = (Ico j0 (j0 + N)).filter fun j : ℤ => U (Real.cos (φ + h * j)) := ⟨_, rfl⟩
  rw [← hS]
  have hmem : ∀ j : ℤ, j ∈ S ↔ (j0 ≤ j ∧ j < j0 + N) ∧ U (Real.cos (φ + h * j)) := by
    intro j; rw [hS, mem_filter, mem_Ico]
  have hwin : ∀ j : ℤ, j0 ≤ j → j < j0 + N → -Real.pi ≤ φ + h * j ∧ φ + h * j < Real.pi := by
    intro j h1 h2
    have h1' : (j0 : ℝ) ≤ j := by exact_mod_cast h1
    have h2' : (j : ℝ) + 1 ≤ j0 + N := by exact_mod_cast h2
    constructor
    · nlinarith
    · nlinarith
  have hcos : ∀ u v : ℝ, |u| ≤ |v| → |v| ≤ Real.pi → Real.cos v ≤ Real.cos u := by
    intro u v h1 h2
    rw [← Real.cos_abs u, ← Real.cos_abs v]
    exact Real.cos_le_cos_of_nonneg_of_le_pi (abs_nonneg u) h2 h1
  rcases S.eq_empty_or_nonempty with hE | hne
  · rw [hE]; simp
  · obtain ⟨p, hp⟩ : ∃ p, p = S.min' hne := ⟨_, rfl⟩
    obtain ⟨q, hq⟩ : ∃ q, q = S.max' hne := ⟨_, rfl⟩
    have pS : p ∈ S := hp ▸ S.min'_mem hne
    have qS : q ∈ S := hq ▸ S.max'_mem hne
    have hpl : ∀ j ∈ S, p ≤ j := fun j hj => hp ▸ S.min'_le j hj
    have hql : ∀ j ∈ S, j ≤ q := fun j hj => hq ▸ S.le_max' j hj
    obtain ⟨⟨p1, p2⟩, pU⟩ := (hmem p).mp pS
    obtain ⟨⟨q1, q2⟩, qU⟩ := (hmem q).mp qS
    have hpw := hwin p p1 p2
    have hqw := hwin q q1 q2
    have hpq := hpl q qS
    have hSI : S = (range (q - p + 1).toNat).image fun i : ℕ => p + (i : ℤ) := by
      ext j
      rw [mem_image]
      constructor
      · intro hj
        have := hpl j hj
        have := hql j hj
        exact ⟨(j - p).toNat, by rw [mem_range]; omega, by omega⟩
      · rintro ⟨i, hi, rfl⟩
        rw [mem_range] at hi
        have j1 : p ≤ p + (i : ℤ) := by omega
        have j2 : p + (i : ℤ) ≤ q := by omega
        refine (hmem _).mpr ⟨⟨by omega, by omega⟩, ?_⟩
        have k1 : φ + h * p ≤ φ + h * (p + (i : ℤ) : ℤ) := by
          have : (p : ℝ) ≤ ((p + (i : ℤ) : ℤ) : ℝ) := by exact_mod_cast j1
          nlinarith
        have k2 : φ + h * (p + (i : ℤ) : ℤ) ≤ φ + h * q := by
          have : ((p + (i : ℤ) : ℤ) : ℝ) ≤ q := by exact_mod_cast j2
          nlinarith
        rcases le_total 0 (φ + h * (p + (i : ℤ) : ℤ)) with hs | hs
        · refine hU _ _ (hcos _ _ ?_ ?_) qU
          · rw [abs_of_nonneg hs, abs_of_nonneg (hs.trans k2)]; exact k2
          · rw [abs_of_nonneg (hs.trans k2)]; exact hqw.2.le
        · refine hU _ _ (hcos _ _ ?_ ?_) pU
          · rw [abs_of_nonpos hs, abs_of_nonpos (k1.trans hs)]; linarith
          · rw [abs_of_nonpos (k1.trans hs)]; linarith [hpw.1]
    -- the selected arc is symmetric up to one step
    have m1 : φ + h * p + (φ + h * q) ≤ h := by
      by_contra hc
      push Not at hc
      have hp0 : j0 < p := by
        rcases lt_or_eq_of_le p1 with h1 | h1
        · exact h1
        · exfalso
          rw [← h1] at hc
          linarith [hqw.2]
      have hx : p - 1 ∈ S := by
        refine (hmem _).mpr ⟨⟨by omega, by omega⟩, ?_⟩
        push_cast
        have e : φ + h * ((p : ℝ) - 1) = φ + h * p - h := by ring
        rw [e]
        rcases le_total 0 (φ + h * p - h) with hs | hs
        · refine hU _ _ (hcos _ _ ?_ ?_) pU
          · rw [abs_of_nonneg hs, abs_of_nonneg (by linarith)]; linarith
          · rw [abs_of_nonneg (by linarith)]; exact hpw.2.le
        · have hq0 : 0 ≤ φ + h * q := by linarith
          refine hU _ _ (hcos _ _ ?_ ?_) qU
          · rw [abs_of_nonpos hs, abs_of_nonneg hq0]; linarith
          · rw [abs_of_nonneg hq0]; exact hqw.2.le
      have := hpl _ hx
      omega
    have m2 : -h ≤ φ + h * p + (φ + h * q) := by
      by_contra hc
      push Not at hc
      have hq0 : q + 1 < j0 + N := by
        by_contra hn
        have e : q = j0 + N - 1 := by omega
        have : (q : ℝ) = j0 + N - 1 := by rw [e]; push_cast; ring
        rw [this] at hc
        nlinarith [hpw.1]
      have hx : q + 1 ∈ S := by
        refine (hmem _).mpr ⟨⟨by omega, by omega⟩, ?_⟩
        push_cast
        have e : φ + h * ((q : ℝ) + 1) = φ + h * q + h := by ring
        rw [e]
        rcases le_total (φ + h * q + h) 0 with hs | hs
        · refine hU _ _ (hcos _ _ ?_ ?_) qU
          · rw [abs_of_nonpos hs, abs_of_nonpos (by linarith)]; linarith
          · rw [abs_of_nonpos (by linarith)]; linarith [hqw.1]
        · have hp0 : φ + h * p ≤ 0 := by linarith
          refine hU _ _ (hcos _ _ ?_ ?_) pU
          · rw [abs_of_nonneg hs, abs_of_nonpos hp0]; linarith
          · rw [abs_of_nonpos hp0]; linarith [hpw.1]
      have := hql _ hx
      omega
    rw [hSI, sum_image (fun i _ k _ hik => by simpa using hik)]
    have hsum := sum_sin_steps (K * h) (K * (φ + h * p)) (q - p + 1).toNat
    have hm : (((q - p + 1).toNat : ℕ) : ℝ) = q - p + 1 := by
      have : (((q - p + 1).toNat : ℕ) : ℤ) = q - p + 1 := by omega
      exact_mod_cast this
    have e3 : ∑ i ∈ range (q - p + 1).toNat, Real.sin (K * (φ + h * ((p + (i : ℤ) : ℤ) : ℝ))) = ∑ i ∈ range (q - p + 1).toNat, Real.sin (K * (φ + h * p) + K * h * i) := by
      refine sum_congr rfl fun i _ => ?_
      push_cast
      congr 1
      ring
    rw [e3]
    rw [hm] at hsum
    have hKh : K * h ≤ Real.pi := by
      rw [hh, ← mul_div_assoc, div_le_iff₀ (by linarith)]
      nlinarith
    have hKp : 0 < K * h := by positivity
    have hs0 : 0 < Real.sin (K * h / 2) := Real.sin_pos_of_pos_of_lt_pi (by linarith) (by linarith)
    have e4 : Real.cos (K * (φ + h * p) - K * h / 2) - Real.cos (K * (φ + h * p) + K * h * (q - p + 1) - K * h / 2)
        = 2 * Real.sin (K * ((φ + h * p + (φ + h * q)) / 2)) * Real.sin (K * (h * (q - p + 1) / 2)) := by
      rw [Real.cos_sub_cos, show (K * (φ + h * p) - K * h / 2 + (K * (φ + h * p) + K * h * (q - p + 1) - K * h / 2)) / 2 = K * ((φ + h * p + (φ + h * q)) / 2) by ring,
        show (K * (φ + h * p) - K * h / 2 - (K * (φ + h * p) + K * h * (q - p + 1) - K * h / 2)) / 2 = -(K * (h * (q - p + 1) / 2)) by ring, Real.sin_neg]
      ring
    rw [e4] at hsum
    have e5 : Real.sin (K * h / 2) * ∑ i ∈ range (q - p + 1).toNat, Real.sin (K * (φ + h * p) + K * h * i)
        = Real.sin (K * ((φ + h * p + (φ + h * q)) / 2)) * Real.sin (K * (h * (q - p + 1) / 2)) := by linarith
    have b1 : K * ((φ + h * p + (φ + h * q)) / 2) ≤ K * h / 2 := by nlinarith
    have b2 : -(K * h / 2) ≤ K * ((φ + h * p + (φ + h * q)) / 2) := by nlinarith
    have e6 : |Real.sin (K * ((φ + h * p + (φ + h * q)) / 2))| ≤ Real.sin (K * h / 2) := by
      rw [abs_le]
      constructor
      · rw [← Real.sin_neg]
        exact Real.sin_le_sin_of_le_of_le_pi_div_two (by linarith) (by linarith) (by linarith)
      · exact Real.sin_le_sin_of_le_of_le_pi_div_two (by linarith) (by linarith) (by linarith)
    have e7 : Real.sin (K * h / 2) * |∑ i ∈ range (q - p + 1).toNat, Real.sin (K * (φ + h * p) + K * h * i)| ≤ Real.sin (K * h / 2) * 1 := by
      rw [← abs_of_pos hs0, ← abs_mul, abs_of_pos hs0, e5, abs_mul]
      exact mul_le_mul e6 (Real.abs_sin_le_one _) (abs_nonneg _) hs0.le
    exact le_of_mul_le_mul_left e7 hs0

private theorem step_integral (m M c : ℝ) (h1 : m ≤ c) (h2 : c ≤ M) : ∫ u in m..M, (if u < c then (1 : ℝ) else 0) = c - m := by
  have hanti : Antitone fun u : ℝ => if u < c then (1 : ℝ) else 0 := by
    intro u v huv
    simp only
    split_ifs with a b
    · exact le_rfl
    · exact absurd (lt_of_le_of_lt huv a) b
    · norm_num
    · exact le_rfl
  rw [← intervalIntegral.integral_add_adjacent_intervals (a := m) (b := c) (c := M) hanti.intervalIntegrable hanti.intervalIntegrable]
  have e1 : ∫ u in m..c, (if u < c then (1 : ℝ) else 0) = ∫ _ in m..c, (1 : ℝ) :=
    intervalIntegral.integral_congr_Ioo_of_le h1 fun u hu => if_pos hu.2
  have e2 : ∫ u in c..M, (if u < c then (1 : ℝ) else 0) = ∫ _ in c..M, (0 : ℝ) :=
    intervalIntegral.integral_congr_Ioo_of_le h2 fun u hu => if_neg (not_lt.mpr hu.1.le)
  rw [e1, e2]
  simp

/-- Weights whose sums over every upper level set of `f` are at most one: the weighted sum of `f` is at most its range. -/
theorem layer_cake (N : ℕ) (f w : ℕ → ℝ) (m M : ℝ) (hm : ∀ t < N, m ≤ f t ∧ f t ≤ M) (hw0 : ∑ t ∈ range N, w t = 0)
    (hw : ∀ u, |∑ t ∈ range N, if u < f t then w t else 0| ≤ 1) (hmM : m ≤ M) : |∑ t ∈ range N, f t * w t| ≤ M - m := by
  have hint : ∀ t, IntervalIntegrable (fun u : ℝ => (if u < f t then (1 : ℝ) else 0) * w t) MeasureTheory.volume m M := by
    intro t
    apply IntervalIntegrable.mul_const
    apply Antitone.intervalIntegrable
    intro u v huv
    simp only
    split_ifs with a b
    · exact le_rfl
    · exact absurd (lt_of_le_of_lt huv a) b
    · norm_num
    · exact le_rfl
  have e : ∑ t ∈ range N, f t * w t = ∫ u in m..M, ∑ t ∈ range N, (if u < f t then (1 : ℝ) else 0) * w t := by
    rw [intervalIntegral.integral_finset_sum fun t _ => hint t]
    have : ∑ t ∈ range N, f t * w t = ∑ t ∈ range N, (f t - m) * w t := by
      rw [sum_congr rfl fun t _ => sub_mul (f t) m (w t), sum_sub_distrib, ← mul_sum, hw0]
      ring
    rw [this]
    refine sum_congr rfl fun t ht => ?_
    obtain ⟨h1, h2⟩ := hm t (mem_range.mp ht)
    rw [intervalIntegral.integral_mul_const, step_integral m M (f t) h1 h2]
  rw [e, ← Real.norm_eq_abs]
  refine (intervalIntegral.norm_integral_le_of_norm_le_const (C := 1) fun u _ => ?_).trans (by rw [one_mul, abs_of_nonneg (by linarith)])
  rw [Real.norm_eq_abs]
  convert hw u using 3
  split_ifs <;> simp

/-- A monotone function of a coherent sine: the quadrature component of the fundamental or a harmonic adds up to at most the range of the function. -/
theorem quadrature_bound_harmonic (N b K : ℕ) (hK : 1 ≤ K) (hKN : 2 * K ≤ N) (hcop : Nat.Coprime b N) (A φ D m M : ℝ) (hA : 0 < A) (f : ℝ → ℝ) (hf : Monotone f)
    (hr : ∀ t < N, m ≤ f (A * Real.cos (2 * Real.pi * ((b : ℝ) / N) * t + φ) + D) ∧ f (A * Real.cos (2 * Real.pi * ((b : ℝ) / N) * t + φ) + D) ≤ M)
    (hs : ∑ t ∈ range N, Real.sin (K * (2 * Real.pi * ((b : ℝ) / N) * t + φ)) = 0) :
    |∑ t ∈ range N, f (A * Real.cos (2 * Real.pi * ((b : ℝ) / N) * t + φ) + D) * Real.sin (K * (2 * Real.pi * ((b : ℝ) / N) * t + φ))| ≤ M - m := by
  refine layer_cake N (fun t => f (A * Real.cos (2 * Real.pi * ((b : ℝ) / N) * t + φ) + D)) _ m M hr hs (fun u => ?_) ?_
  · classical
    exact arc_sum N b K hK hKN hcop φ (fun v => u < f (A * v + D)) fun v v' hv h => lt_of_lt_of_le h (hf (by nlinarith))
  · have := hr 0 (by omega)
    linarith

/-- A monotone function of a coherent sine: the quadrature component of the samples adds up to at most the range of the function. -/
theorem quadrature_bound (N b : ℕ) (hb : 0 < b) (hbN : 2 * b < N) (hcop : Nat.Coprime b N) (A φ D m M : ℝ) (hA : 0 < A) (f : ℝ → ℝ) (hf : Monotone f)
    (hr : ∀ t < N, m ≤ f (A * Real.cos (2 * Real.pi * ((b : ℝ) / N) * t + φ) + D) ∧ f (A * Real.cos (2 * Real.pi * ((b : ℝ) / N) * t + φ) + D) ≤ M)
    (hs : ∑ t ∈ range N, Real.sin (2 * Real.pi * ((b : ℝ) / N) * t + φ) = 0) :
    |∑ t ∈ range N, f (A * Real.cos (2 * Real.pi * ((b : ℝ) / N) * t + φ) + D) * Real.sin (2 * Real.pi * ((b : ℝ) / N) * t + φ)| ≤ M - m := by
  have := quadrature_bound_harmonic N b 1 le_rfl (by omega) hcop A φ D m M hA f hf hr (by simpa using hs)
  simpa using this

end Verif
