import Verif.Theorems.NoiseReport
import Verif.Theorems.ShapedReport

/-!
# C160: white noise and the oversampled spectrum report
-/

namespace Verif

open Model Finset Spec MeasureTheory ProbabilityTheory

/-! ## The band as a quadratic form -/

/-- Sum over the pairs of samples, each pair once. -/
private noncomputable def pairSum (c : ℕ → ℕ → ℝ) (e : ℕ → ℝ) (N : ℕ) : ℝ := ∑ j ∈ range N, e j * ∑ i ∈ range j, c i j * e i

/-- Correlation of two samples of noise that is white in the band. -/
private noncomputable def bandKernel (N M : ℕ) (i j : ℕ) : ℝ := ∑ k ∈ Icc 1 M, Real.cos (2 * Real.pi * (k * (j : ℝ) / N) - 2 * Real.pi * (k * (i : ℝ) / N))

private theorem square_pairs (θ e : ℕ → ℝ) : ∀ n : ℕ, (∑ i ∈ range n, e i * Real.cos (θ i)) ^ 2 + (∑ i ∈ range n, e i * Real.sin (θ i)) ^ 2
    = ∑ i ∈ range n, e i ^ 2 + 2 * ∑ j ∈ range n, e j * ∑ i ∈ range j, Real.cos (θ j - θ i) * e i
  | 0 => by simp
  | n + 1 => by
    have ih := square_pairs θ e n
    have hx : ∑ i ∈ range n, Real.cos (θ n - θ i) * e i = Real.cos (θ n) * ∑ i ∈ range n, e i * Real.cos (θ i) + Real.sin (θ n) * ∑ i ∈ range n, e i * Real.sin (θ i) := by
      rw [mul_sum, mul_sum, ← sum_add_distrib]
      refine sum_congr rfl fun i _ => ?_
      rw [Real.cos_sub]
      ring
    rw [sum_range_succ, sum_range_succ, sum_range_succ, sum_range_succ (fun j => e j * ∑ i ∈ range j, Real.cos (θ j - θ i) * e i), hx]
    linear_combination ih + e n ^ 2 * Real.sin_sq_add_cos_sq (θ n)

private theorem band_pairs (N M : ℕ) (hN : 0 < N) (hM : 2 * M < N) (e : ℕ → ℝ) :
    bandPower N M e = 2 / (N : ℝ) ^ 2 * (M * ∑ i ∈ range N, e i ^ 2 + 2 * pairSum (bandKernel N M) e N) := by
  have hNR : (0 : ℝ) < N := by exact_mod_cast hN
  have h1 : ∀ k ∈ Icc 1 M, (if 2 * k = N then 1 else 2) * ‖dft N (fun n => (e n : ℂ)) k / N‖ ^ 2
      = 2 / (N : ℝ) ^ 2 * (∑ i ∈ range N, e i ^ 2 + 2 * ∑ j ∈ range N, e j * ∑ i ∈ range j, Real.cos (2 * Real.pi * (k * (j : ℝ) / N) - 2 * Real.pi * (k * (i : ℝ) / N)) * e i) := by
    intro k hk
    rw [mem_Icc] at hk
    rw [if_neg (by omega), norm_div, div_pow, norm_bin _ hN.ne', ← square_pairs (fun j => 2 * Real.pi * (k * (j : ℝ) / N)) e N]
    unfold binCos binSin
    simp only [Complex.norm_natCast]
    field_simp
    ring
  unfold bandPower
  rw [sum_congr rfl h1, ← mul_sum, sum_add_distrib, sum_const, Nat.card_Icc, nsmul_eq_mul, ← mul_sum]
  congr 3
  unfold pairSum bandKernel
  rw [sum_comm]
  refine sum_congr rfl fun j _ => ?_
  rw [← mul_sum, sum_comm]
  congr 1
  refine sum_congr rfl fun i _ => ?_
  rw [sum_mul]

private theorem kernel_row (N M : ℕ) (hM : 2 * M < N) (i : ℕ) : ∑ j ∈ range N, bandKernel N M i j ^ 2 = N * M / 2 := by
  have hN : N ≠ 0 := by omega
  have hNR : (N : ℝ) ≠ 0 := by exact_mod_cast hN
  have h1 : ∀ k ∈ Icc 1 M, ∀ l ∈ Icc 1 M, ∑ j ∈ range N, Real.cos (2 * Real.pi * (k * (j : ℝ) / N) - 2 * Real.pi * (k * (i : ℝ) / N))
      * Real.cos (2 * Real.pi * (l * (j : ℝ) / N) - 2 * Real.pi * (l * (i : ℝ) / N)) = if k = l then (N : ℝ) / 2 else 0 := by
    intro k hk l hl
    rw [mem_Icc] at hk hl
    have hs := sum_cos_zero N hN ((k : ℤ) + l) (by
      intro h
      have := Int.le_of_dvd (by omega) h
      omega) (-(2 * Real.pi * (((k : ℝ) + l) * i / N)))
    have hsplit : ∀ j ∈ range N, Real.cos (2 * Real.pi * (k * (j : ℝ) / N) - 2 * Real.pi * (k * (i : ℝ) / N)) * Real.cos (2 * Real.pi * (l * (j : ℝ) / N) - 2 * Real.pi * (l * (i : ℝ) / N))
        = 1 / 2 * Real.cos (2 * Real.pi * ((((k : ℤ) + l : ℤ) : ℝ) * j / N) + -(2 * Real.pi * (((k : ℝ) + l) * i / N)))
          + 1 / 2 * Real.cos (2 * Real.pi * ((((k : ℤ) - l : ℤ) : ℝ) * j / N) + -(2 * Real.pi * (((k : ℝ) - l) * i / N))) := by
      intro j _
      have e1 : 2 * Real.pi * ((((k : ℤ) + l : ℤ) : ℝ) * j / N) + -(2 * Real.pi * (((k : ℝ) + l) * i / N))
          = (2 * Real.pi * (k * (j : ℝ) / N) - 2 * Real.pi * (k * (i : ℝ) / N)) + (2 * Real.pi * (l * (j : ℝ) / N) - 2 * Real.pi * (l * (i : ℝ) / N)) := by
        push_cast; ring
      have e2 : 2 * Real.pi * ((((k : ℤ) - l : ℤ) : ℝ) * j / N) + -(2 * Real.pi * (((k : ℝ) - l) * i / N))
          = (2 * Real.pi * (k * (j : ℝ) / N) - 2 * Real.pi * (k * (i : ℝ) / N)) - (2 * Real.pi * (l * (j : ℝ) / N) - 2 * Real.pi * (l * (i : ℝ) / N)) := by
        push_cast; ring
      rw [e1, e2, Real.cos_add, Real.cos_sub (2 * Real.pi * (k * (j : ℝ) / N) - 2 * Real.pi * (k * (i : ℝ) / N))]
      ring
    rw [sum_congr rfl hsplit, sum_add_distrib, ← mul_sum, hs, mul_zero, zero_add, ← mul_sum]
    split_ifs with h
    · subst h
      simp
      ring
    · rw [sum_cos_zero N hN ((k : ℤ) - l) (by
        intro hd
        have hne : (k : ℤ) - l ≠ 0 := by omega
        have := Int.le_of_dvd (by positivity) ((dvd_abs _ _).mpr hd)
        rcases abs_cases ((k : ℤ) - l) with ⟨h', _⟩ | ⟨h', _⟩ <;> omega), mul_zero]
  have h2 : ∀ j ∈ range N, bandKernel N M i j ^ 2 = ∑ k ∈ Icc 1 M, ∑ l ∈ Icc 1 M, Real.cos (2 * Real.pi * (k * (j : ℝ) / N) - 2 * Real.pi * (k * (i : ℝ) / N))
      * Real.cos (2 * Real.pi * (l * (j : ℝ) / N) - 2 * Real.pi * (l * (i : ℝ) / N)) := by
    intro j _
    unfold bandKernel
    rw [pow_two, sum_mul_sum]
  rw [sum_congr rfl h2, sum_comm, sum_congr rfl fun k hk => by rw [sum_comm, sum_congr rfl fun l hl => h1 k hk l hl, sum_ite_eq, if_pos hk]]
  rw [sum_const, Nat.card_Icc, nsmul_eq_mul]
  simp
  ring

private theorem kernel_symm (N M i j : ℕ) : bandKernel N M i j = bandKernel N M j i := by
  unfold bandKernel
  refine sum_congr rfl fun k _ => ?_
  rw [← Real.cos_neg]
  congr 1
  ring

private theorem kernel_pairs (N M : ℕ) (hM : 2 * M < N) : ∑ j ∈ range N, ∑ i ∈ range j, bandKernel N M i j ^ 2 ≤ (N : ℝ) ^ 2 * M / 4 := by
  have hdouble : ∀ n : ℕ, ∑ i ∈ range n, ∑ j ∈ range n, bandKernel N M i j ^ 2 = ∑ i ∈ range n, bandKernel N M i i ^ 2 + 2 * ∑ j ∈ range n, ∑ i ∈ range j, bandKernel N M i j ^ 2 := by
    intro n
    induction n with
    | zero => simp
    | succ n ih =>
      rw [sum_range_succ, sum_congr rfl fun i _ => sum_range_succ (fun j => bandKernel N M i j ^ 2) n, sum_add_distrib, ih, sum_range_succ (fun j => bandKernel N M n j ^ 2),
        sum_range_succ (fun i => bandKernel N M i i ^ 2), sum_range_succ (fun j => ∑ i ∈ range j, bandKernel N M i j ^ 2),
        sum_congr rfl fun j _ => show bandKernel N M n j ^ 2 = bandKernel N M j n ^ 2 by rw [kernel_symm]]
      ring
  have h := hdouble N
  rw [sum_congr rfl fun i _ => kernel_row N M hM i, sum_const, card_range, nsmul_eq_mul] at h
  have h0 : 0 ≤ ∑ i ∈ range N, bandKernel N M i i ^ 2 := sum_nonneg fun _ _ => sq_nonneg _
  nlinarith

/-! ## One record -/

private theorem band_close (n M S P η : ℝ) (hn : 0 < n) (hM : 0 < M) (d1 : -(n * (η / 2)) < S - n) (d2 : S - n < n * (η / 2)) (f1 : -(n * M * η / 4) < P) (f2 : P < n * M * η / 4) :
    2 * M / n * (1 - η) < 2 / n ^ 2 * (M * S + 2 * P) ∧ 2 / n ^ 2 * (M * S + 2 * P) < 2 * M / n * (1 + η) := by
  have u1 := mul_lt_mul_of_pos_left d1 hM
  have u2 := mul_lt_mul_of_pos_left d2 hM
  have hp : 0 < 2 / n ^ 2 := by positivity
  constructor
  · calc 2 * M / n * (1 - η) = 2 / n ^ 2 * (M * n * (1 - η)) := by field_simp
      _ < _ := mul_lt_mul_of_pos_left (by linarith) hp
  · calc 2 / n ^ 2 * (M * S + 2 * P) < 2 / n ^ 2 * (M * n * (1 + η)) := mul_lt_mul_of_pos_left (by linarith) hp
      _ = 2 * M / n * (1 + η) := by field_simp

private theorem bin_scale (N k : ℕ) (hN : 0 < N) (r : ℝ) (z : ℕ → ℝ) : (2 / (N : ℝ) * ‖dft N (fun m => ((r * z m : ℝ) : ℂ)) k‖) ^ 2 = r ^ 2 * (binCos N k z ^ 2 + binSin N k z ^ 2) := by
  have hNR : (0 : ℝ) < N := by exact_mod_cast hN
  rw [mul_pow, norm_bin _ hN.ne']
  have e1 : binCos N k (fun m => r * z m) = r * binCos N k z := by
    unfold binCos
    rw [show ∑ n ∈ range N, r * z n * Real.cos (2 * Real.pi * (k * n / N)) = r * ∑ n ∈ range N, z n * Real.cos (2 * Real.pi * (k * n / N)) by
      rw [mul_sum]; exact sum_congr rfl fun i _ => by ring]
    ring
  have e2 : binSin N k (fun m => r * z m) = r * binSin N k z := by
    unfold binSin
    rw [show ∑ n ∈ range N, r * z n * Real.sin (2 * Real.pi * (k * n / N)) = r * ∑ n ∈ range N, z n * Real.sin (2 * Real.pi * (k * n / N)) by
      rw [mul_sum]; exact sum_congr rfl fun i _ => by ring]
    ring
  rw [e1, e2]
  field_simp
  ring

private theorem band_scale (N M : ℕ) (hN : 0 < N) (hMN : 2 * M < N) (r : ℝ) (z : ℕ → ℝ) :
    bandPower N M (fun n => r * z n) = r ^ 2 * (2 / (N : ℝ) ^ 2 * (M * ∑ i ∈ range N, z i ^ 2 + 2 * pairSum (bandKernel N M) z N)) := by
  rw [band_pairs N M hN hMN]
  have e1 : ∑ i ∈ range N, (r * z i) ^ 2 = r ^ 2 * ∑ i ∈ range N, z i ^ 2 := by
    rw [mul_sum]; exact sum_congr rfl fun i _ => by ring
  have e2 : pairSum (bandKernel N M) (fun n => r * z n) N = r ^ 2 * pairSum (bandKernel N M) z N := by
    unfold pairSum
    rw [mul_sum]
    refine sum_congr rfl fun j _ => ?_
    rw [show ∑ i ∈ range j, bandKernel N M i j * (r * z i) = r * ∑ i ∈ range j, bandKernel N M i j * z i by
      rw [mul_sum]; exact sum_congr rfl fun i _ => by ring]
    ring
  rw [e1, e2]
  ring

private theorem report_close (A Am u q G P η v : ℝ) (hη : 0 < η) (hη1 : η ≤ 1 / 2) (hP : 0 < P) (hu2 : u ^ 2 ≤ η * P) (hus : u ≤ q) (hbu : G ≤ P * (1 + η)) (hbl : P * (1 - η) ≤ G)
    (w1 : -u ≤ Am - A) (w2 : Am - A ≤ u) (hlow0 : 0 ≤ A - q) (hV2 : 0 < v) :
    dB ((A - q) ^ 2 / 2 / (P * (1 + η) + v)) ≤ dB (Am ^ 2 / 2 / (G - u ^ 2 / 2 + v)) ∧ dB (Am ^ 2 / 2 / (G - u ^ 2 / 2 + v)) ≤ dB ((A + q) ^ 2 / 2 / (P * (1 - 3 / 2 * η))) := by
  have hden : P * (1 - 3 / 2 * η) ≤ G - u ^ 2 / 2 + v := by nlinarith
  have hpos : 0 < P * (1 - 3 / 2 * η) := mul_pos hP (by linarith)
  constructor
  · apply dB_mono (by positivity)
    apply div_le_div₀ (by positivity) _ (by linarith) (by nlinarith [sq_nonneg u])
    have := pow_le_pow_left₀ hlow0 (by linarith : A - q ≤ Am) 2
    linarith
  · apply dB_mono (div_nonneg (by positivity) (by linarith))
    apply div_le_div₀ (by positivity) _ hpos hden
    have := pow_le_pow_left₀ (by linarith : 0 ≤ Am) (by linarith : Am ≤ A + q) 2
    linarith

private theorem oversampled_record (g : Gen) (k : ℕ) (hg : CoherentGen g k) (hA : 0 < g.a) (rms : ℝ) (hr : 0 < rms) (z : ℕ → ℝ)
    (lib : WinLib) (a : SpectrumArgs) (ha : InBandCall a) (M : ℕ) (hkM : k ≤ M) (hosr : 1 < a.osr) (hedge : a.osr * (2 * M) = g.n)
    (hsmall : 8 * (rms ^ 2 / a.osr) < g.a ^ 2) (V : ℝ) (hV : 0 < V) (hpk : ∀ row, peakAmplitude [row] a.scale = .ok V)
    (η : ℝ) (hη : 0 < η) (hη1 : η ≤ 1 / 2) (c1 : |∑ i ∈ range g.n, z i ^ 2 - g.n| < g.n * (η / 2))
    (c2 : binCos g.n k z ^ 2 + binSin g.n k z ^ 2 ≤ η / a.osr) (c3 : |pairSum (bandKernel g.n M) z g.n| < g.n * M * η / 4) :
    ∃ r, computeSpectrum lib [(List.range g.n).map (g.thermal none rms z)] a = .ok r ∧ r.fundamentalBin = k ∧
      dB ((g.a - Real.sqrt (η * (rms ^ 2 / a.osr))) ^ 2 / 2 / (rms ^ 2 / a.osr * (1 + η) + V ^ 2 / 2 / 10 ^ 20)) ≤ r.sndr ∧
      r.sndr ≤ dB ((g.a + Real.sqrt (η * (rms ^ 2 / a.osr))) ^ 2 / 2 / (rms ^ 2 / a.osr * (1 - 3 / 2 * η))) := by
  obtain ⟨_, _, hk, hkN⟩ := id hg
  have hN0 : 0 < g.n := by omega
  have hN : (0 : ℝ) < g.n := by exact_mod_cast hN0
  have hMp : 0 < M := by omega
  have hMR : (0 : ℝ) < M := by exact_mod_cast hMp
  have hMN : 2 * M < g.n := by
    have : (2 * M : ℝ) < g.n := by nlinarith
    exact_mod_cast this
  have hshare : 2 * (M : ℝ) / g.n = 1 / a.osr := by
    rw [div_eq_div_iff hN.ne' (by linarith)]
    linarith
  obtain ⟨row, hrow⟩ : ∃ row, row = (List.range g.n).map (g.thermal none rms z) := ⟨_, rfl⟩
  rw [← hrow]
  have hl : row.length = g.n := by rw [hrow]; simp
  obtain ⟨d1, d2⟩ := abs_lt.mp c1
  obtain ⟨f1, f2⟩ := abs_lt.mp c3
  have hrow' : ∀ n < row.length, row.getD n 0 = sineAt g.a ((k : ℝ) / row.length) (-(Real.pi / 2)) g.dc n + rms * z n := by
    intro n hn
    rw [hl] at hn ⊢
    rw [hrow, List.getD_eq_getElem?_getD, List.getElem?_map, List.getElem?_range hn]
    simp only [Option.map_some, Option.getD_some]
    unfold Gen.thermal
    simp only [Gen.resolve]
    rw [base_sine g k hg]
    ring
  -- the power in the band
  have hband := band_scale g.n M hN0 hMN rms z
  obtain ⟨β, hβ⟩ : ∃ β, β = 2 / (g.n : ℝ) ^ 2 * (M * ∑ i ∈ range g.n, z i ^ 2 + 2 * pairSum (bandKernel g.n M) z g.n) := ⟨_, rfl⟩
  rw [← hβ] at hband
  obtain ⟨hβl, hβu⟩ := band_close (g.n : ℝ) M (∑ i ∈ range g.n, z i ^ 2) (pairSum (bandKernel g.n M) z g.n) η hN hMR d1 d2 f1 f2
  rw [← hβ, hshare] at hβl hβu
  -- the power in the bin of the sine
  have hu := bin_scale g.n k hN0 rms z
  obtain ⟨u, hu'⟩ : ∃ u, u = 2 / (g.n : ℝ) * ‖dft g.n (fun m => ((rms * z m : ℝ) : ℂ)) k‖ := ⟨_, rfl⟩
  rw [← hu'] at hu
  have hu0 : 0 ≤ u := by rw [hu']; positivity
  have hr2 : 0 < rms ^ 2 := by positivity
  have hP : 0 < rms ^ 2 / a.osr := by positivity
  have hu2 : u ^ 2 ≤ η * (rms ^ 2 / a.osr) := by
    rw [hu]
    calc _ ≤ rms ^ 2 * (η / a.osr) := mul_le_mul_of_nonneg_left c2 hr2.le
      _ = _ := by ring
  have hbu : rms ^ 2 * β ≤ rms ^ 2 / a.osr * (1 + η) := by
    calc rms ^ 2 * β ≤ rms ^ 2 * (1 / a.osr * (1 + η)) := mul_le_mul_of_nonneg_left hβu.le hr2.le
      _ = _ := by ring
  have hbl : rms ^ 2 / a.osr * (1 - η) ≤ rms ^ 2 * β := by
    calc _ = rms ^ 2 * (1 / a.osr * (1 - η)) := by ring
      _ ≤ rms ^ 2 * β := mul_le_mul_of_nonneg_left hβl.le hr2.le
  have hβ0 : 0 ≤ rms ^ 2 * β := le_trans (mul_nonneg hP.le (by linarith)) hbl
  have hsq := Real.sq_sqrt hβ0
  have hs0 := Real.sqrt_nonneg (rms ^ 2 * β)
  obtain ⟨r, t1, t2, _, _, Am, g1, g3⟩ := in_band_report lib a ha row V hV (hpk row) (M + 1) (by rw [hl]; exact inband_exact g.n M a.osr hMp (by omega) hedge) k hk (by omega)
    (by rw [hl]; exact hkN) g.a (-(Real.pi / 2)) g.dc (Real.sqrt (rms ^ 2 * β)) (fun n => rms * z n) hrow' hs0 (by rw [hl, hsq, Nat.add_sub_cancel, hband])
    (by
      by_contra hcon
      push Not at hcon
      have := pow_le_pow_left₀ hA.le hcon 2
      rw [mul_pow, hsq] at this
      have h3 := mul_le_mul_of_nonneg_left (by linarith : 1 + η ≤ 3 / 2) hP.le
      linarith)
  refine ⟨r, t1, t2, ?_⟩
  rw [hl, ← hu'] at g1 g3
  rw [Nat.add_sub_cancel, hband] at g3
  have hus : u ≤ Real.sqrt (η * (rms ^ 2 / a.osr)) := Real.le_sqrt_of_sq_le hu2
  obtain ⟨w1, w2⟩ := abs_le.mp g1
  have hq2 := Real.sq_sqrt (mul_nonneg hη.le hP.le)
  have hq0 := Real.sqrt_nonneg (η * (rms ^ 2 / a.osr))
  have hlow0 : 0 ≤ g.a - Real.sqrt (η * (rms ^ 2 / a.osr)) := by
    have : Real.sqrt (η * (rms ^ 2 / a.osr)) ≤ g.a := by
      apply le_of_sq_le_sq _ hA.le
      rw [hq2]
      have := mul_le_mul_of_nonneg_right hη1 hP.le
      linarith
    linarith
  have hV2 : 0 < V ^ 2 / 2 / 10 ^ 20 := by positivity
  rw [g3]
  exact report_close g.a Am u (Real.sqrt (η * (rms ^ 2 / a.osr))) (rms ^ 2 * β) (rms ^ 2 / a.osr) η _ hη hη1 hP hu2 hus hbu hbl w1 w2 hlow0 hV2

/-! ## Its spread -/

section prob
variable {Ω : Type} [MeasurableSpace Ω] (μ : Measure Ω) [IsProbabilityMeasure μ]

/-- A draw is independent of everything made of earlier draws. -/
private theorem indep_earlier (Z : ℕ → Ω → ℝ) (hind : iIndepFun Z μ) (hm : ∀ i, AEMeasurable (Z i) μ) (N : ℕ) (G : (ℕ → ℝ) → ℝ) (hG : Measurable G)
    (hdep : ∀ x y : ℕ → ℝ, (∀ i < N, x i = y i) → G x = G y) : IndepFun (fun ω => G fun i => Z i ω) (Z N) μ := by
  have h := hind.indepFun_finset₀ (range N) {N} (by simp) hm
  have hext : Measurable fun (v : range N → ℝ) => (fun i : ℕ => if h : i ∈ range N then v ⟨i, h⟩ else 0) := by
    refine measurable_pi_lambda _ fun i => ?_
    by_cases hi : i ∈ range N
    · simp only [hi, dite_true]
      exact measurable_pi_apply _
    · simp only [hi, dite_false]
      exact measurable_const
  have h2 := h.comp (hG.comp hext) (measurable_pi_apply (⟨N, mem_singleton_self N⟩ : ({N} : Finset ℕ)))
  have e1 : (G ∘ fun (v : range N → ℝ) => (fun i : ℕ => if h : i ∈ range N then v ⟨i, h⟩ else 0)) ∘ (fun a (i : range N) => Z i a) = fun ω => G fun i => Z i ω := by
    funext ω
    apply hdep
    intro i hi
    simp [hi]
  rw [e1] at h2
  exact h2

/-- Mean square of a sum over pairs of independent draws. -/
private theorem pair_sq (Z : ℕ → Ω → ℝ) (hind : iIndepFun Z μ) (h2 : ∀ i, MemLp (Z i) 2 μ) (hmean : ∀ i, ∫ ω, Z i ω ∂μ = 0) (hvar : ∀ i, Var[Z i; μ] = 1) (c : ℕ → ℕ → ℝ) :
    ∀ N : ℕ, MemLp (fun ω => pairSum c (fun i => Z i ω) N) 2 μ ∧ ∫ ω, pairSum c (fun i => Z i ω) N ^ 2 ∂μ = ∑ j ∈ range N, ∑ i ∈ range j, c i j ^ 2
  | 0 => by
    constructor
    · simp [pairSum]
    · simp [pairSum]
  | N + 1 => by
    obtain ⟨o1, o2⟩ := pair_sq Z hind h2 hmean hvar c N
    have hm : ∀ i, AEMeasurable (Z i) μ := fun i => (h2 i).aestronglyMeasurable.aemeasurable
    obtain ⟨S, hS⟩ : ∃ S : (ℕ → ℝ) → ℝ, S = fun x => ∑ i ∈ range N, x i * c i N := ⟨_, rfl⟩
    obtain ⟨O, hO⟩ : ∃ O : (ℕ → ℝ) → ℝ, O = fun x => pairSum c x N := ⟨_, rfl⟩
    have hSd : ∀ x y : ℕ → ℝ, (∀ i < N, x i = y i) → S x = S y := fun x y h => by
      rw [hS]
      exact sum_congr rfl fun i hi => by rw [h i (mem_range.mp hi)]
    have hOd : ∀ x y : ℕ → ℝ, (∀ i < N, x i = y i) → O x = O y := fun x y h => by
      rw [hO]
      refine sum_congr rfl fun j hj => ?_
      rw [h j (mem_range.mp hj)]
      congr 1
      exact sum_congr rfl fun i hi => by rw [h i (by rw [mem_range] at hi hj; omega)]
    have hSm : Measurable S := by rw [hS]; fun_prop
    have hOm : Measurable O := by rw [hO]; unfold pairSum; fun_prop
    obtain ⟨_, s2⟩ := weighted_sq μ N Z 1 (fun i _ => h2 i) (fun i _ => hmean i) (fun i _ => by rw [hvar]; norm_num) (fun i _ j _ hij => hind.indepFun hij) (fun i => c i N)
    have sL : MemLp (fun ω => S fun i => Z i ω) 2 μ := by
      rw [hS]
      exact memLp_finset_sum _ fun i _ => (h2 i).mul_const _
    have oL : MemLp (fun ω => O fun i => Z i ω) 2 μ := by rw [hO]; exact o1
    have i1 : IndepFun (fun ω => (S fun i => Z i ω) * (O fun i => Z i ω)) (Z N) μ :=
      indep_earlier μ Z hind hm N (fun x => S x * O x) (hSm.mul hOm) fun x y h => by rw [hSd x y h, hOd x y h]
    have i2 : IndepFun (fun ω => (S fun i => Z i ω) ^ 2) (fun ω => Z N ω ^ 2) μ :=
      (indep_earlier μ Z hind hm N (fun x => S x ^ 2) (hSm.pow_const 2) fun x y h => by rw [hSd x y h]).comp measurable_id (measurable_id.pow_const 2)
    have soI : Integrable (fun ω => (S fun i => Z i ω) * (O fun i => Z i ω)) μ := sL.integrable_mul oL
    have j1 : Integrable (fun ω => (S fun i => Z i ω) * (O fun i => Z i ω) * Z N ω) μ := i1.integrable_mul soI ((h2 N).integrable (by norm_num))
    have j2 : Integrable (fun ω => (S fun i => Z i ω) ^ 2 * Z N ω ^ 2) μ := i2.integrable_mul sL.integrable_sq (h2 N).integrable_sq
    have k1 : ∫ ω, (S fun i => Z i ω) * (O fun i => Z i ω) * Z N ω ∂μ = 0 := by
      rw [i1.integral_fun_mul_eq_mul_integral soI.1 (h2 N).1, hmean, mul_zero]
    have hZ2 : ∫ ω, Z N ω ^ 2 ∂μ = 1 := by
      rw [← variance_of_integral_eq_zero (hm N) (hmean N), hvar]
    have k2 : ∫ ω, (S fun i => Z i ω) ^ 2 * Z N ω ^ 2 ∂μ = ∑ i ∈ range N, c i N ^ 2 := by
      rw [i2.integral_fun_mul_eq_mul_integral sL.integrable_sq.1 (h2 N).integrable_sq.1, hZ2, mul_one]
      rw [hS]
      rw [s2]
      norm_num
    have hstep : ∀ ω, pairSum c (fun i => Z i ω) (N + 1) = (O fun i => Z i ω) + (S fun i => Z i ω) * Z N ω := by
      intro ω
      rw [hO, hS]
      unfold pairSum
      rw [sum_range_succ]
      congr 1
      rw [mul_comm]
      congr 1
      exact sum_congr rfl fun i _ => mul_comm _ _
    have szL : MemLp (fun ω => (S fun i => Z i ω) * Z N ω) 2 μ := by
      refine (memLp_two_iff_integrable_sq (f := fun ω => (S fun i => Z i ω) * Z N ω) (sL.1.mul (h2 N).1)).mpr ?_
      simp only [mul_pow]
      exact j2
    refine ⟨?_, ?_⟩
    · simp only [hstep]
      exact oL.add szL
    · simp only [hstep]
      have e : (fun ω => ((O fun i => Z i ω) + (S fun i => Z i ω) * Z N ω) ^ 2)
          = fun ω => (O fun i => Z i ω) ^ 2 + 2 * ((S fun i => Z i ω) * (O fun i => Z i ω) * Z N ω) + (S fun i => Z i ω) ^ 2 * Z N ω ^ 2 := by
        funext ω; ring
      have a1 : Integrable (fun ω => (O fun i => Z i ω) ^ 2 + 2 * ((S fun i => Z i ω) * (O fun i => Z i ω) * Z N ω)) μ := oL.integrable_sq.add (j1.const_mul 2)
      rw [e, integral_add a1 j2, integral_add oL.integrable_sq (j1.const_mul 2), integral_const_mul, k1, k2, mul_zero, add_zero, sum_range_succ, ← o2, hO]

/-- Markov's inequality for the pairs. -/
private theorem pair_tail (Z : ℕ → Ω → ℝ) (hind : iIndepFun Z μ) (h2 : ∀ i, MemLp (Z i) 2 μ) (hmean : ∀ i, ∫ ω, Z i ω ∂μ = 0) (hvar : ∀ i, Var[Z i; μ] = 1)
    (N M : ℕ) (hM : 2 * M < N) (t : ℝ) (ht : 0 < t) : μ.real {ω | t ≤ |pairSum (bandKernel N M) (fun i => Z i ω) N|} ≤ (N : ℝ) ^ 2 * M / 4 / t ^ 2 := by
  obtain ⟨p1, p2⟩ := pair_sq μ Z hind h2 hmean hvar (bandKernel N M) N
  have hmk := mul_meas_ge_le_integral_of_nonneg (Filter.Eventually.of_forall fun ω => sq_nonneg _) p1.integrable_sq (t ^ 2)
  rw [p2] at hmk
  rw [le_div_iff₀ (by positivity), mul_comm]
  have he : {ω | t ≤ |pairSum (bandKernel N M) (fun i => Z i ω) N|} = {ω | t ^ 2 ≤ pairSum (bandKernel N M) (fun i => Z i ω) N ^ 2} := by
    ext ω
    rw [Set.mem_setOf_eq, Set.mem_setOf_eq, ← sq_abs (pairSum _ _ _)]
    exact ⟨fun h => pow_le_pow_left₀ ht.le h 2, fun h => le_of_sq_le_sq h (abs_nonneg _)⟩
  rw [he]
  exact hmk.trans (kernel_pairs N M hM)

/-- **C160 (oversampled white noise).** `apply_thermal_noise` on a coherent sine inside the band, analysed at an oversampling ratio whose band edge is a bin: except with
probability `(11 osr + 4 K) / (N η²)` the report finds the sine, and its SNDR is that of noise of power `rms² / osr`, within `η`. The noise of the whole band may be far above the
sine. -/
theorem C160_oversampled (g : Gen) (k : ℕ) (hg : CoherentGen g k) (hA : 0 < g.a) (rms : ℝ) (hr : 0 < rms) (Z : ℕ → Ω → ℝ)
    (h2 : ∀ i, MemLp (Z i) 2 μ) (hmean : ∀ i, ∫ ω, Z i ω ∂μ = 0) (hvar : ∀ i, Var[Z i; μ] = 1) (h4 : ∀ i, MemLp (fun ω => Z i ω ^ 2) 2 μ)
    (K : ℝ) (hK : ∀ i, ∫ ω, Z i ω ^ 4 ∂μ ≤ K) (hind : iIndepFun Z μ)
    (lib : WinLib) (a : SpectrumArgs) (ha : InBandCall a) (M : ℕ) (hkM : k ≤ M) (hosr : 1 < a.osr) (hedge : a.osr * (2 * M) = g.n)
    (hsmall : 8 * (rms ^ 2 / a.osr) < g.a ^ 2) (V : ℝ) (hV : 0 < V) (hpk : ∀ row, peakAmplitude [row] a.scale = .ok V)
    (η : ℝ) (hη : 0 < η) (hη1 : η ≤ 1 / 2) :
    μ.real {ω | ¬ ∃ r, computeSpectrum lib [(List.range g.n).map (g.thermal none rms fun i => Z i ω)] a = .ok r ∧ r.fundamentalBin = k ∧
      dB ((g.a - Real.sqrt (η * (rms ^ 2 / a.osr))) ^ 2 / 2 / (rms ^ 2 / a.osr * (1 + η) + V ^ 2 / 2 / 10 ^ 20)) ≤ r.sndr ∧
      r.sndr ≤ dB ((g.a + Real.sqrt (η * (rms ^ 2 / a.osr))) ^ 2 / 2 / (rms ^ 2 / a.osr * (1 - 3 / 2 * η)))} ≤ (11 * a.osr + 4 * K) / (g.n * η ^ 2) := by
  obtain ⟨_, _, hk, hkN⟩ := id hg
  have hN0 : 0 < g.n := by omega
  have hN : (0 : ℝ) < g.n := by exact_mod_cast hN0
  have hMp : 0 < M := by omega
  have hMR : (0 : ℝ) < M := by exact_mod_cast hMp
  have hMN : 2 * M < g.n := by
    have : (2 * M : ℝ) < g.n := by nlinarith
    exact_mod_cast this
  have hZ2 : ∀ i, ∫ ω, Z i ω ^ 2 ∂μ = 1 := by
    intro i
    rw [← variance_of_integral_eq_zero (h2 i).aestronglyMeasurable.aemeasurable (hmean i), hvar]
  have hvar4 : ∑ i ∈ range g.n, Var[fun ω => Z i ω ^ 2; μ] ≤ g.n * (K - 1) := by
    have : ∀ i ∈ range g.n, Var[fun ω => Z i ω ^ 2; μ] ≤ K - 1 := by
      intro i _
      rw [variance_eq_sub (h4 i)]
      have h6 : μ[(fun ω => Z i ω ^ 2) ^ 2] = ∫ ω, Z i ω ^ 4 ∂μ := by
        apply integral_congr_ae
        filter_upwards with ω
        simp only [Pi.pow_apply]
        ring
      rw [h6, hZ2]
      have := hK i
      linarith
    refine (sum_le_sum this).trans (le_of_eq ?_)
    rw [sum_const, card_range, nsmul_eq_mul]
  have p1 := sum_sq_tail μ g.n Z (fun i _ => h4 i) (fun i _ j _ hij => hind.indepFun hij) (g.n * (η / 2)) (by positivity)
  rw [sum_congr rfl fun i _ => hZ2 i, sum_const, card_range, nsmul_eq_mul, mul_one] at p1
  have p2 := projection_tail μ g.n k hk hkN Z 1 (fun i _ => h2 i) (fun i _ => hmean i) (fun i _ => by rw [hvar]; norm_num) (fun i _ j _ hij => hind.indepFun hij)
    (η / a.osr) (div_pos hη (by linarith))
  have p3 := pair_tail μ Z hind h2 hmean hvar g.n M hMN (g.n * M * η / 4) (by positivity)
  obtain ⟨B1, hB1⟩ : ∃ B, B = {ω | g.n * (η / 2) ≤ |∑ i ∈ range g.n, Z i ω ^ 2 - g.n|} := ⟨_, rfl⟩
  obtain ⟨B2, hB2⟩ : ∃ B, B = {ω | η / a.osr ≤ binCos g.n k (fun i => Z i ω) ^ 2 + binSin g.n k (fun i => Z i ω) ^ 2 + 2 * recMean g.n (fun i => Z i ω) ^ 2} := ⟨_, rfl⟩
  obtain ⟨B3, hB3⟩ : ∃ B, B = {ω | g.n * M * η / 4 ≤ |pairSum (bandKernel g.n M) (fun i => Z i ω) g.n|} := ⟨_, rfl⟩
  rw [← hB1] at p1
  rw [← hB2] at p2
  rw [← hB3] at p3
  have hsub : {ω | ¬ ∃ r, computeSpectrum lib [(List.range g.n).map (g.thermal none rms fun i => Z i ω)] a = .ok r ∧ r.fundamentalBin = k ∧
      dB ((g.a - Real.sqrt (η * (rms ^ 2 / a.osr))) ^ 2 / 2 / (rms ^ 2 / a.osr * (1 + η) + V ^ 2 / 2 / 10 ^ 20)) ≤ r.sndr ∧
      r.sndr ≤ dB ((g.a + Real.sqrt (η * (rms ^ 2 / a.osr))) ^ 2 / 2 / (rms ^ 2 / a.osr * (1 - 3 / 2 * η)))} ⊆ (B1 ∪ B2) ∪ B3 := by
    intro ω hω
    by_contra hc
    rw [Set.mem_union, Set.mem_union, not_or, not_or] at hc
    obtain ⟨⟨c1, c2⟩, c3⟩ := hc
    rw [hB1, Set.mem_setOf_eq] at c1
    rw [hB2, Set.mem_setOf_eq] at c2
    rw [hB3, Set.mem_setOf_eq] at c3
    push Not at c1 c2 c3
    apply hω
    exact oversampled_record g k hg hA rms hr (fun i => Z i ω) lib a ha M hkM hosr hedge hsmall V hV hpk η hη hη1 c1 (by
      have := sq_nonneg (recMean g.n fun i => Z i ω)
      linarith) c3
  refine (measureReal_mono hsub).trans ((measureReal_union_le _ _).trans ?_)
  have hM' : (M : ℝ) = g.n / (2 * a.osr) := by
    rw [eq_div_iff (by linarith)]
    linarith
  have hosr0 : 0 < a.osr := by linarith
  have b1 : μ.real B1 ≤ 4 * (K - 1) / (g.n * η ^ 2) := by
    refine p1.trans ((div_le_div_of_nonneg_right hvar4 (by positivity)).trans (le_of_eq ?_))
    field_simp
    ring
  have b2 : μ.real B2 ≤ 3 * a.osr / (g.n * η ^ 2) := by
    refine p2.trans ?_
    rw [show 6 * (1 : ℝ) ^ 2 / (g.n : ℝ) / (η / a.osr) = 6 * a.osr * η / (g.n * η ^ 2) by field_simp]
    apply div_le_div_of_nonneg_right _ (by positivity)
    nlinarith
  have b3 : μ.real B3 ≤ 8 * a.osr / (g.n * η ^ 2) := by
    refine p3.trans (le_of_eq ?_)
    rw [hM']
    field_simp
    ring
  have : (11 * a.osr + 4 * K) / (g.n * η ^ 2) = 4 * (K - 1) / (g.n * η ^ 2) + 3 * a.osr / (g.n * η ^ 2) + 8 * a.osr / (g.n * η ^ 2) + 4 / (g.n * η ^ 2) := by
    rw [← add_div, ← add_div, ← add_div]
    congr 1
    ring
  rw [this]
  have h12 := measureReal_union_le (μ := μ) B1 B2
  have h0 : 0 ≤ 4 / (g.n * η ^ 2) := by positivity
  linarith

/-- **C160 (normal noise).** With independent standard normal draws the bounds fail with probability at most `(11 osr + 12) / (N η²)`. -/
theorem C160_normal (g : Gen) (k : ℕ) (hg : CoherentGen g k) (hA : 0 < g.a) (rms : ℝ) (hr : 0 < rms) (Z : ℕ → Ω → ℝ)
    (hZ : ∀ i, AEMeasurable (Z i) μ) (hlaw : ∀ i, Measure.map (Z i) μ = gaussianReal 0 1) (hind : iIndepFun Z μ)
    (lib : WinLib) (a : SpectrumArgs) (ha : InBandCall a) (M : ℕ) (hkM : k ≤ M) (hosr : 1 < a.osr) (hedge : a.osr * (2 * M) = g.n)
    (hsmall : 8 * (rms ^ 2 / a.osr) < g.a ^ 2) (V : ℝ) (hV : 0 < V) (hpk : ∀ row, peakAmplitude [row] a.scale = .ok V)
    (η : ℝ) (hη : 0 < η) (hη1 : η ≤ 1 / 2) :
    μ.real {ω | ¬ ∃ r, computeSpectrum lib [(List.range g.n).map (g.thermal none rms fun i => Z i ω)] a = .ok r ∧ r.fundamentalBin = k ∧
      dB ((g.a - Real.sqrt (η * (rms ^ 2 / a.osr))) ^ 2 / 2 / (rms ^ 2 / a.osr * (1 + η) + V ^ 2 / 2 / 10 ^ 20)) ≤ r.sndr ∧
      r.sndr ≤ dB ((g.a + Real.sqrt (η * (rms ^ 2 / a.osr))) ^ 2 / 2 / (rms ^ 2 / a.osr * (1 - 3 / 2 * η)))} ≤ (11 * a.osr + 12) / (g.n * η ^ 2) := by
  have h := fun i => normal_draw μ (Z i) (hZ i) (hlaw i)
  refine (C160_oversampled μ g k hg hA rms hr Z (fun i => (h i).1) (fun i => (h i).2.1) (fun i => (h i).2.2.1) (fun i => (h i).2.2.2.1) 3
    (fun i => (h i).2.2.2.2.le) hind lib a ha M hkM hosr hedge hsmall V hV hpk η hη hη1).trans (le_of_eq ?_)
  norm_num

end prob

/-! ## Concrete case -/

/-- There are mutually independent standard normal draws. -/
theorem exists_mutual_draws : ∃ (Ω : Type) (_ : MeasurableSpace Ω) (μ : Measure Ω) (_ : IsProbabilityMeasure μ) (Z : ℕ → Ω → ℝ),
    (∀ i, AEMeasurable (Z i) μ) ∧ iIndepFun Z μ ∧ ∀ i, Measure.map (Z i) μ = gaussianReal 0 1 :=
  ⟨ℕ → ℝ, inferInstance, Measure.infinitePi fun _ => gaussianReal 0 1, inferInstance, fun i ω => ω i, fun i => (measurable_pi_apply i).aemeasurable,
    iIndepFun_infinitePi (P := fun _ : ℕ => gaussianReal 0 1) (X := fun _ x => x) (by fun_prop), fun i => (measurePreserving_eval_infinitePi (fun _ : ℕ => gaussianReal 0 1) i).map_eq⟩

/-- A sine of amplitude 0.49 under noise of 0.25 V rms (3 dB in the whole band), a million samples, oversampling ratio 8: the report finds the sine and an SNDR between 12 and
20.5 as a power ratio (0.49² / 2 / 0.25² · 8 is 15.4), except once in a hundred records. -/
example (lib : WinLib) : ∃ (Ω : Type) (_ : MeasurableSpace Ω) (μ : Measure Ω) (Z : ℕ → Ω → ℝ),
    μ.real {ω | ¬ ∃ r, computeSpectrum lib [(List.range 1048576).map ((Gen.mk 1048576 1000000000 (41943 * 1000000000 / 1048576) (49 / 100) (1 / 2)).thermal none (1 / 4)
      fun i => Z i ω)] { win := "boxcar", sideBin := some 0, scale := .scalar (1 / 2), osr := 8 } = .ok r ∧ r.fundamentalBin = 41943 ∧ dB 12 ≤ r.sndr ∧ r.sndr ≤ dB (41 / 2)} ≤ 1 / 100 := by
  obtain ⟨Ω, m, μ, hμ, Z, h1, h2, h3⟩ := exists_mutual_draws
  refine ⟨Ω, m, μ, Z, ?_⟩
  have := C160_normal μ (Gen.mk 1048576 1000000000 (41943 * 1000000000 / 1048576) (49 / 100) (1 / 2)) 41943 ⟨by norm_num, by norm_num, by norm_num, by norm_num⟩
    (by norm_num) (1 / 4) (by norm_num) Z h1 h3 h2 lib
    { win := "boxcar", sideBin := some 0, scale := .scalar (1 / 2), osr := 8 } ⟨Or.inl rfl, rfl, by norm_num, rfl, rfl, rfl, by norm_num, by norm_num, by norm_num⟩
    65536 (by norm_num) (by norm_num) (by norm_num) (by norm_num) (1 / 2) (by norm_num) (fun _ => rfl) (1 / 10) (by norm_num) (by norm_num)
  refine (measureReal_mono ?_).trans (this.trans (by norm_num))
  have hq : Real.sqrt (1 / 10 * ((1 / 4) ^ 2 / 8)) ≤ 28 / 1000 := by
    rw [Real.sqrt_le_left (by norm_num)]
    norm_num
  have hq0 := Real.sqrt_nonneg (1 / 10 * ((1 / 4) ^ 2 / 8))
  intro ω hω hc
  obtain ⟨r, t1, t2, t3, t4⟩ := hc
  refine hω ⟨r, t1, t2, le_trans ?_ t3, t4.trans ?_⟩
  · apply dB_mono (by norm_num)
    simp only
    rw [le_div_iff₀ (by norm_num)]
    generalize Real.sqrt (1 / 10 * ((1 / 4) ^ 2 / 8)) = q at *
    nlinarith
  · apply dB_mono (div_nonneg (div_nonneg (sq_nonneg _) (by norm_num)) (by norm_num))
    simp only
    rw [div_le_iff₀ (by norm_num)]
    generalize Real.sqrt (1 / 10 * ((1 / 4) ^ 2 / 8)) = q at *
    nlinarith

end Verif
