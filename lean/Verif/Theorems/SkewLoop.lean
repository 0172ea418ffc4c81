import Verif.Proofs.SkewLoop
import Verif.Theorems.DelayLine
import Verif.Theorems.Interleave
import Mathlib.Analysis.SpecialFunctions.Integrals.Basic
import Mathlib.MeasureTheory.Integral.IntervalIntegral.Periodic
import Mathlib.Analysis.Real.Pi.Bounds

/-!
# C94: background skew calibration
-/

namespace Verif

open Model Finset

section Steps
variable {K : Type} [Field K] [LinearOrder K]

/-- **C94 (what is measured).** For `R` samples per channel, entry `i` of the measurement is the summed absolute difference between each sample of
channel `i` and the very next sample of the interleaved record, over the first `R - 1` rounds; the last entry pairs the last channel with channel 0 of
the following round. -/
theorem C94_mad_intervals (x : List K) (M R : ℕ) (hM : M ≠ 0) (hx : x.length = R * M) :
    ∃ ch, deinterleave 1 x (M : ℤ) = .ok ch ∧
      madOf (madRows ch) = (List.range M).map fun i => ∑ k ∈ range (R - 1), |x.getD (k * M + i + 1) 0 - x.getD (k * M + i) 0| := by
  have hdiv : x.length / M = R := by rw [hx]; exact Nat.mul_div_cancel _ (Nat.pos_of_ne_zero hM)
  refine ⟨(List.range M).map fun c => (List.range R).map fun r => x.getD (r * M + c) 0, ?_, ?_⟩
  · unfold deinterleave
    have h1 : ((x.length : ℤ)) % (M : ℤ) = 0 := by rw [hx]; push_cast; exact Int.mul_emod_left _ _
    rw [if_neg (by simp), if_neg (by omega), if_neg (by simp [h1])]
    simp only [Int.toNat_natCast, hdiv]
  · have hrow : ∀ i < M, (madRows ((List.range M).map fun c => (List.range R).map fun r => x.getD (r * M + c) 0)).getD i [] =
        (List.range (R - 1)).map fun r => x.getD (r * M + i) 0 := by
      intro i hi
      unfold madRows
      rw [List.getD_eq_getElem?_getD, List.getElem?_append_left (by simpa using hi), List.getElem?_map, List.getElem?_map, List.getElem?_range hi]
      simp only [Option.map_some, Option.getD_some]
      rw [List.dropLast_eq_take, List.length_map, List.length_range, ← List.map_take, List.take_range]
      congr 2
      omega
    have hlast : (madRows ((List.range M).map fun c => (List.range R).map fun r => x.getD (r * M + c) 0)).getD M [] =
        (List.range (R - 1)).map fun r => x.getD (r * M + M) 0 := by
      unfold madRows
      rw [List.getD_eq_getElem?_getD, List.getElem?_append_right (by simp)]
      obtain ⟨M', rfl⟩ := Nat.exists_eq_succ_of_ne_zero hM
      simp only [List.length_map, List.length_range, Nat.sub_self, List.getElem?_cons_zero, Option.getD_some]
      rw [show ((List.range (M' + 1)).map fun c => (List.range R).map fun r => x.getD (r * (M' + 1) + c) 0).headD [] =
          (List.range R).map fun r => x.getD (r * (M' + 1) + 0) 0 by rw [List.range_succ_eq_map]; rfl]
      apply List.ext_getElem
      · simp
      · intro k h1 h2
        simp only [List.getElem_drop, List.getElem_map, List.getElem_range]
        congr 1
        simp only [Nat.succ_eq_add_one]
        ring
    have hlen : (madRows ((List.range M).map fun c => (List.range R).map fun r => x.getD (r * M + c) 0)).length = M + 1 := by simp [madRows]
    unfold madOf
    rw [hlen, Nat.add_sub_cancel]
    apply List.map_congr_left
    intro i hi
    rw [List.mem_range] at hi
    have hnext : (madRows ((List.range M).map fun c => (List.range R).map fun r => x.getD (r * M + c) 0)).getD (i + 1) [] =
        (List.range (R - 1)).map fun r => x.getD (r * M + (i + 1)) 0 := by
      by_cases h : i + 1 < M
      · exact hrow (i + 1) h
      · rw [show i + 1 = M by omega]; exact hlast
    rw [hrow i hi, hnext, List.zipWith_map, List.zipWith_self, list_sum_map_range]
    rfl


/-- **C94 (one update).** Channel 0 keeps its code. A channel above the fair line moves one code down and any other one code up, except that a code at
the end of its line stays there; every code stays on its line. -/
theorem C94_step (mad : List K) (n : ℕ → ℕ) (codes : ℕ → ℤ) (m : ℕ) (h0 : 0 ≤ codes m) (h1 : codes m < n m) :
    madUpdate mad n codes 0 = codes 0 ∧ (0 ≤ madUpdate mad n codes m ∧ madUpdate mad n codes m < n m) ∧
      (m ≠ 0 → ((m : K) * (mad.sum / mad.length) < (mad.take m).sum → madUpdate mad n codes m = if codes m = 0 then 0 else codes m - 1) ∧
        (¬ (m : K) * (mad.sum / mad.length) < (mad.take m).sum → madUpdate mad n codes m = if codes m = n m - 1 then codes m else codes m + 1)) := by
  refine ⟨rfl, ?_⟩
  by_cases hm : m = 0
  · subst hm
    exact ⟨⟨h0, h1⟩, fun h => absurd rfl h⟩
  unfold madUpdate
  rw [if_neg hm]
  unfold trimStep madAbove clip
  rw [show m - 1 + 1 = m by omega]
  refine ⟨?_, fun _ => ⟨fun ha => ?_, fun ha => ?_⟩⟩
  · constructor <;> omega
  · rw [decide_eq_true ha]
    simp only [if_true]
    split_ifs with h <;> omega
  · rw [decide_eq_false ha]
    simp only [Bool.false_eq_true, if_false]
    split_ifs with h <;> omega

end Steps

/-! ## What the measurement says about the skews -/

/-- The time between a sample of channel `i` and the next sample of the record. -/
noncomputable def interval (M : ℕ) (fs : ℝ) (skew : ℕ → ℝ) (i : ℕ) : ℝ := 1 / fs + (skew ((i + 1) % M) - skew i)

private theorem diff_abs (M : ℕ) (hM : M ≠ 0) (fs fin amp φ : ℝ) (skew : ℕ → ℝ) (i k : ℕ) (hi : i < M) :
    |captureTone M fs fin amp φ skew (k * M + i + 1) - captureTone M fs fin amp φ skew (k * M + i)| =
      2 * |amp| * |Real.sin (Real.pi * fin * interval M fs skew i)| *
        |Real.sin (Real.pi * fin * ((2 * i + 1) / fs + skew ((i + 1) % M) + skew i) + φ + k * (2 * Real.pi * fin * M / fs))| := by
  have e1 : (k * M + i) % M = i := by rw [Nat.add_mod, Nat.mul_mod_left, zero_add, Nat.mod_mod, Nat.mod_eq_of_lt hi]
  have e2 : (k * M + i + 1) % M = (i + 1) % M := by rw [add_assoc, Nat.add_mod, Nat.mul_mod_left, zero_add, Nat.mod_mod]
  unfold captureTone
  rw [e1, e2, ← mul_sub, Real.cos_sub_cos]
  have e3 : (2 * Real.pi * fin * (((k * M + i + 1 : ℕ) : ℝ) * (1 / fs) + skew ((i + 1) % M)) + φ +
      (2 * Real.pi * fin * (((k * M + i : ℕ) : ℝ) * (1 / fs) + skew i) + φ)) / 2 =
      Real.pi * fin * ((2 * i + 1) / fs + skew ((i + 1) % M) + skew i) + φ + k * (2 * Real.pi * fin * M / fs) := by
    push_cast
    ring
  have e4 : (2 * Real.pi * fin * (((k * M + i + 1 : ℕ) : ℝ) * (1 / fs) + skew ((i + 1) % M)) + φ -
      (2 * Real.pi * fin * (((k * M + i : ℕ) : ℝ) * (1 / fs) + skew i) + φ)) / 2 = Real.pi * fin * interval M fs skew i := by
    unfold interval
    push_cast
    ring
  rw [e3, e4, abs_mul, abs_mul, abs_mul, abs_neg, abs_two]
  ring

/-- **C94 (average over the start phase).** The measurement of interval `i`, averaged over a uniformly distributed start phase, is
`(4/π) · amp · |sin(π fin Δ)|` per pair, where `Δ` is the time between the two samples - for every frequency, coherent or not. -/
theorem C94_expected_mad (M : ℕ) (hM : M ≠ 0) (fs fin amp : ℝ) (skew : ℕ → ℝ) (R i : ℕ) (hi : i < M) :
    (1 / (2 * Real.pi)) * ∫ φ in (0 : ℝ)..(2 * Real.pi), ∑ k ∈ range R, |captureTone M fs fin amp φ skew (k * M + i + 1) -
        captureTone M fs fin amp φ skew (k * M + i)| = R * (4 / Real.pi * |amp| * |Real.sin (Real.pi * fin * interval M fs skew i)|) := by
  have hp := Real.pi_pos
  have hper : Function.Periodic (fun t : ℝ => |Real.sin t|) (2 * Real.pi) := fun t => by simp only [Real.sin_add_two_pi]
  have hint : ∀ c : ℝ, ∫ φ in (0 : ℝ)..(2 * Real.pi), |Real.sin (c + φ)| = 4 := by
    intro c
    rw [intervalIntegral.integral_comp_add_left (fun t => |Real.sin t|) c, add_zero, hper.intervalIntegral_add_eq c 0, zero_add]
    have h1 : ∫ t in (0 : ℝ)..Real.pi, |Real.sin t| = 2 := by
      rw [intervalIntegral.integral_congr (g := Real.sin) (fun t ht => ?_), integral_sin]
      · simp; norm_num
      · rw [Set.uIcc_of_le hp.le] at ht
        exact abs_of_nonneg (Real.sin_nonneg_of_mem_Icc ht)
    have h2 : ∫ t in Real.pi..(2 * Real.pi), |Real.sin t| = 2 := by
      have h3 := intervalIntegral.integral_comp_add_right (a := 0) (b := Real.pi) (fun t => |Real.sin t|) Real.pi
      rw [zero_add, ← two_mul] at h3
      rw [← h3]
      simp only [Real.sin_add_pi, abs_neg]
      exact h1
    have hc : Continuous fun t : ℝ => |Real.sin t| := Real.continuous_sin.abs
    rw [← intervalIntegral.integral_add_adjacent_intervals (hc.intervalIntegrable 0 Real.pi) (hc.intervalIntegrable _ _), h1, h2]
    norm_num
  have hterm : ∀ k : ℕ, ∫ φ in (0 : ℝ)..(2 * Real.pi), |captureTone M fs fin amp φ skew (k * M + i + 1) - captureTone M fs fin amp φ skew (k * M + i)| =
      2 * |amp| * |Real.sin (Real.pi * fin * interval M fs skew i)| * 4 := by
    intro k
    simp only [diff_abs M hM fs fin amp _ skew i k hi]
    rw [intervalIntegral.integral_const_mul]
    congr 1
    rw [← hint (Real.pi * fin * ((2 * i + 1) / fs + skew ((i + 1) % M) + skew i) + k * (2 * Real.pi * fin * M / fs))]
    apply intervalIntegral.integral_congr
    intro φ _
    simp only
    congr 2
    ring
  rw [intervalIntegral.integral_finset_sum]
  · rw [sum_congr rfl fun k _ => hterm k]
    simp only [sum_const, card_range, nsmul_eq_mul]
    field_simp
  · intro k _
    simp only [diff_abs M hM fs fin amp _ skew i k hi]
    apply Continuous.intervalIntegrable
    exact continuous_const.mul (Real.continuous_sin.comp ((continuous_const.add continuous_id).add continuous_const)).abs

/-- The relative error of one measurement: `Q` distinct phases, `N` samples per channel, samples within `ε` of the clean ones. -/
noncomputable def madError (Q N : ℕ) (amp ε : ℝ) : ℝ := Real.pi ^ 2 / (8 * Q ^ 2) + Real.pi / (2 * N) + Real.pi * ε / (2 * amp)

/-- **C94 (any start phase).** For a coherent tone (`2 fin M / fs = b / Q` in lowest terms, a whole number of periods per channel) and every start phase,
every measurement is the same constant times `|sin(π fin Δ)|` up to the relative error `madError`, when each sample is within `ε` of the clean tone. -/
theorem C94_any_start_phase (M : ℕ) (hM : M ≠ 0) (fs fin amp ε : ℝ) (hA : 0 < amp) (Q R b : ℕ) (hQ : Q ≠ 0) (hR : R ≠ 0) (hb : Nat.Coprime b Q)
    (hcoh : 2 * fin * M / fs = b / Q) :
    ∃ c, 0 < c ∧ ∀ (φ : ℝ) (skew : ℕ → ℝ) (y : ℕ → ℝ), (∀ n < R * Q * M, |y n - captureTone M fs fin amp φ skew n| ≤ ε) → ∀ i < M,
      |∑ k ∈ range (R * Q - 1), |y (k * M + i + 1) - y (k * M + i)| - c * (|Real.sin (Real.pi * fin * interval M fs skew i)|)|
        ≤ c * madError Q (R * Q) amp ε := by
  have hQ' : (0 : ℝ) < Q := by exact_mod_cast Nat.pos_of_ne_zero hQ
  have hR' : (0 : ℝ) < R := by exact_mod_cast Nat.pos_of_ne_zero hR
  have hp := Real.pi_pos
  set C := R / Real.sin (Real.pi / (2 * Q)) with hC
  have hCb : 2 * ((R : ℝ) * Q) / Real.pi ≤ C := (phase_sum Q R b hQ hR hb 0).2
  have hCpos : 0 < C := lt_of_lt_of_le (by positivity) hCb
  refine ⟨2 * amp * C, by positivity, fun φ skew y hy i hi => ?_⟩
  have hNpos : 0 < R * Q := Nat.mul_pos (Nat.pos_of_ne_zero hR) (Nat.pos_of_ne_zero hQ)
  have hε : 0 ≤ ε := (abs_nonneg _).trans (hy 0 (Nat.mul_pos hNpos (Nat.pos_of_ne_zero hM)))
  set σ := |Real.sin (Real.pi * fin * interval M fs skew i)| with hσ
  have hσ0 : 0 ≤ σ := abs_nonneg _
  have hσ1 : σ ≤ 1 := Real.abs_sin_le_one _
  set θ := Real.pi * fin * ((2 * i + 1) / fs + skew ((i + 1) % M) + skew i) + φ with hθ
  set S := ∑ k ∈ range (R * Q - 1), |Real.sin (θ + k * (b * (Real.pi / Q)))| with hS
  have hSb := (phase_sum Q R b hQ hR hb θ).1
  rw [← hC, ← hS] at hSb
  have hclean : ∑ k ∈ range (R * Q - 1), |captureTone M fs fin amp φ skew (k * M + i + 1) - captureTone M fs fin amp φ skew (k * M + i)| = 2 * amp * σ * S := by
    rw [hS, mul_sum]
    apply sum_congr rfl
    intro k _
    have e : 2 * Real.pi * fin * M / fs = b * (Real.pi / Q) := by
      calc 2 * Real.pi * fin * M / fs = Real.pi * (2 * fin * M / fs) := by ring
        _ = b * (Real.pi / Q) := by rw [hcoh]; ring
    rw [diff_abs M hM fs fin amp φ skew i k hi, abs_of_pos hA, e]
  have hnoise : |∑ k ∈ range (R * Q - 1), |y (k * M + i + 1) - y (k * M + i)| - 2 * amp * σ * S| ≤ (R * Q) * (2 * ε) := by
    rw [← hclean, ← sum_sub_distrib]
    calc _ ≤ ∑ k ∈ range (R * Q - 1), |(|y (k * M + i + 1) - y (k * M + i)| -
            |captureTone M fs fin amp φ skew (k * M + i + 1) - captureTone M fs fin amp φ skew (k * M + i)|)| := abs_sum_le_sum_abs _ _
      _ ≤ ∑ _k ∈ range (R * Q - 1), 2 * ε := by
          apply sum_le_sum
          intro k hk
          rw [mem_range] at hk
          have hb1 : k * M + i + 1 < R * Q * M := by
            have : (k + 2) * M ≤ R * Q * M := Nat.mul_le_mul_right M (by omega)
            nlinarith
          have n1 := hy (k * M + i + 1) hb1
          have n2 := hy (k * M + i) (by omega)
          refine (abs_abs_sub_abs_le _ _).trans ?_
          rw [abs_le] at n1 n2 ⊢
          constructor <;> linarith [n1.1, n1.2, n2.1, n2.2]
      _ = ((R * Q - 1 : ℕ) : ℝ) * (2 * ε) := by simp
      _ ≤ (R * Q) * (2 * ε) := by
          apply mul_le_mul_of_nonneg_right _ (by positivity)
          have : ((R * Q - 1 : ℕ) : ℝ) ≤ ((R * Q : ℕ) : ℝ) := by exact_mod_cast Nat.sub_le _ _
          push_cast at this
          exact this
  have hmain : |2 * amp * σ * S - 2 * amp * C * σ| ≤ 2 * amp * (Real.pi ^ 2 / (8 * Q ^ 2) * C + 1) := by
    rw [show 2 * amp * σ * S - 2 * amp * C * σ = 2 * amp * σ * (S - C) by ring, abs_mul, abs_of_nonneg (by positivity)]
    calc 2 * amp * σ * |S - C| ≤ 2 * amp * 1 * (Real.pi ^ 2 / (8 * Q ^ 2) * C + 1) := by
          apply mul_le_mul _ hSb (abs_nonneg _) (by positivity)
          exact mul_le_mul_of_nonneg_left hσ1 (by positivity)
      _ = _ := by ring
  have k1 : 2 * amp * (Real.pi ^ 2 / (8 * Q ^ 2) * C + 1) ≤ 2 * amp * C * (Real.pi ^ 2 / (8 * Q ^ 2) + Real.pi / (2 * (R * Q))) := by
    have : 1 ≤ C * (Real.pi / (2 * (R * Q))) := by
      calc (1 : ℝ) = 2 * ((R : ℝ) * Q) / Real.pi * (Real.pi / (2 * (R * Q))) := by field_simp
        _ ≤ _ := mul_le_mul_of_nonneg_right hCb (by positivity)
    have h2 := mul_le_mul_of_nonneg_left this (by positivity : 0 ≤ 2 * amp)
    nlinarith
  have k2 : (R * Q) * (2 * ε) ≤ 2 * amp * C * (Real.pi * ε / (2 * amp)) := by
    calc ((R : ℝ) * Q) * (2 * ε) = 2 * amp * (2 * (R * Q) / Real.pi) * (Real.pi * ε / (2 * amp)) := by field_simp
      _ ≤ _ := by
        apply mul_le_mul_of_nonneg_right _ (by positivity)
        exact mul_le_mul_of_nonneg_left hCb (by positivity)
  unfold madError
  push_cast
  have ht := abs_sub_le (∑ k ∈ range (R * Q - 1), |y (k * M + i + 1) - y (k * M + i)|) (2 * amp * σ * S) (2 * amp * C * σ)
  linarith

/-- How strongly the skews of the other channels disturb a decision (per squared skew). -/
noncomputable def skewCoupling (M : ℕ) (fs fin : ℝ) : ℝ := M * (Real.pi * fin) / Real.cos (Real.pi * fin / fs)

/-- The skew that a relative measurement error `η` can hide. -/
noncomputable def skewFloor (M : ℕ) (fs fin η : ℝ) : ℝ := M * η / (2 * (Real.pi * fin) * Real.cos (Real.pi * fin / fs))

private theorem cos_nyquist (fs fin : ℝ) (hfs : 0 < fs) (hfin : 0 < fin) (hny : fin < fs / 2) :
    0 < Real.pi * fin / fs ∧ Real.pi * fin / fs < Real.pi / 2 ∧ 0 < Real.cos (Real.pi * fin / fs) := by
  have hp := Real.pi_pos
  have h1 : 0 < Real.pi * fin / fs := by positivity
  have h2 : Real.pi * fin / fs < Real.pi / 2 := by
    rw [div_lt_div_iff₀ hfs two_pos]
    nlinarith
  exact ⟨h1, h2, Real.cos_pos_of_mem_Ioo ⟨by linarith, h2⟩⟩

/-- **C94 (every decision beyond the dead band is right).** In the first Nyquist zone, with all skews within `D` of channel 0 and `2D` at most a sample
period: whenever the skew of a channel differs from channel 0 by more than `coupling · D² + floor`, the loop moves its code against the difference - for
every start phase and every disturbance within `ε`. -/
theorem C94_decision (M : ℕ) (fs fin amp ε : ℝ) (hfs : 0 < fs) (hfin : 0 < fin) (hny : fin < fs / 2) (hA : 0 < amp) (Q R b : ℕ)
    (hQ : Q ≠ 0) (hR : R ≠ 0) (hb : Nat.Coprime b Q) (hcoh : 2 * fin * M / fs = b / Q) (skew : ℕ → ℝ) (D : ℝ) (hD : ∀ m < M, |skew m - skew 0| ≤ D)
    (hD2 : 2 * D ≤ 1 / fs) (φ : ℝ) (x : List ℝ) (hx : x.length = R * Q * M) (hxe : ∀ n < R * Q * M, |x.getD n 0 - captureTone M fs fin amp φ skew n| ≤ ε)
    (ch : List (List ℝ)) (hch : deinterleave 1 x (M : ℤ) = .ok ch) (m : ℕ) (hm0 : m ≠ 0) (hm : m < M)
    (hdead : skewCoupling M fs fin * D ^ 2 + skewFloor M fs fin (madError Q (R * Q) amp ε) < |skew m - skew 0|) :
    madAbove (madOf (madRows ch)) (m - 1) = true ↔ skew 0 < skew m := by
  have hM : M ≠ 0 := by omega
  have hM' : (0 : ℝ) < M := by exact_mod_cast Nat.pos_of_ne_zero hM
  have hp := Real.pi_pos
  obtain ⟨hx0, hx1, hcos⟩ := cos_nyquist fs fin hfs hfin hny
  set η := madError Q (R * Q) amp ε with hη
  set w := Real.pi * fin with hw
  have hw0 : 0 < w := by positivity
  set X := w / fs with hX
  obtain ⟨c, hc, hmeas⟩ := C94_any_start_phase M hM fs fin amp ε hA Q R b hQ hR hb hcoh
  obtain ⟨ch', hch', hmad⟩ := C94_mad_intervals x M (R * Q) hM hx
  rw [hch] at hch'
  injection hch' with hch'
  subst hch'
  set f : ℕ → ℝ := fun i => ∑ k ∈ range (R * Q - 1), |x.getD (k * M + i + 1) 0 - x.getD (k * M + i) 0| with hf
  have hfm : ∀ i < M, |f i / c - (|Real.sin (w * interval M fs skew i)|)| ≤ η := by
    intro i hi
    have h := hmeas φ skew (fun n => x.getD n 0) hxe i hi
    rw [show f i / c - |Real.sin (w * interval M fs skew i)| = (f i - c * |Real.sin (w * interval M fs skew i)|) / c by field_simp, abs_div, abs_of_pos hc,
      div_le_iff₀ hc]
    calc _ ≤ c * η := h
      _ = η * c := mul_comm _ _
  -- linearisation of one interval
  have hlin : ∀ i < M, |f i / c - (Real.sin X + w * (skew ((i + 1) % M) - skew i) * Real.cos X)| ≤ 2 * w ^ 2 * D ^ 2 + η := by
    intro i hi
    have h1 := hD ((i + 1) % M) (Nat.mod_lt _ (Nat.pos_of_ne_zero hM))
    have h2 := hD i hi
    set e := skew ((i + 1) % M) - skew i with he
    have hed : |e| ≤ 2 * D := by
      rw [abs_le] at h1 h2 ⊢
      constructor <;> linarith [h1.1, h1.2, h2.1, h2.2]
    have hD0 : 0 ≤ D := (abs_nonneg _).trans h2
    have harg : w * interval M fs skew i = X + w * e := by unfold interval; rw [hX]; ring
    have hwe : |w * e| ≤ X := by
      rw [abs_mul, abs_of_pos hw0, hX]
      calc w * |e| ≤ w * (1 / fs) := mul_le_mul_of_nonneg_left (hed.trans hD2) hw0.le
        _ = w / fs := by ring
    have hsin : |Real.sin (w * interval M fs skew i)| = Real.sin (X + w * e) := by
      rw [harg]
      apply abs_of_nonneg
      rw [abs_le] at hwe
      apply Real.sin_nonneg_of_nonneg_of_le_pi <;> linarith [hwe.1, hwe.2]
    have h3 := hfm i hi
    rw [hsin] at h3
    have h4 := sin_taylor X (w * e)
    have h5 : (w * e) ^ 2 / 2 ≤ 2 * w ^ 2 * D ^ 2 := by
      have : e ^ 2 ≤ (2 * D) ^ 2 := by
        rw [← sq_abs e]
        exact pow_le_pow_left₀ (abs_nonneg _) hed 2
      have := mul_le_mul_of_nonneg_left this (by positivity : 0 ≤ w ^ 2)
      nlinarith
    have h6 := abs_sub_le (f i / c) (Real.sin (X + w * e)) (Real.sin X + w * e * Real.cos X)
    rw [show Real.sin (X + w * e) - (Real.sin X + w * e * Real.cos X) = Real.sin (X + w * e) - Real.sin X - w * e * Real.cos X by ring] at h6
    linarith
  have hdec := decision_error M skew (fun i => f i / c) (Real.sin X) w (Real.cos X) _ hlin m hm
  rw [← sum_div, ← sum_div] at hdec
  have hsum1 : ((madOf (madRows ch)).take m).sum = ∑ j ∈ range m, f j := by
    rw [hmad, ← List.map_take, List.take_range, min_eq_left hm.le, list_sum_map_range]
  have hsum2 : (madOf (madRows ch)).sum = ∑ j ∈ range M, f j := by rw [hmad, list_sum_map_range]
  have hlen : (madOf (madRows ch)).length = M := by rw [hmad]; simp
  unfold madAbove
  rw [show m - 1 + 1 = m by omega, hsum1, hsum2, hlen, decide_eq_true_iff, mul_div_assoc', div_lt_iff₀ hM']
  set A := ∑ j ∈ range m, f j
  set S := ∑ j ∈ range M, f j
  have hbig : (2 * w ^ 2 * D ^ 2 + η) * M ^ 2 / 2 < M * (w * Real.cos X * |skew m - skew 0|) := by
    have h1 := mul_lt_mul_of_pos_left hdead (by positivity : 0 < M * (w * Real.cos X))
    have h2 : M * (w * Real.cos X) * (skewCoupling M fs fin * D ^ 2 + skewFloor M fs fin η) = (2 * w ^ 2 * D ^ 2 + η) * M ^ 2 / 2 := by
      unfold skewCoupling skewFloor
      rw [← hw, ← hX]
      field_simp
    rw [h2] at h1
    linarith
  have hdec' : |M * A - m * S - c * (M * (w * Real.cos X * (skew m - skew 0)))| ≤ c * ((2 * w ^ 2 * D ^ 2 + η) * M ^ 2 / 2) := by
    have e : M * A - m * S - c * (M * (w * Real.cos X * (skew m - skew 0))) = c * (M * (A / c) - m * (S / c) - M * (w * Real.cos X * (skew m - skew 0))) := by
      field_simp
    rw [e, abs_mul, abs_of_pos hc]
    exact mul_le_mul_of_nonneg_left hdec hc.le
  have hbig' := mul_lt_mul_of_pos_left hbig hc
  rw [abs_le] at hdec'
  rcases lt_trichotomy (skew m) (skew 0) with h | h | h
  · rw [abs_of_neg (by linarith)] at hbig'
    refine ⟨fun h1 => ?_, fun h1 => absurd h1 (by linarith)⟩
    nlinarith [hdec'.2]
  · have : 0 ≤ skewCoupling M fs fin * D ^ 2 + skewFloor M fs fin η := by
      have hη0 : 0 ≤ η := (abs_nonneg _).trans (hfm 0 (by omega))
      unfold skewCoupling skewFloor
      positivity
    rw [h, sub_self, abs_zero] at hdead
    linarith
  · rw [abs_of_pos (by linarith)] at hbig'
    refine ⟨fun _ => h, fun _ => ?_⟩
    nlinarith [hdec'.1]

/-- A line whose steps all lie between `lmin` and `L`. -/
def StepsIn (d : List ℝ) (lmin L : ℝ) : Prop := ∀ k, k + 1 < d.length → lmin ≤ d.getD (k + 1) 0 - d.getD k 0 ∧ d.getD (k + 1) 0 - d.getD k 0 ≤ L

private theorem call_step (d : List ℝ) (lmin L : ℝ) (h : StepsIn d lmin L) (c : ℤ) (h0 : 0 ≤ c) (h1 : c + 1 < d.length) :
    lmin ≤ vdlCall d (c + 1) - vdlCall d c ∧ vdlCall d (c + 1) - vdlCall d c ≤ L := by
  have e1 : vdlCall d (c + 1) = d.getD (c.toNat + 1) 0 := by
    unfold vdlCall clip
    rw [max_eq_left (by omega), min_eq_left (by omega)]
    congr 1
    omega
  have e2 : vdlCall d c = d.getD c.toNat 0 := by
    unfold vdlCall clip
    rw [max_eq_left (by omega), min_eq_left (by omega)]
  rw [e1, e2]
  exact h c.toNat (by omega)

/-- **C94 (convergence).** Delay lines with steps between `lmin` and `L` that can reach the skew of channel 0, a coherent tone in the first Nyquist zone,
any start phase in every iteration, samples within `ε` of the clean tone: if the starting bound `D0` and the final bound `D1` both exceed what the dead
band and one step leave, the largest skew difference shrinks by at least `g` per iteration until it is at most `D1`, and never exceeds `D1` again. -/
theorem C94_converges (M : ℕ) (fs fin amp ε : ℝ) (hfs : 0 < fs) (hfin : 0 < fin) (hny : fin < fs / 2) (hA : 0 < amp) (Q R b : ℕ)
    (hQ : Q ≠ 0) (hR : R ≠ 0) (hb : Nat.Coprime b Q) (hcoh : 2 * fin * M / fs = b / Q)
    (intrinsic : ℕ → ℝ) (lines : ℕ → List ℝ) (lmin L : ℝ) (hlines : ∀ m < M, StepsIn (lines m) lmin L) (codes : ℕ → ℕ → ℤ) (φ : ℕ → ℝ)
    (x : ℕ → List ℝ) (ch : ℕ → List (List ℝ)) (hx : ∀ t, (x t).length = R * Q * M)
    (hxe : ∀ t, ∀ n < R * Q * M, |(x t).getD n 0 - captureTone M fs fin amp (φ t) (effectiveSkew intrinsic lines (codes t)) n| ≤ ε)
    (hch : ∀ t, deinterleave 1 (x t) (M : ℤ) = .ok (ch t))
    (hup : ∀ t, ∀ m < M, codes (t + 1) m = madUpdate (madOf (madRows (ch t))) (fun m => (lines m).length) (codes t) m)
    (hrange : ∀ m < M, 0 ≤ codes 0 m ∧ codes 0 m < (lines m).length)
    (hreach : ∀ m < M, intrinsic m + vdlCall (lines m) 0 ≤ effectiveSkew intrinsic lines (codes 0) 0 ∧
      effectiveSkew intrinsic lines (codes 0) 0 ≤ intrinsic m + vdlCall (lines m) ((lines m).length - 1))
    (D0 D1 g : ℝ) (hD0 : ∀ m < M, |effectiveSkew intrinsic lines (codes 0) m - effectiveSkew intrinsic lines (codes 0) 0| ≤ D0) (hfs2 : 2 * D0 ≤ 1 / fs)
    (hD1 : 0 ≤ D1) (h01 : D1 ≤ D0) (hg : 0 ≤ g) (hg1 : g ≤ lmin) (hL : lmin ≤ L)
    (hg2 : skewCoupling M fs fin * D0 ^ 2 + (skewFloor M fs fin (madError Q (R * Q) amp ε) + L) + g ≤ D0)
    (hg3 : skewCoupling M fs fin * D1 ^ 2 + (skewFloor M fs fin (madError Q (R * Q) amp ε) + L) + g ≤ D1) (t : ℕ) :
    ∀ m < M, |effectiveSkew intrinsic lines (codes t) m - effectiveSkew intrinsic lines (codes t) 0| ≤ max D1 (D0 - t * g) := by
  rcases Nat.eq_zero_or_pos M with hM | hM
  · intro m hm; omega
  have hM' : (0 : ℝ) < M := by exact_mod_cast hM
  have hp := Real.pi_pos
  obtain ⟨hx0, hx1, hcos⟩ := cos_nyquist fs fin hfs hfin hny
  have hNpos : 0 < R * Q := Nat.mul_pos (Nat.pos_of_ne_zero hR) (Nat.pos_of_ne_zero hQ)
  have hε : 0 ≤ ε := (abs_nonneg _).trans (hxe 0 0 (Nat.mul_pos hNpos hM))
  set η := madError Q (R * Q) amp ε with hη
  have hη0 : 0 ≤ η := by rw [hη]; unfold madError; positivity
  set κ := skewCoupling M fs fin with hκ
  have hκ0 : 0 ≤ κ := by rw [hκ]; unfold skewCoupling; positivity
  set β := skewFloor M fs fin η with hβ
  have hβ0 : 0 ≤ β := by rw [hβ]; unfold skewFloor; positivity
  set eff : ℕ → ℕ → ℝ := fun t m => effectiveSkew intrinsic lines (codes t) m with heff
  set P : ℕ → ℝ → Prop := fun t D => (∀ m < M, 0 ≤ codes t m ∧ codes t m < (lines m).length) ∧ codes t 0 = codes 0 0 ∧ ∀ m < M, |eff t m - eff t 0| ≤ D with hP
  have key : P t (max D1 (D0 - t * g)) := by
    refine bound_shrinks P D0 D1 lmin κ (β + L) g hκ0 hD1 h01 ?_ ?_ ⟨hrange, rfl, hD0⟩ hg hg1 hg2 hg3 t
    · rintro t D D' hDD ⟨a1, a2, a3⟩
      exact ⟨a1, a2, fun m hm => (a3 m hm).trans hDD⟩
    · rintro t D hDl hDu ⟨a1, a2, a3⟩
      have hcode0 : codes (t + 1) 0 = codes t 0 := by rw [hup t 0 hM]; rfl
      have heff0 : eff (t + 1) 0 = eff t 0 := by simp only [heff, effectiveSkew, hcode0]
      have hs0 : eff t 0 = effectiveSkew intrinsic lines (codes 0) 0 := by simp only [heff, effectiveSkew, a2]
      refine ⟨fun m hm => ?_, hcode0.trans a2, fun m hm => ?_⟩
      · rw [hup t m hm]
        exact (C94_step _ _ _ m (a1 m hm).1 (a1 m hm).2).2.1
      have hD0' : 0 ≤ D := (abs_nonneg _).trans (a3 m hm)
      have hB0 : 0 ≤ κ * D ^ 2 := by positivity
      rw [heff0]
      by_cases hm0 : m = 0
      · subst hm0
        rw [heff0, sub_self, abs_zero]
        exact le_max_of_le_right (by linarith)
      obtain ⟨c0, c1⟩ := a1 m hm
      obtain ⟨r0, r1⟩ := hreach m hm
      rw [← hs0] at r0 r1
      -- the two possible moves
      have hdown : codes t m ≠ 0 → codes (t + 1) m = codes t m - 1 → lmin ≤ eff t m - eff (t + 1) m ∧ eff t m - eff (t + 1) m ≤ L := by
        intro hne hcd
        have h := call_step (lines m) lmin L (hlines m hm) (codes t m - 1) (by omega) (by omega)
        rw [sub_add_cancel] at h
        simp only [heff, effectiveSkew, hcd]
        constructor <;> linarith [h.1, h.2]
      have hup' : codes t m ≠ (lines m).length - 1 → codes (t + 1) m = codes t m + 1 → lmin ≤ eff (t + 1) m - eff t m ∧ eff (t + 1) m - eff t m ≤ L := by
        intro hne hcd
        have h := call_step (lines m) lmin L (hlines m hm) (codes t m) c0 (by omega)
        simp only [heff, effectiveSkew, hcd]
        constructor <;> linarith [h.1, h.2]
      obtain ⟨sa, sb⟩ := (C94_step (madOf (madRows (ch t))) (fun m => (lines m).length) (codes t) m c0 c1).2.2 hm0
      rw [← hup t m hm] at sa sb
      have habove : madAbove (madOf (madRows (ch t))) (m - 1) = true ↔
          (m : ℝ) * ((madOf (madRows (ch t))).sum / (madOf (madRows (ch t))).length) < ((madOf (madRows (ch t))).take m).sum := by
        unfold madAbove
        rw [show m - 1 + 1 = m by omega, decide_eq_true_iff]
      by_cases hdead : κ * D ^ 2 + β < |eff t m - eff t 0|
      · have hdec := C94_decision M fs fin amp ε hfs hfin hny hA Q R b hQ hR hb hcoh (effectiveSkew intrinsic lines (codes t)) D a3 (by linarith) (φ t)
          (x t) (hx t) (hxe t) (ch t) (hch t) m hm0 hm hdead
        rw [habove] at hdec
        have a3m := a3 m hm
        rcases lt_or_ge (eff t 0) (eff t m) with hlt | hge
        · have h1 := sa (hdec.mpr hlt)
          have hne : codes t m ≠ 0 := by
            intro h
            have : eff t m = intrinsic m + vdlCall (lines m) 0 := by simp only [heff, effectiveSkew, h]
            linarith
          rw [if_neg hne] at h1
          obtain ⟨b1, b2⟩ := hdown hne h1
          rw [abs_of_pos (by linarith)] at a3m
          rw [abs_le]
          constructor
          · have : -(κ * D ^ 2 + (β + L)) ≤ eff (t + 1) m - eff t 0 := by linarith
            exact (neg_le_neg (le_max_right _ _)).trans this
          · exact le_max_of_le_left (by linarith)
        · have h1 := sb (fun h => absurd (hdec.mp h) (not_lt.mpr hge))
          have hlt : eff t m < eff t 0 := by
            rcases hge.lt_or_eq with h | h
            · exact h
            · rw [h, sub_self, abs_zero] at hdead; linarith
          have hne : codes t m ≠ (lines m).length - 1 := by
            intro h
            have : eff t m = intrinsic m + vdlCall (lines m) ((lines m).length - 1) := by simp only [heff, effectiveSkew, h]
            linarith
          rw [if_neg hne] at h1
          obtain ⟨b1, b2⟩ := hup' hne h1
          rw [abs_of_neg (by linarith)] at a3m
          rw [abs_le]
          constructor
          · have : -(D - lmin) ≤ eff (t + 1) m - eff t 0 := by linarith
            exact (neg_le_neg (le_max_left _ _)).trans this
          · exact le_max_of_le_right (by linarith)
      · have hmove : |eff (t + 1) m - eff t m| ≤ L := by
          have hstay : codes (t + 1) m = codes t m → |eff (t + 1) m - eff t m| ≤ L := by
            intro h
            simp only [heff, effectiveSkew, h, sub_self, abs_zero]
            linarith
          by_cases h : (m : ℝ) * ((madOf (madRows (ch t))).sum / (madOf (madRows (ch t))).length) < ((madOf (madRows (ch t))).take m).sum
          · have h1 := sa h
            by_cases hz : codes t m = 0
            · rw [if_pos hz] at h1
              exact hstay (h1.trans hz.symm)
            · rw [if_neg hz] at h1
              have := hdown hz h1
              rw [abs_le]
              constructor <;> linarith [this.1, this.2]
          · have h1 := sb h
            by_cases hz : codes t m = (lines m).length - 1
            · rw [if_pos hz] at h1
              exact hstay h1
            · rw [if_neg hz] at h1
              have := hup' hz h1
              rw [abs_le]
              constructor <;> linarith [this.1, this.2]
        have := abs_sub_le (eff (t + 1) m) (eff t m) (eff t 0)
        exact le_max_of_le_right (by linarith)
  exact key.2.2

/-- **C94 (disturbances).** A capture with the cubic term and noise draws bounded by `Z` is within `4 r amp + noise · Z` of the clean tone, `r` being the
requested third-harmonic ratio - the `ε` of the results above. -/
theorem C94_disturbance (M : ℕ) (fs fin amp φ noise Z : ℝ) (skew : ℕ → ℝ) (hA : 0 < amp) (hn : 0 ≤ noise) (z : ℕ → ℝ) (hz : ∀ n, |z n| ≤ Z) (n : ℕ) (db : ℝ) :
    |captureAt M fs fin amp φ skew none noise z n - captureTone M fs fin amp φ skew n| ≤ noise * Z ∧
    |captureAt M fs fin amp φ skew (some db) noise z n - captureTone M fs fin amp φ skew n| ≤ 4 * (10 : ℝ) ^ (db / 20) * amp + noise * Z := by
  have hr : (0 : ℝ) < (10 : ℝ) ^ (db / 20) := Real.rpow_pos_of_pos (by norm_num) _
  have hZ : 0 ≤ Z := (abs_nonneg _).trans (hz 0)
  have htone : |captureTone M fs fin amp φ skew n| ≤ amp := by
    unfold captureTone
    rw [abs_mul, abs_of_pos hA]
    exact mul_le_of_le_one_right hA.le (Real.abs_cos_le_one _)
  have hnoise : ∀ x : ℝ, |(if 0 < noise then x + z n * noise else x) - x| ≤ noise * Z := by
    intro x
    split_ifs with h
    · rw [add_sub_cancel_left, abs_mul, abs_of_pos h, mul_comm]
      exact mul_le_mul_of_nonneg_left (hz n) h.le
    · rw [sub_self, abs_zero]
      positivity
  set x := captureTone M fs fin amp φ skew n with hx
  refine ⟨hnoise x, ?_⟩
  have h1 := hnoise (addHd3 amp (some db) x)
  have h2 : |addHd3 amp (some db) x - x| ≤ 4 * (10 : ℝ) ^ (db / 20) * amp := by
    unfold addHd3
    rw [add_sub_cancel_left, abs_mul, abs_of_nonneg (by positivity), abs_pow]
    calc 4 * (10 : ℝ) ^ (db / 20) / amp ^ 2 * |x| ^ 3 ≤ 4 * (10 : ℝ) ^ (db / 20) / amp ^ 2 * amp ^ 3 :=
          mul_le_mul_of_nonneg_left (pow_le_pow_left₀ (abs_nonneg _) htone 3) (by positivity)
      _ = _ := by field_simp
  exact (abs_sub_le _ (addHd3 amp (some db) x) x).trans (by
    have h3 : |captureAt M fs fin amp φ skew (some db) noise z n - addHd3 amp (some db) x| ≤ noise * Z := h1
    linarith)

/-- **C94 (two channels).** With two channels the averaged measurement decides exactly by the sign of the skew, whatever its size below one sample period. -/
theorem C94_two_channels (fs fin c : ℝ) (hfs : 0 < fs) (hfin : 0 < fin) (hny : fin < fs / 2) (hc : 0 < c) (skew : ℕ → ℝ)
    (hs : |skew 1 - skew 0| ≤ 1 / fs) :
    madAbove ((List.range 2).map fun i => c * |Real.sin (Real.pi * fin * interval 2 fs skew i)|) 0 = true ↔ skew 0 < skew 1 := by
  have hp := Real.pi_pos
  obtain ⟨hx0, hx1, hcos⟩ := cos_nyquist fs fin hfs hfin hny
  set X := Real.pi * fin / fs with hX
  set u := Real.pi * fin * (skew 1 - skew 0) with hu
  have hw : 0 < Real.pi * fin := by positivity
  have huX : |u| ≤ X := by
    rw [hu, abs_mul, abs_of_pos hw]
    calc Real.pi * fin * |skew 1 - skew 0| ≤ Real.pi * fin * (1 / fs) := mul_le_mul_of_nonneg_left hs hw.le
      _ = X := by rw [hX]; ring
  obtain ⟨u1, u2⟩ := abs_le.mp huX
  have e0 : Real.pi * fin * interval 2 fs skew 0 = X + u := by unfold interval; rw [hX, hu]; norm_num; ring
  have e1 : Real.pi * fin * interval 2 fs skew 1 = X - u := by unfold interval; rw [hX, hu]; norm_num; ring
  have s0 : |Real.sin (X + u)| = Real.sin (X + u) := abs_of_nonneg (Real.sin_nonneg_of_nonneg_of_le_pi (by linarith) (by linarith))
  have s1 : |Real.sin (X - u)| = Real.sin (X - u) := abs_of_nonneg (Real.sin_nonneg_of_nonneg_of_le_pi (by linarith) (by linarith))
  have hlist : ((List.range 2).map fun i => c * |Real.sin (Real.pi * fin * interval 2 fs skew i)|) = [c * Real.sin (X + u), c * Real.sin (X - u)] := by
    rw [show List.range 2 = [0, 1] from rfl]
    simp only [List.map_cons, List.map_nil, e0, e1, s0, s1]
  rw [hlist]
  unfold madAbove
  rw [decide_eq_true_iff]
  simp only [List.sum_cons, List.sum_nil, List.length_cons, List.length_nil, List.take_succ_cons, List.take_zero]
  have hdiff : Real.sin (X + u) - Real.sin (X - u) = 2 * Real.cos X * Real.sin u := by rw [Real.sin_add, Real.sin_sub]; ring
  have hsgn : (0 < Real.sin u ↔ 0 < u) := by
    constructor
    · intro h
      by_contra hle
      have := Real.sin_nonpos_of_nonpos_of_neg_pi_le (by linarith : u ≤ 0) (by linarith)
      linarith
    · intro h
      exact Real.sin_pos_of_pos_of_lt_pi h (by linarith)
  have hu0 : 0 < u ↔ skew 0 < skew 1 := by
    rw [hu, mul_pos_iff_of_pos_left hw, sub_pos]
  rw [← hu0, ← hsgn]
  push_cast
  constructor
  · intro h
    have : 0 < c * (2 * Real.cos X * Real.sin u) := by rw [← hdiff]; linarith
    have := (mul_pos_iff_of_pos_left hc).mp this
    exact (mul_pos_iff_of_pos_left (by positivity)).mp this
  · intro h
    have : 0 < c * (2 * Real.cos X * Real.sin u) := by positivity
    rw [← hdiff] at this
    linarith

/-- **C94 (a wrong decision, by witness).** With three channels the decision for channel 1 can have the wrong sign, even averaged over the start phase:
at `fin = 11/36 fs`, channel 1 early by 2/11 and channel 2 late by 8/11 of a sample period, channel 1 is moved further down. So a bound that grows with
the skew of the other channels, as in `C94_decision`, is unavoidable. -/
theorem C94_coupled_channels (c : ℝ) (hc : 0 < c) :
    let skew : ℕ → ℝ := fun m => [0, -(2 / 11), 8 / 11].getD m 0
    madAbove ((List.range 3).map fun i => c * |Real.sin (Real.pi * (11 / 36) * interval 3 1 skew i)|) 0 = true ∧ skew 1 < skew 0 := by
  intro skew
  have hp := Real.pi_pos
  refine ⟨?_, by norm_num [skew]⟩
  have e0 : Real.pi * (11 / 36) * interval 3 1 skew 0 = Real.pi / 4 := by unfold interval; norm_num [skew]; ring
  have e1 : Real.pi * (11 / 36) * interval 3 1 skew 1 = Real.pi / 3 + Real.pi / 4 := by unfold interval; norm_num [skew]; ring
  have e2 : Real.pi * (11 / 36) * interval 3 1 skew 2 = Real.pi / 3 - Real.pi / 4 := by unfold interval; norm_num [skew]; ring
  have s0 : |Real.sin (Real.pi / 4)| = Real.sin (Real.pi / 4) := abs_of_nonneg (Real.sin_nonneg_of_nonneg_of_le_pi (by linarith) (by linarith))
  have s1 : |Real.sin (Real.pi / 3 + Real.pi / 4)| = Real.sin (Real.pi / 3 + Real.pi / 4) :=
    abs_of_nonneg (Real.sin_nonneg_of_nonneg_of_le_pi (by linarith) (by linarith))
  have s2 : |Real.sin (Real.pi / 3 - Real.pi / 4)| = Real.sin (Real.pi / 3 - Real.pi / 4) :=
    abs_of_nonneg (Real.sin_nonneg_of_nonneg_of_le_pi (by linarith) (by linarith))
  rw [show List.range 3 = [0, 1, 2] from rfl]
  simp only [List.map_cons, List.map_nil, e0, e1, e2, s0, s1, s2]
  unfold madAbove
  rw [decide_eq_true_iff]
  simp only [List.sum_cons, List.sum_nil, List.length_cons, List.length_nil, List.take_succ_cons, List.take_zero]
  rw [Real.sin_add, Real.sin_sub, Real.sin_pi_div_four, Real.cos_pi_div_four, Real.sin_pi_div_three, Real.cos_pi_div_three]
  have h2 : 0 < √2 := by positivity
  have h3 : √3 < 1.74 := by
    rw [Real.sqrt_lt' (by norm_num)]
    norm_num
  have : 0 < c * √2 := by positivity
  push_cast
  nlinarith

/-- **C94 (the shipped settings).** Four channels, `fin = 2457/8192 fs`, 2^18 samples per channel, clean captures, time in sample periods of the 1 GS/s
converter: from any start within 5 ps the worst skew falls by at least 5 fs per iteration to at most 60 fs, and stays there, when the line steps lie
between 5 and 20 fs. -/
theorem C94_shipped_settings (intrinsic : ℕ → ℝ) (lines : ℕ → List ℝ) (hlines : ∀ m < 4, StepsIn (lines m) (5 / 10 ^ 6) (20 / 10 ^ 6))
    (codes : ℕ → ℕ → ℤ) (φ : ℕ → ℝ) (z : ℕ → ℝ) (ch : ℕ → List (List ℝ))
    (hch : ∀ t, deinterleave 1 ((List.range (2 ^ 20)).map (captureAt 4 1 (2457 / 8192) (1 / 2) (φ t) (effectiveSkew intrinsic lines (codes t)) none 0 z)) 4 =
      .ok (ch t))
    (hup : ∀ t, ∀ m < 4, codes (t + 1) m = madUpdate (madOf (madRows (ch t))) (fun m => (lines m).length) (codes t) m)
    (hrange : ∀ m < 4, 0 ≤ codes 0 m ∧ codes 0 m < (lines m).length)
    (hreach : ∀ m < 4, intrinsic m + vdlCall (lines m) 0 ≤ effectiveSkew intrinsic lines (codes 0) 0 ∧
      effectiveSkew intrinsic lines (codes 0) 0 ≤ intrinsic m + vdlCall (lines m) ((lines m).length - 1))
    (hD0 : ∀ m < 4, |effectiveSkew intrinsic lines (codes 0) m - effectiveSkew intrinsic lines (codes 0) 0| ≤ 5 / 10 ^ 3) (t : ℕ) :
    ∀ m < 4, |effectiveSkew intrinsic lines (codes t) m - effectiveSkew intrinsic lines (codes t) 0| ≤ max (60 / 10 ^ 6) (5 / 10 ^ 3 - (t : ℝ) * (5 / 10 ^ 6)) := by
  have hp1 := Real.pi_gt_d2
  have hp2 := Real.pi_lt_d2
  have hcos : 1 / 2 ≤ Real.cos (Real.pi * (2457 / 8192) / 1) := by
    rw [← Real.cos_pi_div_three]
    apply Real.cos_le_cos_of_nonneg_of_le_pi <;> linarith
  have hκ : skewCoupling 4 1 (2457 / 8192) ≤ 8 := by
    unfold skewCoupling
    rw [div_le_iff₀ (by linarith)]
    push_cast
    nlinarith
  have hβ : skewFloor 4 1 (2457 / 8192) (madError 1024 (256 * 1024) (1 / 2) 0) ≤ 34 / 10 ^ 6 := by
    unfold skewFloor
    have h1 : madError 1024 (256 * 1024) (1 / 2) 0 ≤ 73 / 10 ^ 7 := by
      unfold madError
      push_cast
      nlinarith
    rw [div_le_iff₀ (by positivity)]
    push_cast
    nlinarith
  have hconv := C94_converges 4 1 (2457 / 8192) (1 / 2) 0 one_pos (by norm_num) (by norm_num) (by norm_num) 1024 256 2457 (by norm_num) (by norm_num)
    (by norm_num) (by norm_num) intrinsic lines (5 / 10 ^ 6) (20 / 10 ^ 6) hlines codes φ
    (fun t => (List.range (2 ^ 20)).map (captureAt 4 1 (2457 / 8192) (1 / 2) (φ t) (effectiveSkew intrinsic lines (codes t)) none 0 z)) ch
    (fun t => by rw [List.length_map, List.length_range]; norm_num) (fun t n hn => by
      rw [List.getD_eq_getElem?_getD, List.getElem?_map, List.getElem?_range (by norm_num at hn ⊢; exact hn)]
      simp [captureAt, addHd3]) hch hup hrange hreach (5 / 10 ^ 3) (60 / 10 ^ 6) (5 / 10 ^ 6) hD0 (by norm_num) (by norm_num) (by norm_num) (by norm_num)
    le_rfl (by norm_num) (by nlinarith) (by nlinarith) t
  exact hconv

/-- **C94 (the loop runs).** From every start and for every way of capturing records of the right length, the loop has exactly the executions described by
the hypotheses above. -/
theorem C94_runs (M R : ℕ) (hM : M ≠ 0) (capture : ℕ → (ℕ → ℤ) → List ℝ) (hlen : ∀ t c, (capture t c).length = R * M) (n : ℕ → ℕ) (start : ℕ → ℤ) :
    ∃! run : ℕ → ℕ → ℤ, run 0 = start ∧ ∀ t, ∃ ch, deinterleave 1 (capture t (run t)) (M : ℤ) = .ok ch ∧
      run (t + 1) = madUpdate (madOf (madRows ch)) n (run t) := by
  have hok : ∀ t c, ∃ ch, deinterleave 1 (capture t c) (M : ℤ) = .ok ch := fun t c => by
    obtain ⟨ch, h, _⟩ := C94_mad_intervals (capture t c) M R hM (hlen t c)
    exact ⟨ch, h⟩
  choose F hF using hok
  refine ⟨fun t => Nat.rec start (fun t c => madUpdate (madOf (madRows (F t c))) n c) t, ⟨rfl, fun t => ⟨F t _, hF t _, rfl⟩⟩, ?_⟩
  rintro run ⟨h0, hs⟩
  funext t
  induction t with
  | zero => exact h0
  | succ t ih =>
    obtain ⟨ch, h1, h2⟩ := hs t
    rw [h2, ih]
    rw [ih] at h1
    have h3 := h1.symm.trans (hF t _)
    injection h3 with h3
    subst h3
    rfl

/-- The shipped settings with ideal lines of 1001 codes of 10 fs and channels 0, 1, 2 and 3 ps late: after 988 iterations all are within 60 fs. -/
example : ∃ codes : ℕ → ℕ → ℤ, (∀ m, codes 0 m = 500) ∧ ∀ t ≥ 988, ∀ m < 4,
    |effectiveSkew (fun m => (m : ℝ) / 10 ^ 3) (fun _ => (List.range 1001).map fun k : ℕ => ((k : ℝ) - 500) / 10 ^ 5) (codes t) m -
      effectiveSkew (fun m => (m : ℝ) / 10 ^ 3) (fun _ => (List.range 1001).map fun k : ℕ => ((k : ℝ) - 500) / 10 ^ 5) (codes t) 0| ≤ 60 / 10 ^ 6 := by
  set line : List ℝ := (List.range 1001).map fun k : ℕ => ((k : ℝ) - 500) / 10 ^ 5 with hline
  have hl : line.length = 1001 := by simp [hline]
  have hget : ∀ k < 1001, line.getD k 0 = ((k : ℝ) - 500) / 10 ^ 5 := by
    intro k hk
    rw [hline, List.getD_eq_getElem?_getD, List.getElem?_map, List.getElem?_range hk]
    rfl
  have hcall : ∀ c : ℕ, c < 1001 → vdlCall line (c : ℤ) = ((c : ℝ) - 500) / 10 ^ 5 := by
    intro c h1
    rw [← hget c h1]
    unfold vdlCall clip
    rw [hl, max_eq_left (by omega), min_eq_left (by push_cast; omega), Int.toNat_natCast]
  obtain ⟨codes, ⟨h0, h1⟩, _⟩ := C94_runs 4 (2 ^ 18) (by norm_num) (fun t c => (List.range (2 ^ 20)).map (captureAt 4 1 (2457 / 8192) (1 / 2) t
    (effectiveSkew (fun m => (m : ℝ) / 10 ^ 3) (fun _ => line) c) none 0 (fun _ => 0))) (fun t c => by rw [List.length_map, List.length_range]; norm_num)
    (fun _ => line.length) (fun _ => 500)
  choose ch hch hrun using h1
  refine ⟨codes, fun m => by rw [h0], fun t ht m hm => ?_⟩
  have hc : vdlCall line 500 = 0 := by have := hcall 500 (by norm_num); norm_num at this; exact this
  have := C94_shipped_settings (fun m => (m : ℝ) / 10 ^ 3) (fun _ => line) (fun m _ k hk => by
      rw [hl] at hk
      rw [hget k (by omega), hget (k + 1) hk]
      push_cast
      constructor <;> linarith) codes (fun t => t) (fun _ => 0) ch hch (fun t m _ => by rw [hrun t]) (fun m _ => by rw [h0, hl]; norm_num)
    (fun m hm => by
      have hm3 : (m : ℝ) ≤ ((3 : ℕ) : ℝ) := Nat.cast_le.mpr (Nat.le_of_lt_succ hm)
      rw [Nat.cast_ofNat] at hm3
      have hm0 : (0 : ℝ) ≤ m := Nat.cast_nonneg m
      simp only [effectiveSkew, h0, hc, hl]
      have c0 := hcall 0 (by norm_num)
      have c1 := hcall 1000 (by norm_num)
      norm_num at c0 c1 ⊢
      rw [c0, c1]
      constructor <;> linarith)
    (fun m hm => by
      have hm3 : (m : ℝ) ≤ ((3 : ℕ) : ℝ) := Nat.cast_le.mpr (Nat.le_of_lt_succ hm)
      rw [Nat.cast_ofNat] at hm3
      have hm0 : (0 : ℝ) ≤ m := Nat.cast_nonneg m
      simp only [effectiveSkew, h0, hc]
      rw [abs_le]
      push_cast
      constructor <;> linarith) t m hm
  refine this.trans (max_le le_rfl ?_)
  have : (988 : ℝ) ≤ t := by exact_mod_cast ht
  linarith

end Verif
