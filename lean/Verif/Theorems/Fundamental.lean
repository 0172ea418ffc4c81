import Verif.Model.Spectrum
import Verif.Proofs.SpectrumBins

/-!
# C27: locating the fundamental; C33: automatic side bin
-/

namespace Verif

open Model Finset

/-- **C27 (strongest bin).** With at least one non-DC bin in band, the located fundamental is a non-DC in-band bin, no
non-DC in-band bin is stronger and every earlier one is strictly weaker. -/
theorem C27_fundamental_strongest {K : Type} [LinearOrder K] [Zero K] (p : List K) (n : ℕ) (hn : n ≤ p.length) (h1 : 1 < n) :
    1 ≤ fundamentalBin p n ∧ fundamentalBin p n < n ∧
    (∀ k, 1 ≤ k → k < n → p.getD k 0 ≤ p.getD (fundamentalBin p n) 0) ∧
    ∀ k, 1 ≤ k → k < fundamentalBin p n → p.getD k 0 < p.getD (fundamentalBin p n) 0 := by
  have hl : (p.take n).length = n := by simp [hn]
  have hb : fundamentalBin p n = argmax ((p.take n).drop 1) + 1 := by
    unfold fundamentalBin; simp only; rw [if_pos (by omega)]
  set s := (p.take n).drop 1 with hs
  have hsl : s.length = n - 1 := by rw [hs, List.length_drop, hl]
  have hne : s ≠ [] := by rw [← List.length_pos_iff]; omega
  have hlt := argmax_lt s hne
  have hget : ∀ i, i < n - 1 → s[i]? = some (p.getD (i + 1) 0) := by
    intro i hi
    rw [hs, List.getElem?_drop, List.getElem?_take, if_pos (by omega), add_comm, List.getD_eq_getElem?_getD,
      List.getElem?_eq_getElem (by omega)]
    rfl
  have hm := hget (argmax s) (by omega)
  rw [hb]
  refine ⟨by omega, by omega, ?_, ?_⟩
  · intro k hk1 hk2
    have := hget (k - 1) (by omega)
    rw [show k - 1 + 1 = k by omega] at this
    exact argmax_max s _ hm _ (List.mem_of_getElem? this)
  · intro k hk1 hk2
    have h := hget (k - 1) (by omega)
    rw [show k - 1 + 1 = k by omega] at h
    exact argmax_first s _ hm (k - 1) _ (by omega) h

/-- **C27 (DC only).** With no non-DC bin in band the result is bin 0. -/
theorem C27_only_dc {K : Type} [LinearOrder K] (p : List K) (n : ℕ) (h : n ≤ 1 ∨ p.length ≤ 1) : fundamentalBin p n = 0 := by
  unfold fundamentalBin
  simp only
  rw [if_neg]
  rw [List.length_take]
  omega

theorem logFloor_mono {x y : ℝ} (h : x ≤ y) : logFloor x ≤ logFloor y := by
  unfold logFloor
  apply Real.logb_le_logb_of_le (by norm_num)
  · exact lt_of_lt_of_le (by positivity) (le_max_right _ _)
  · exact max_le_max_right _ h

theorem refine_half (s : List ℝ) (b : ℕ) (hm : s.getD (b - 1) 0 ≤ s.getD b 0) (hp : s.getD (b + 1) 0 ≤ s.getD b 0) :
    |refineBin s b - b| ≤ 1 / 2 := by
  unfold refineBin
  simp only
  split_ifs with h1 h2 h3
  · simp
  · have a := logFloor_mono hm
    have c := logFloor_mono hp
    set ym := logFloor (s.getD (b - 1) 0)
    set y0 := logFloor (s.getD b 0)
    set yp := logFloor (s.getD (b + 1) 0)
    have hd : 0 < 2 * (2 * y0 - ym - yp) := lt_of_le_of_ne (by linarith) (Ne.symm h3)
    rw [add_sub_cancel_left, abs_div, abs_of_pos hd, div_le_iff₀ hd, abs_le]
    constructor <;> linarith
  · simp
  · simp

/-- **C27 (refined bin, partial).** For a fundamental above bin 1 the interpolated position is within half a bin of the
integer bin. Missing: bin 1, where the interpolation also looks at the DC bin (`C27_refined_bin_one_fails`). -/
theorem C27_refined_within_half_bin_partial (p : List ℝ) (n : ℕ) (hn : n ≤ p.length) (h : 1 < (locateFundamental p n).1) :
    |(locateFundamental p n).2 - (locateFundamental p n).1| ≤ 1 / 2 := by
  have hb : (locateFundamental p n).1 = fundamentalBin p n := rfl
  have h1n : 1 < n := by
    by_contra hc
    rw [hb, C27_only_dc p n (Or.inl (by omega))] at h
    omega
  obtain ⟨h1, h2, h3, _⟩ := C27_fundamental_strongest p n hn h1n
  rw [hb] at h
  unfold locateFundamental
  simp only
  by_cases hlast : fundamentalBin p n + 1 < n
  · apply refine_half
    · rw [take_getD, take_getD, if_pos (by omega), if_pos h2]
      exact h3 _ (by omega) (by omega)
    · rw [take_getD, take_getD, if_pos hlast, if_pos h2]
      exact h3 _ (by omega) hlast
  · unfold refineBin
    rw [if_neg]
    · simp
    · rw [List.length_take, min_eq_left hn]; omega

/-- **C27 (refined bin at bin 1).** At bin 1 it is within half a bin as soon as the DC bin is not stronger. -/
theorem C27_refined_bin_one_partial (p : List ℝ) (n : ℕ) (hn : n ≤ p.length) (h1n : 1 < n)
    (hdc : p.getD 0 0 ≤ p.getD (fundamentalBin p n) 0) :
    |(locateFundamental p n).2 - (locateFundamental p n).1| ≤ 1 / 2 := by
  obtain ⟨h1, h2, h3, _⟩ := C27_fundamental_strongest p n hn h1n
  unfold locateFundamental
  simp only
  by_cases hlast : fundamentalBin p n + 1 < n
  · apply refine_half
    · rw [take_getD, take_getD, if_pos (by omega), if_pos h2]
      by_cases h0 : fundamentalBin p n - 1 = 0
      · rw [h0]; exact hdc
      · exact h3 _ (by omega) (by omega)
    · rw [take_getD, take_getD, if_pos hlast, if_pos h2]
      exact h3 _ (by omega) hlast
  · unfold refineBin
    rw [if_neg]
    · simp
    · rw [List.length_take, min_eq_left hn]; omega

private theorem logFloor_pow (k : ℕ) : logFloor ((10 : ℝ) ^ k) = k := by
  unfold logFloor
  rw [max_eq_left, Real.logb_pow, Real.logb_self_eq_one (by norm_num), mul_one]
  exact le_trans (by norm_num : (1 : ℝ) / 10 ^ 20 ≤ 1) (one_le_pow₀ (by norm_num))

/-- **C27 (negation).** The half-bin claim is false at bin 1: the spectrum `[1000, 10, 1]` has its strongest non-DC bin at
1 but the refined position is 2.5. -/
theorem C27_refined_bin_one_fails : locateFundamental [1000, 10, 1] 3 = (1, 5 / 2) := by
  have hb : fundamentalBin ([1000, 10, 1] : List ℝ) 3 = 1 := by
    simp [fundamentalBin, argmax]
  unfold locateFundamental
  simp only [hb]
  congr 1
  unfold refineBin
  have e3 : logFloor 1000 = 3 := by rw [show (1000 : ℝ) = 10 ^ 3 by norm_num, logFloor_pow]; norm_num
  have e1 : logFloor 10 = 1 := by rw [show (10 : ℝ) = 10 ^ 1 by norm_num, logFloor_pow]; norm_num
  have e0 : logFloor 1 = 0 := by rw [show (1 : ℝ) = 10 ^ 0 by norm_num, logFloor_pow]; norm_num
  simp [e3, e1, e0]
  norm_num

/-- **C27 (interpolation).** If the logarithms of the peak bin and of its two neighbours lie on a parabola with its vertex at `x`, the refined position is `x`:
the interpolation is exact and moves towards the stronger neighbour. (All three bins above the `1e-20` floor and at most four decades apart.) -/
theorem C27_parabola_exact (p : List ℝ) (n : ℕ) (hn : n ≤ p.length) (h1 : 0 < fundamentalBin p n) (h2 : fundamentalBin p n + 1 < n) (c q x : ℝ) (hq : 0 < q)
    (hp : ∀ j, fundamentalBin p n - 1 ≤ j → j ≤ fundamentalBin p n + 1 →
      1 / 10 ^ 20 ≤ p.getD j 0 ∧ p.getD (fundamentalBin p n) 0 / 10 ^ 4 ≤ p.getD j 0 ∧ Real.logb 10 (p.getD j 0) = c - q * ((j : ℝ) - x) ^ 2) :
    (locateFundamental p n).2 = x := by
  unfold locateFundamental
  simp only
  set b := fundamentalBin p n
  obtain ⟨f1, d1, e1⟩ := hp (b - 1) (by omega) (by omega)
  obtain ⟨f2, d2, e2⟩ := hp b (by omega) (by omega)
  obtain ⟨f3, d3, e3⟩ := hp (b + 1) (by omega) (by omega)
  have hb : 0 < p.getD b 0 := lt_of_lt_of_le (by positivity) f2
  have hlog : ∀ v, p.getD b 0 / 10 ^ 4 ≤ v → Real.logb 10 (p.getD b 0) - 4 ≤ Real.logb 10 v := by
    intro v hv
    have hle := Real.logb_le_logb_of_le (b := 10) (by norm_num) (by positivity) hv
    rw [Real.logb_div hb.ne' (by positivity), Real.logb_pow, Real.logb_self_eq_one (by norm_num)] at hle
    push_cast at hle
    linarith
  have h3 := hlog _ d1
  have h4 := hlog _ d3
  unfold refineBin
  rw [if_pos ⟨h1, by rw [List.length_take, min_eq_left hn]; omega⟩]
  have t1 : (p.take n).getD (b - 1) 0 = p.getD (b - 1) 0 := by rw [take_getD, if_pos (by omega)]
  have t2 : (p.take n).getD b 0 = p.getD b 0 := by rw [take_getD, if_pos (by omega)]
  have t3 : (p.take n).getD (b + 1) 0 = p.getD (b + 1) 0 := by rw [take_getD, if_pos (by omega)]
  simp only [t1, t2, t3]
  unfold logFloor
  rw [max_eq_left f1, max_eq_left f2, max_eq_left f3, if_pos (le_min h3 h4), e1, e2, e3]
  have hc1 : ((b - 1 : ℕ) : ℝ) = b - 1 := by rw [Nat.cast_sub h1]; norm_num
  have hc2 : ((b + 1 : ℕ) : ℝ) = b + 1 := by norm_num
  rw [hc1, hc2]
  have hden : 2 * (2 * (c - q * ((b : ℝ) - x) ^ 2) - (c - q * ((b : ℝ) - 1 - x) ^ 2) - (c - q * ((b : ℝ) + 1 - x) ^ 2)) = 4 * q := by ring
  rw [hden, if_neg (by positivity)]
  field_simp
  ring

-- powers `10, 1000, 1000` (logarithms 1, 3, 3): a parabola with its vertex half-way between bins 2 and 3
example : (locateFundamental [0, 10, 1000, 1000, 0] 5).2 = 5 / 2 := by
  have hb : fundamentalBin ([0, 10, 1000, 1000, 0] : List ℝ) 5 = 2 := by
    norm_num [fundamentalBin, argmax]
  have e1 : Real.logb 10 10 = 1 := Real.logb_self_eq_one (by norm_num)
  have e3 : Real.logb 10 1000 = 3 := by
    rw [show (1000 : ℝ) = 10 ^ 3 by norm_num, Real.logb_pow, e1]; norm_num
  apply C27_parabola_exact (c := 13 / 4) (q := 1) (hq := one_pos)
  · decide
  · rw [hb]; norm_num
  · rw [hb]; norm_num
  · rw [hb]
    intro j hj1 hj2
    have hj : j = 1 ∨ j = 2 ∨ j = 3 := by omega
    rcases hj with rfl | rfl | rfl <;> norm_num [e1, e3]

/-- **C27 (coherent tone).** If one of the two neighbours is more than four decades below the peak (and the peak is above the
`1e-20` floor accordingly), no interpolation takes place: the refined bin is the integer bin. -/
theorem C27_coherent_bin_exact (p : List ℝ) (n : ℕ) (hn : n ≤ p.length)
    (hpk : 1 / 10 ^ 16 < p.getD (fundamentalBin p n) 0)
    (hnb : p.getD (fundamentalBin p n - 1) 0 < p.getD (fundamentalBin p n) 0 / 10 ^ 4 ∨
      p.getD (fundamentalBin p n + 1) 0 < p.getD (fundamentalBin p n) 0 / 10 ^ 4) :
    (locateFundamental p n).2 = (locateFundamental p n).1 := by
  unfold locateFundamental
  simp only
  set b := fundamentalBin p n
  have hfl : ∀ v : ℝ, v < p.getD b 0 / 10 ^ 4 → logFloor v < logFloor (p.getD b 0) - 4 := by
    intro v hv
    have hpos : 0 < p.getD b 0 := lt_trans (by positivity) hpk
    unfold logFloor
    have e : max (p.getD b 0) (1 / 10 ^ 20) = p.getD b 0 := max_eq_left (le_trans (by norm_num) hpk.le)
    rw [e, show (4 : ℝ) = Real.logb 10 (10 ^ 4) by
      rw [Real.logb_pow, Real.logb_self_eq_one (by norm_num)]; norm_num,
      ← Real.logb_div hpos.ne' (by norm_num)]
    apply Real.logb_lt_logb (by norm_num) (lt_of_lt_of_le (by positivity) (le_max_right _ _))
    apply max_lt hv
    rw [lt_div_iff₀ (by norm_num)]
    linarith
  unfold refineBin
  simp only
  by_cases h1 : 0 < b ∧ b < (p.take n).length - 1
  · rw [if_pos h1, if_neg]
    rw [List.length_take, min_eq_left hn] at h1
    rw [take_getD, take_getD, take_getD, if_pos (by omega), if_pos (by omega), if_pos (by omega), not_le]
    rcases hnb with h | h
    · exact lt_of_le_of_lt (min_le_left _ _) (hfl _ h)
    · exact lt_of_le_of_lt (min_le_right _ _) (hfl _ h)
  · rw [if_neg h1]

/-! ## C33 -/

private theorem search_spec (ideal : List ℝ) (fl : ℝ) (b n : ℕ) : ∀ (fuel sb r : ℕ), sideBinSearch ideal fl b n sb fuel = some r →
    sb ≤ r ∧ r < sb + fuel ∧ (ideal.getD (b - r) 0 ≤ fl ∧ ideal.getD (b + r) 0 ≤ fl) ∧
    ∀ j, sb ≤ j → j < r → ¬ ((j ≤ b ∧ ideal.getD (b - j) 0 ≤ fl) ∧ (b + j < n ∧ ideal.getD (b + j) 0 ≤ fl)) := by
  intro fuel
  induction fuel with
  | zero => intro sb r h; simp [sideBinSearch] at h
  | succ fuel ih =>
    intro sb r h
    unfold sideBinSearch at h
    by_cases hc : (sb ≤ b ∧ ideal.getD (b - sb) 0 ≤ fl) ∧ (b + sb < n ∧ ideal.getD (b + sb) 0 ≤ fl)
    · rw [if_pos hc] at h
      injection h with h
      subst h
      exact ⟨le_rfl, by omega, ⟨hc.1.2, hc.2.2⟩, fun j h1 h2 => by omega⟩
    · rw [if_neg hc] at h
      obtain ⟨h1, h2, h3, h4⟩ := ih (sb + 1) r h
      refine ⟨by omega, by omega, h3, ?_⟩
      intro j hj1 hj2
      by_cases hj : j = sb
      · subst hj; exact hc
      · exact h4 j (by omega) hj2

/-- **C33 (range).** For an in-band fundamental the detected side bin is at least the window default or the largest one that
fits, and the signal window never leaves the analysis band. -/
theorem C33_side_bin_range (p : List ℝ) (b : ℕ) (bFrac : ℝ) (n N : ℕ) (w : ℕ → ℝ) (corr : ℝ) (fallback minimum : ℕ)
    (hb : b < n) :
    let sb := detectSideBinAuto p b bFrac n N w corr fallback minimum
    min minimum (min b (n - 1 - b)) ≤ sb ∧ sb ≤ b ∧ b + sb < n := by
  intro sb
  have key : min minimum (min b (n - 1 - b)) ≤ sb ∧ sb ≤ min b (n - 1 - b) := by
    simp only [sb, detectSideBinAuto]
    split
    · rename_i r hr
      obtain ⟨h1, h2, _, _⟩ := search_spec _ _ _ _ _ _ _ hr
      omega
    · omega
  omega

/-- Spectrum of an ideal sine at the refined bin, scaled to the measured peak: the reference the side bin is judged by. -/
noncomputable def idealLobe (p : List ℝ) (b : ℕ) (bFrac : ℝ) (N : ℕ) (w : ℕ → ℝ) (corr : ℝ) (k : ℕ) : ℝ :=
  let I := fun k => (powerAverage [fun n => Real.sin (2 * Real.pi * bFrac * n / N) * w n] N).getD k 0 * corr
  I k * (max (p.getD b 0) (1 / 10 ^ 30) / max (I b) (1 / 10 ^ 30))

private theorem getD_map_mul (l : List ℝ) (c : ℝ) (k : ℕ) : (l.map (· * c)).getD k 0 = l.getD k 0 * c := by
  by_cases h : k < l.length
  · rw [List.getD_eq_getElem?_getD, List.getElem?_map, List.getD_eq_getElem?_getD, List.getElem?_eq_getElem h]; rfl
  · rw [List.getD_eq_getElem?_getD, List.getD_eq_getElem?_getD, List.getElem?_eq_none (by simpa using h),
      List.getElem?_eq_none (by omega)]; simp

/-- The per-bin floor the lobe is compared with: median of the positive in-band bins, at least `1e-24` of the peak. -/
noncomputable def sideBinFloor (p : List ℝ) (b n : ℕ) : ℝ :=
  max (if 3 ≤ ((p.take n).filter fun v => decide (1 / 10 ^ 20 < v)).length
      then median ((p.take n).filter fun v => decide (1 / 10 ^ 20 < v)) else median (p.take n))
    (max (p.getD b 0) (1 / 10 ^ 30) * (1 / 10 ^ 24))

/-- **C33 (lobe coverage).** If the detected side bin is larger than the minimum and smaller than both the fallback and the
largest possible one, then just outside the signal window the ideal lobe is at or below a common floor on both sides and at
every width inside the window it was above that floor on some side. The floor is at least `1e-24` of the peak. -/
theorem C33_side_bin_crossing (p : List ℝ) (b : ℕ) (bFrac : ℝ) (n N : ℕ) (w : ℕ → ℝ) (corr : ℝ) (fallback minimum : ℕ)
    (hb : b < n) (sb : ℕ) (hsb : detectSideBinAuto p b bFrac n N w corr fallback minimum = sb) (h1 : minimum < sb)
    (h2 : sb < fallback) (h3 : sb < min b (n - 1 - b)) :
    let fl := sideBinFloor p b n
    max (p.getD b 0) (1 / 10 ^ 30) / 10 ^ 24 ≤ fl ∧ idealLobe p b bFrac N w corr (b - (sb + 1)) ≤ fl ∧
      idealLobe p b bFrac N w corr (b + (sb + 1)) ≤ fl ∧
      ∀ j, 1 ≤ j → j ≤ sb → fl < idealLobe p b bFrac N w corr (b - j) ∨ fl < idealLobe p b bFrac N w corr (b + j) := by
  simp only [detectSideBinAuto] at hsb
  split at hsb
  · rename_i r hr
    obtain ⟨g1, g2, ⟨g3, g4⟩, g5⟩ := search_spec _ _ _ _ _ _ _ hr
    have hr' : r = sb + 1 := by omega
    subst hr'
    intro fl
    refine ⟨?_, ?_, ?_, ?_⟩
    rotate_left
    · rw [getD_map_mul, getD_map_mul, getD_map_mul] at g3
      exact g3
    · rw [getD_map_mul, getD_map_mul, getD_map_mul] at g4
      exact g4
    · intro j hj1 hj2
      have := g5 j hj1 (by omega)
      rw [getD_map_mul, getD_map_mul, getD_map_mul, getD_map_mul, getD_map_mul] at this
      by_contra hc
      push Not at hc
      exact this ⟨⟨by omega, hc.1⟩, by omega, hc.2⟩
    · refine le_trans ?_ (le_max_right _ _)
      rw [div_eq_mul_one_div]
  · intro fl; omega

/-! ### Concrete cases -/

example : fundamentalBin ([7, 1, 5, 5, 2] : List ℚ) 5 = 2 := by decide +kernel
example : fundamentalBin ([7, 1, 5, 9, 2] : List ℚ) 3 = 2 := by decide +kernel
example : (locateFundamental [1, 2, 50, 3, 1] 5).1 = 2 := by
  simp [locateFundamental, fundamentalBin, argmax]; norm_num

end Verif
