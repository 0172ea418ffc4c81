import Verif.Model.MatlabPhase
import Verif.Theorems.MatlabAlign
import Verif.Theorems.MatlabSpectrum
import Verif.Theorems.Fundamental

/-!
# C127: the polar spectrum of `plotphase.m` (FFT mode) and of `analyze_spectrum_polar`
-/

namespace Verif

open Model Finset

/-! ### Alignment -/

private theorem scale_loop (X : ℕ → ℂ) (κ : ℂ) (b N : ℕ) (u : ℂ) (t : ℕ) :
    let m := (List.range t).foldl (fun (s : AlignState) (i : ℕ) => mlAlignStep b N u s (i + 1)) ⟨Function.update X 0 0, ∅, u⟩
    let m' := (List.range t).foldl (fun (s : AlignState) (i : ℕ) => mlAlignStep b N u s (i + 1)) ⟨Function.update (fun k => κ * X k) 0 0, ∅, u⟩
    m'.hp = m.hp ∧ m'.done = m.done ∧ ∀ k, m'.X k = κ * m.X k := by
  induction t with
  | zero =>
    refine ⟨rfl, rfl, fun k => ?_⟩
    by_cases hk : k = 0
    · subst hk; simp
    · simp [Function.update_of_ne hk]
  | succ t ih =>
    simp only [List.range_succ, List.foldl_append, List.foldl_cons, List.foldl_nil]
    simp only at ih
    generalize (List.range t).foldl (fun (s : AlignState) (i : ℕ) => mlAlignStep b N u s (i + 1)) ⟨Function.update X 0 0, ∅, u⟩ = m at ih
    generalize (List.range t).foldl (fun (s : AlignState) (i : ℕ) => mlAlignStep b N u s (i + 1)) ⟨Function.update (fun k => κ * X k) 0 0, ∅, u⟩ = m' at ih
    obtain ⟨i1, i2, i3⟩ := ih
    unfold mlAlignStep
    simp only [i1, i2]
    by_cases hc : (mlAlignTarget b (t + 1) N).1 ∉ m.done
    · rw [if_pos hc, if_pos hc]
      refine ⟨trivial, rfl, fun k => ?_⟩
      simp only
      by_cases hk : k = (mlAlignTarget b (t + 1) N).1
      · rw [hk, Function.update_self, Function.update_self, i3]
        ring
      · rw [Function.update_of_ne hk, Function.update_of_ne hk, i3]
    · rw [if_neg hc, if_neg hc]
      exact ⟨trivial, i2, i3⟩

/-- `plotphase.m` turns a scaled spectrum by the same angles. -/
private theorem phase_scale (X : ℕ → ℂ) (κ : ℝ) (hκ : 0 < κ) (b : ℕ) (bR : ℝ) (N k : ℕ) (hb : 0 < b) :
    mlPhaseAlign (fun k => (κ : ℂ) * X k) b bR N k = κ * mlPhaseAlign X b bR N k := by
  unfold mlPhaseAlign
  have h1 : Function.update (fun k => (κ : ℂ) * X k) 0 0 b = κ * X b := Function.update_of_ne hb.ne' _ _
  have h2 : Function.update X 0 0 b = X b := Function.update_of_ne hb.ne' _ _
  have hu : (κ : ℂ) * X b / (‖(κ : ℂ) * X b‖ : ℂ) = X b / (‖X b‖ : ℂ) := by
    have hk : (κ : ℂ) ≠ 0 := by exact_mod_cast hκ.ne'
    rw [norm_mul, Complex.norm_real, Real.norm_of_nonneg hκ.le, Complex.ofReal_mul, mul_div_mul_left _ _ hk]
  simp only [h1, h2, hu]
  obtain ⟨-, l2, l3⟩ := scale_loop X κ b N ((starRingEnd ℂ) (X b / (‖X b‖ : ℂ))) N
  rw [l2, l3]
  split_ifs
  · rfl
  · ring

private theorem gain_le_one (z : ℂ) : guardGain z ≤ 1 := by
  unfold guardGain
  have := norm_nonneg z
  rw [div_le_one (by positivity)]
  linarith [show (0 : ℝ) < 1 / 10 ^ 20 by positivity]

private theorem gain_pow (z : ℂ) (hz : z ≠ 0) (N : ℕ) : 1 - N * (1 / 10 ^ 20 / ‖z‖) ≤ guardGain z ^ N := by
  have hn := norm_pos_iff.mpr hz
  have hb : -1 ≤ guardGain z - 1 := by have := ml_gain_pos z hz; linarith
  have h1 := one_add_mul_sub_le_pow (a := guardGain z) (by linarith) N
  have h2 : 1 - guardGain z ≤ 1 / 10 ^ 20 / ‖z‖ := by
    unfold guardGain
    rw [one_sub_div (by positivity), add_sub_cancel_left]
    apply div_le_div_of_nonneg_left (by positivity) hn
    linarith [show (0 : ℝ) < 1 / 10 ^ 20 by positivity]
  have h3 : (N : ℝ) * (1 - guardGain z) ≤ N * (1 / 10 ^ 20 / ‖z‖) := mul_le_mul_of_nonneg_left h2 (Nat.cast_nonneg N)
  linarith

/-- **C127 (alignment).** With the same fundamental bin `b` and the same interpolated bin, a bin aligned by `_align_spectrum_phase` is that of `plotphase.m` times a
positive real between `1 - N·1e-20/|X[b]|` and 1: it has the same angle. Unlike `plotspec.m` (C122), `plotphase.m` divides by the interpolated bin as Python does, so this
holds at every bin and not at the harmonics only. The common scale `κ` of the record does not matter. -/
theorem C127_align (X : ℕ → ℂ) (κ : ℝ) (hκ : 0 < κ) (b N k : ℕ) (bR : ℝ) (hN : 0 < N) (hb : 0 < b) (hX : X b ≠ 0) (hk : 0 < k) (hbR : 0 < bR) (hkN : (k : ℝ) ≤ N * bR) :
    ∃ g : ℝ, 0 < g ∧ g ≤ 1 ∧ 1 - N * (1 / 10 ^ 20 / ‖X b‖) ≤ g ∧
      alignSpectrumPhase X b bR N k * κ = g * mlPhaseAlign (fun k => (κ : ℂ) * X k) b bR N k := by
  have hn := norm_pos_iff.mpr hX
  have hg0 := ml_gain_pos _ hX
  have hg1 := gain_le_one (X b)
  have hgN := gain_pow _ hX N
  have hu0 : (starRingEnd ℂ) (X b / (‖X b‖ : ℂ)) ≠ 0 := by
    rw [Ne, map_eq_zero, div_eq_zero_iff, not_or]
    exact ⟨hX, by exact_mod_cast hn.ne'⟩
  have hub : Function.update X 0 0 b = X b := Function.update_of_ne hb.ne' _ _
  rw [phase_scale X κ hκ b bR N k hb, align_eq X b bR N k hb, if_neg hk.ne']
  unfold mlPhaseAlign
  simp only [hub]
  rw [ml_phasor X b hX]
  set c := guardGain (X b) with hcd
  set u := (starRingEnd ℂ) (X b / (‖X b‖ : ℂ)) with hud
  obtain ⟨-, l2, -, l3, l4⟩ := ml_loops X b N hN c u N
  rw [l2]
  by_cases hmem : k ∈ ((List.range N).foldl (fun (s : AlignState) (i : ℕ) => mlAlignStep b N u s (i + 1)) ⟨Function.update X 0 0, ∅, u⟩).done
  · rw [if_pos hmem, if_pos hmem]
    obtain ⟨h, h1, h2, h3⟩ := l4 k hk.ne' hmem
    refine ⟨c ^ h, pow_pos hg0 h, pow_le_one₀ hg0.le hg1, le_trans hgN (pow_le_pow_of_le_one hg0.le hg1 h2), ?_⟩
    rw [h3]
    push_cast
    ring
  · rw [if_neg hmem, if_neg hmem, if_pos hbR, (l3 k hk.ne' hmem).1, ml_cpow c hg0 u hu0]
    refine ⟨c ^ ((k : ℝ) / bR), Real.rpow_pos_of_pos hg0 _, Real.rpow_le_one hg0.le hg1 (by positivity), le_trans hgN ?_, ?_⟩
    · rw [← Real.rpow_natCast]
      exact Real.rpow_le_rpow_of_exponent_ge hg0 hg1 (by rw [div_le_iff₀ hbR]; exact hkN)
    · rw [Complex.ofReal_cpow hg0.le]
      ring

/-! ### The interpolated bin -/

/-- `b` is the strongest of the bins `1 .. n-1` - the first, if there are several -, it lies among the first `nd2`, and these are not more than `n`. -/
def PhasePeak (X : ℕ → ℂ) (n nd2 b : ℕ) : Prop :=
  1 ≤ b ∧ b < nd2 ∧ nd2 ≤ n ∧ X b ≠ 0 ∧ (∀ j, 1 ≤ j → j < n → ‖X j‖ ≤ ‖X b‖) ∧ ∀ j, 1 ≤ j → j < b → ‖X j‖ < ‖X b‖

private theorem py_bin (X : ℕ → ℂ) (n nd2 b L : ℕ) (h : PhasePeak X n nd2 b) (hn : n ≤ L) : fundamentalBin ((List.range L).map fun (k : ℕ) => ‖X k‖ ^ 2) n = b := by
  obtain ⟨h1, h2, h3, h4, h5, h6⟩ := h
  set p := (List.range L).map fun (k : ℕ) => ‖X k‖ ^ 2 with hp
  have hg : ∀ j < L, p.getD j 0 = ‖X j‖ ^ 2 := by
    intro j hj
    rw [hp, List.getD_eq_getElem?_getD, List.getElem?_map, List.getElem?_range hj]
    rfl
  obtain ⟨f1, f2, f3, f4⟩ := C27_fundamental_strongest p n (by simp [hp, hn]) (by omega)
  set f := fundamentalBin p n with hf
  have g1 := f3 b h1 (by omega)
  rw [hg b (by omega), hg f (by omega)] at g1
  have g2 := h5 f f1 f2
  have g3 : ‖X b‖ ≤ ‖X f‖ := (sq_le_sq₀ (norm_nonneg _) (norm_nonneg _)).mp g1
  rcases lt_trichotomy f b with hl | he | hl
  · have := h6 f f1 hl
    linarith
  · exact he
  · have := f4 b h1 hl
    rw [hg b (by omega), hg f (by omega)] at this
    have e : ‖X b‖ = ‖X f‖ := le_antisymm g3 g2
    rw [e] at this
    exact absurd this (lt_irrefl _)

private theorem ml_bin (X : ℕ → ℂ) (n nd2 b : ℕ) (h : PhasePeak X n nd2 b) : mlPhaseBin X nd2 = b := by
  obtain ⟨h1, h2, h3, h4, h5, h6⟩ := h
  unfold mlPhaseBin
  have hg : ∀ j < nd2, ((List.range nd2).map fun (k : ℕ) => if k = 0 then 0 else ‖X k‖).getD j 0 = if j = 0 then 0 else ‖X j‖ := by
    intro j hj
    rw [List.getD_eq_getElem?_getD, List.getElem?_map, List.getElem?_range hj]
    rfl
  have hpos := norm_pos_iff.mpr h4
  apply ml_argmax_unique
  · simpa using h2
  · intro j hj
    rw [List.length_map, List.length_range] at hj
    rw [hg j hj, hg b h2, if_neg (show b ≠ 0 by omega)]
    split_ifs with h0
    · exact hpos.le
    · exact h5 j (by omega) (by omega)
  · intro j hj
    rw [hg j (by omega), hg b h2, if_neg (show b ≠ 0 by omega)]
    split_ifs with h0
    · exact hpos
    · exact h6 j (by omega) hj

private theorem peak_scale (X : ℕ → ℂ) (κ : ℝ) (hκ : 0 < κ) (n nd2 b : ℕ) (h : PhasePeak X n nd2 b) : PhasePeak (fun k => (κ : ℂ) * X k) n nd2 b := by
  obtain ⟨h1, h2, h3, h4, h5, h6⟩ := h
  have hm : ∀ j, ‖(κ : ℂ) * X j‖ = κ * ‖X j‖ := fun j => by rw [norm_mul, Complex.norm_real, Real.norm_of_nonneg hκ.le]
  refine ⟨h1, h2, h3, mul_ne_zero (by exact_mod_cast hκ.ne') h4, fun j hj hj2 => ?_, fun j hj hj2 => ?_⟩
  · simp only [hm]
    exact mul_le_mul_of_nonneg_left (h5 j hj hj2) hκ.le
  · simp only [hm]
    exact mul_lt_mul_of_pos_left (h6 j hj hj2) hκ

/-- Same bin. -/
theorem C127_bin (X : ℕ → ℂ) (κ : ℝ) (hκ : 0 < κ) (n nd2 b L : ℕ) (h : PhasePeak X n nd2 b) (hn : n ≤ L) :
    (locateFundamental ((List.range L).map fun (k : ℕ) => ‖X k‖ ^ 2) n).1 = b ∧ mlPhaseBin (fun k => (κ : ℂ) * X k) nd2 = b :=
  ⟨py_bin X n nd2 b L h hn, ml_bin _ n nd2 b (peak_scale X κ hκ n nd2 b h)⟩

private theorem refine_scale (X : ℕ → ℂ) (κ : ℝ) (hκ : 0 < κ) (n nd2 b : ℕ) (h : PhasePeak X n nd2 b) :
    mlPhaseRefine (fun k => (κ : ℂ) * X k) b nd2 = mlPhaseRefine X b nd2 := by
  have hm : ∀ j, (if j = 0 then 0 else ‖(κ : ℂ) * X j‖) = κ * (if j = 0 then 0 else ‖X j‖) := fun j => by
    split_ifs
    · simp
    · rw [norm_mul, Complex.norm_real, Real.norm_of_nonneg hκ.le]
  have hb0 : (if b = 0 then 0 else ‖X b‖) ≠ 0 := by
    rw [if_neg (by have := h.1; omega)]
    exact norm_ne_zero_iff.mpr h.2.2.2.1
  unfold mlPhaseRefine
  simp only [hm, mul_eq_zero, hκ.ne', false_or]
  by_cases h0 : (if b - 1 = 0 then 0 else ‖X (b - 1)‖) = 0 ∨ (if min (b + 1) (nd2 - 1) = 0 then 0 else ‖X (min (b + 1) (nd2 - 1))‖) = 0
  · rw [if_pos h0, if_pos h0]
  · rw [if_neg h0, if_neg h0]
    rw [not_or] at h0
    rw [Real.logb_mul hκ.ne' h0.1, Real.logb_mul hκ.ne' h0.2, Real.logb_mul hκ.ne' hb0]
    generalize Real.logb 10 κ = z
    rw [show ∀ x y w : ℝ, 2 * (z + x) - (z + y) - (z + w) = 2 * x - y - w from fun _ _ _ => by ring, show ∀ x y : ℝ, z + x - (z + y) = x - y from fun _ _ => by ring]

private theorem ml_refine_half (X : ℕ → ℂ) (n nd2 b : ℕ) (h : PhasePeak X n nd2 b) : |mlPhaseRefine X b nd2 - b| ≤ 1 / 2 := by
  obtain ⟨h1, h2, h3, h4, h5, h6⟩ := h
  have hle : ∀ j, j < n → (if j = 0 then 0 else ‖X j‖) ≤ ‖X b‖ := fun j hj => by
    split_ifs
    · exact norm_nonneg _
    · exact h5 j (by omega) hj
  unfold mlPhaseRefine
  simp only [if_neg (show b ≠ 0 by omega)]
  have hl := hle (b - 1) (by omega)
  have hr := hle (min (b + 1) (nd2 - 1)) (by omega)
  have hl0 : 0 ≤ (if b - 1 = 0 then 0 else ‖X (b - 1)‖) := by split_ifs <;> simp
  have hr0 : 0 ≤ (if min (b + 1) (nd2 - 1) = 0 then 0 else ‖X (min (b + 1) (nd2 - 1))‖) := by split_ifs <;> simp
  generalize (if b - 1 = 0 then 0 else ‖X (b - 1)‖) = l at *
  generalize (if min (b + 1) (nd2 - 1) = 0 then 0 else ‖X (min (b + 1) (nd2 - 1))‖) = r at *
  split_ifs with c1 c2
  · simp
  · simp
  · rw [not_or] at c1
    have a1 := Real.logb_le_logb_of_le (b := 10) (by norm_num) (lt_of_le_of_ne hl0 (Ne.symm c1.1)) hl
    have a2 := Real.logb_le_logb_of_le (b := 10) (by norm_num) (lt_of_le_of_ne hr0 (Ne.symm c1.2)) hr
    generalize Real.logb 10 l = sl at *
    generalize Real.logb 10 r = sr at *
    generalize Real.logb 10 ‖X b‖ = se at *
    have hd : 0 < 2 * se - sl - sr := lt_of_le_of_ne (by linarith) (Ne.symm c2)
    rw [add_sub_cancel_left, abs_div, abs_div, abs_of_pos hd, abs_of_pos (show (0 : ℝ) < 2 by norm_num), div_div, div_le_iff₀ (by positivity), abs_le]
    constructor <;> linarith

/-- **C127 (interpolated bin).** The two interpolate to the same fractional bin if the fundamental has at least index 2 and does not touch the band edge and both neighbours
are within 40 dB of it and above the `1e-20` floor. -/
theorem C127_refine (X : ℕ → ℂ) (κ : ℝ) (hκ : 0 < κ) (n nd2 b L : ℕ) (h : PhasePeak X n nd2 b) (hn : n ≤ L) (hb2 : 2 ≤ b) (hbn : b + 1 < nd2)
    (hl : 1 / 10 ^ 20 ≤ ‖X (b - 1)‖ ^ 2) (hr : 1 / 10 ^ 20 ≤ ‖X (b + 1)‖ ^ 2) (hl4 : ‖X b‖ ^ 2 / 10 ^ 4 ≤ ‖X (b - 1)‖ ^ 2) (hr4 : ‖X b‖ ^ 2 / 10 ^ 4 ≤ ‖X (b + 1)‖ ^ 2) :
    (locateFundamental ((List.range L).map fun (k : ℕ) => ‖X k‖ ^ 2) n).2 = mlPhaseRefine (fun k => (κ : ℂ) * X k) b nd2 := by
  rw [refine_scale X κ hκ n nd2 b h]
  have hpb := py_bin X n nd2 b L h hn
  obtain ⟨h1, h2, h3, h4, h5, h6⟩ := h
  unfold locateFundamental
  simp only [hpb]
  unfold refineBin mlPhaseRefine
  have hg : ∀ j < n, (((List.range L).map fun (k : ℕ) => ‖X k‖ ^ 2).take n).getD j 0 = ‖X j‖ ^ 2 := by
    intro j hj
    rw [List.getD_eq_getElem?_getD, List.getElem?_take_of_lt hj, List.getElem?_map, List.getElem?_range (by omega)]
    rfl
  have hlen : (((List.range L).map fun (k : ℕ) => ‖X k‖ ^ 2).take n).length = n := by simp [hn]
  have hb1 := h5 (b - 1) (by omega) (by omega)
  have hbb : 1 / 10 ^ 20 ≤ ‖X b‖ ^ 2 := le_trans hl (by gcongr)
  have hpos : ∀ {z : ℂ}, 1 / 10 ^ 20 ≤ ‖z‖ ^ 2 → ‖z‖ ≠ 0 := by
    intro z hz h0
    rw [h0] at hz
    norm_num at hz
  have hlf : ∀ {z : ℂ}, 1 / 10 ^ 20 ≤ ‖z‖ ^ 2 → logFloor (‖z‖ ^ 2) = 2 * Real.logb 10 ‖z‖ := by
    intro z hz
    unfold logFloor
    rw [max_eq_left hz, Real.logb_pow]
    norm_num
  simp only [hlen, hg _ (show b - 1 < n by omega), hg _ (show b < n by omega), hg _ (show b + 1 < n by omega), hlf hl, hlf hr, hlf hbb, Nat.min_eq_left (show b + 1 ≤ nd2 - 1 by omega)]
  rw [if_pos (show 0 < b ∧ b < n - 1 by omega)]
  have hlog : ∀ {z : ℂ}, 1 / 10 ^ 20 ≤ ‖z‖ ^ 2 → ‖X b‖ ^ 2 / 10 ^ 4 ≤ ‖z‖ ^ 2 → 2 * Real.logb 10 ‖X b‖ - 4 ≤ 2 * Real.logb 10 ‖z‖ := by
    intro z hz h4'
    have := Real.logb_le_logb_of_le (b := 10) (by norm_num) (by positivity) h4'
    rw [Real.logb_div (by have := hpos hbb; positivity) (by norm_num), Real.logb_pow, Real.logb_pow, Real.logb_pow, Real.logb_self_eq_one (by norm_num)] at this
    push_cast at this
    linarith
  rw [if_pos (le_min (hlog hl hl4) (hlog hr hr4)), if_neg (show b - 1 ≠ 0 by omega), if_neg (show b + 1 ≠ 0 by omega), if_neg (show b ≠ 0 by omega),
    if_neg (show ¬ (‖X (b - 1)‖ = 0 ∨ ‖X (b + 1)‖ = 0) by rw [not_or]; exact ⟨hpos hl, hpos hr⟩)]
  generalize Real.logb 10 ‖X (b - 1)‖ = sl
  generalize Real.logb 10 ‖X (b + 1)‖ = sr
  generalize Real.logb 10 ‖X b‖ = se
  by_cases hz : 2 * se - sl - sr = 0
  · rw [if_pos hz, if_pos (show 2 * (2 * (2 * se) - 2 * sl - 2 * sr) = 0 by linarith)]
  · rw [if_neg hz, if_neg (show ¬ 2 * (2 * (2 * se) - 2 * sl - 2 * sr) = 0 from fun e => hz (by linarith))]
    congr 1
    rw [div_div, show 2 * (2 * (2 * se) - 2 * sl - 2 * sr) = 2 * ((2 * se - sl - sr) * 2) by ring, ← mul_sub, mul_div_mul_left _ _ (by norm_num : (2 : ℝ) ≠ 0)]

/-- Both stay at the whole bin if the neighbours vanish, as those of a coherent tone without a window do. -/
theorem C127_refine_coherent (X : ℕ → ℂ) (κ : ℝ) (hκ : 0 < κ) (n nd2 b L : ℕ) (h : PhasePeak X n nd2 b) (hn : n ≤ L) (hl : X (b - 1) = 0) (hr : X (b + 1) = 0) :
    (locateFundamental ((List.range L).map fun (k : ℕ) => ‖X k‖ ^ 2) n).2 = b ∧ mlPhaseRefine (fun k => (κ : ℂ) * X k) b nd2 = b := by
  rw [refine_scale X κ hκ n nd2 b h]
  have hpb := py_bin X n nd2 b L h hn
  obtain ⟨h1, h2, h3, h4, h5, h6⟩ := h
  constructor
  · unfold locateFundamental
    simp only [hpb]
    unfold refineBin
    have hg : ∀ j, X j = 0 → (((List.range L).map fun (k : ℕ) => ‖X k‖ ^ 2).take n).getD j 0 = 0 := by
      intro j hj
      rw [List.getD_eq_getElem?_getD]
      cases hc : (((List.range L).map fun (k : ℕ) => ‖X k‖ ^ 2).take n)[j]? with
      | none => rfl
      | some v =>
        rw [List.getElem?_take] at hc
        split_ifs at hc
        rw [List.getElem?_map] at hc
        by_cases hjL : j < L
        · rw [List.getElem?_range hjL, Option.map_some, Option.some.injEq] at hc
          rw [Option.getD_some, ← hc, hj]
          simp
        · rw [List.getElem?_eq_none (by simpa using hjL)] at hc
          simp at hc
    simp only [hg _ hl, hg _ hr]
    split_ifs <;> simp
  · unfold mlPhaseRefine
    simp only [hl, norm_zero, ite_self, true_or, if_true]

/-- **C127 (refuted: the interpolated bin in general).** At the last bin of the band `plotphase.m` compares the fundamental with itself and moves it by exactly half a bin,
whatever the spectrum, as soon as the left neighbour is not zero. -/
theorem C127_band_edge (X : ℕ → ℂ) (n nd2 b : ℕ) (h : PhasePeak X n nd2 b) (hb : b + 1 = nd2) (hb2 : 2 ≤ b) (hl : X (b - 1) ≠ 0) :
    mlPhaseRefine X b nd2 = b + 1 / 2 := by
  obtain ⟨h1, h2, h3, h4, h5, h6⟩ := h
  unfold mlPhaseRefine
  have hm : min (b + 1) (nd2 - 1) = b := by omega
  simp only [hm, if_neg (show b - 1 ≠ 0 by omega), if_neg (show b ≠ 0 by omega)]
  have h0 := norm_pos_iff.mpr hl
  have hlt := Real.logb_lt_logb (b := 10) (by norm_num) h0 (h6 (b - 1) (by omega) (by omega))
  rw [if_neg (by rw [not_or]; exact ⟨h0.ne', norm_ne_zero_iff.mpr h4⟩), if_neg (by intro hh; linarith)]
  congr 1
  rw [show 2 * Real.logb 10 ‖X b‖ - Real.logb 10 ‖X (b - 1)‖ - Real.logb 10 ‖X b‖ = Real.logb 10 ‖X b‖ - Real.logb 10 ‖X (b - 1)‖ by ring,
    div_self (by linarith)]

/-- **C127 (refuted: weak neighbours).** When one neighbour is more than 40 dB below the fundamental, Python keeps the whole bin; `plotphase.m` still interpolates, so the
two differ as soon as the neighbours differ. -/
theorem C127_weak_neighbours (X : ℕ → ℂ) (κ : ℝ) (hκ : 0 < κ) (n nd2 b L : ℕ) (h : PhasePeak X n nd2 b) (hn : n ≤ L) (hb2 : 2 ≤ b) (hbn : b + 1 < nd2)
    (hl : X (b - 1) ≠ 0) (hr : X (b + 1) ≠ 0) (hne : ‖X (b - 1)‖ ≠ ‖X (b + 1)‖) (hpk : 1 / 10 ^ 16 < ‖X b‖ ^ 2)
    (hweak : ‖X (b - 1)‖ ^ 2 < ‖X b‖ ^ 2 / 10 ^ 4 ∨ ‖X (b + 1)‖ ^ 2 < ‖X b‖ ^ 2 / 10 ^ 4) :
    (locateFundamental ((List.range L).map fun (k : ℕ) => ‖X k‖ ^ 2) n).2 = b ∧ mlPhaseRefine (fun k => (κ : ℂ) * X k) b nd2 ≠ b := by
  rw [refine_scale X κ hκ n nd2 b h]
  have hpb := py_bin X n nd2 b L h hn
  obtain ⟨h1, h2, h3, h4, h5, h6⟩ := h
  constructor
  · have hg : ∀ j < L, ((List.range L).map fun (k : ℕ) => ‖X k‖ ^ 2).getD j 0 = ‖X j‖ ^ 2 := by
      intro j hj
      rw [List.getD_eq_getElem?_getD, List.getElem?_map, List.getElem?_range hj]
      rfl
    have := C27_coherent_bin_exact ((List.range L).map fun (k : ℕ) => ‖X k‖ ^ 2) n (by simpa using hn)
    rw [hpb, hg b (by omega), hg (b - 1) (by omega), hg (b + 1) (by omega)] at this
    rw [this hpk hweak]
    show ((fundamentalBin _ n : ℕ) : ℝ) = b
    rw [hpb]
  · unfold mlPhaseRefine
    simp only [Nat.min_eq_left (show b + 1 ≤ nd2 - 1 by omega), if_neg (show b - 1 ≠ 0 by omega), if_neg (show b + 1 ≠ 0 by omega), if_neg (show b ≠ 0 by omega)]
    have l0 := norm_pos_iff.mpr hl
    have r0 := norm_pos_iff.mpr hr
    rw [if_neg (show ¬ (‖X (b - 1)‖ = 0 ∨ ‖X (b + 1)‖ = 0) by rw [not_or]; exact ⟨l0.ne', r0.ne'⟩)]
    have a1 := Real.logb_lt_logb (b := 10) (by norm_num) l0 (h6 (b - 1) (by omega) (by omega))
    have a2 := Real.logb_le_logb_of_le (b := 10) (by norm_num) r0 (h5 (b + 1) (by omega) (by omega))
    have hd : Real.logb 10 ‖X (b + 1)‖ - Real.logb 10 ‖X (b - 1)‖ ≠ 0 := by
      intro hh
      exact hne (Real.logb_injOn_pos (b := 10) (by norm_num) (Set.mem_Ioi.mpr l0) (Set.mem_Ioi.mpr r0) (by linarith))
    rw [if_neg (by intro hh; linarith)]
    intro hh
    have hz : (Real.logb 10 ‖X (b + 1)‖ - Real.logb 10 ‖X (b - 1)‖) / (2 * Real.logb 10 ‖X b‖ - Real.logb 10 ‖X (b - 1)‖ - Real.logb 10 ‖X (b + 1)‖) / 2 = 0 := by linarith
    rw [div_eq_zero_iff, div_eq_zero_iff] at hz
    rcases hz with (h0 | h0) | h0
    · exact hd h0
    · linarith
    · norm_num at h0

/-- Such a spectrum: bins 0, 1, 1000, 20, 1. -/
example : PhasePeak (fun k => ([0, 1, 1000, 20, 1] : List ℂ).getD k 0) 5 4 2 ∧ ‖([0, 1, 1000, 20, 1] : List ℂ).getD 1 0‖ ^ 2 < ‖([0, 1, 1000, 20, 1] : List ℂ).getD 2 0‖ ^ 2 / 10 ^ 4 := by
  refine ⟨⟨by norm_num, by norm_num, by norm_num, by norm_num, fun j h1 h2 => ?_, fun j h1 h2 => ?_⟩, by norm_num⟩
  · interval_cases j <;> norm_num
  · interval_cases j; norm_num

/-! ### A run -/

/-- The windowed run of `compute_spectrum`. -/
noncomputable def pyRun (r : List ℝ) (P : ℝ) (w : ℕ → ℝ) (n : ℕ) : ℝ := ((removeDc r).map (· / (P / 2))).getD n 0 * w n

/-- Its spectrum. -/
noncomputable def pyRunSpec (r : List ℝ) (P : ℝ) (w : ℕ → ℝ) (N k : ℕ) : ℂ := dft N (fun i => (pyRun r P w i : ℂ)) k

private theorem run_spec (r : List ℝ) (P : ℝ) (hP : P ≠ 0) (w : ℕ → ℝ) (N : ℕ) (hW : 0 < (∑ n ∈ range N, w n ^ 2) / N) :
    (fun k : ℕ => dft N (fun n => (mlRun r P w N n : ℂ)) k) = fun k => ((1 / (2 * √((∑ n ∈ range N, w n ^ 2) / N)) : ℝ) : ℂ) * pyRunSpec r P w N k := by
  set W := (∑ n ∈ range N, w n ^ 2) / N with hWd
  funext k
  unfold pyRunSpec
  rw [← ml_dft_smul]
  congr 1
  funext n
  congr 1
  unfold mlRun pyRun
  rw [ml_removeDc_div, ml_getD_map_div, ml_getD_map_div, ← hWd]
  have : √W ≠ 0 := (Real.sqrt_pos.mpr hW).ne'
  field_simp

/-- A run both programs use and interpolate alike: some windowed sample reaches `1e-10`, its strongest bin is the same with and without the bin at the band edge, the
interpolations agree (`C127_refine`, `C127_refine_coherent`), and the guard stays below `ε`. -/
def PhaseRun (r : List ℝ) (P : ℝ) (w : ℕ → ℝ) (N n nd2 : ℕ) (ε : ℝ) : Prop :=
  (∃ i < N, 1 / 10 ^ 10 ≤ |pyRun r P w i|) ∧
  ∃ b, PhasePeak (pyRunSpec r P w N) n nd2 b ∧ N * (1 / 10 ^ 20 / ‖pyRunSpec r P w N b‖) ≤ ε ∧
    (locateFundamental ((List.range (N / 2 + 1)).map fun (k : ℕ) => ‖pyRunSpec r P w N k‖ ^ 2) n).2 =
      mlPhaseRefine (fun k => dft N (fun n => (mlRun r P w N n : ℂ)) k) b nd2

/-- **C127 (one run).** Both programs keep such a run, and their aligned spectra agree at every bin up to the common scale of the record and a real factor between `1 - ε`
and 1. -/
theorem C127_run (r : List ℝ) (P : ℝ) (hP : P ≠ 0) (w : ℕ → ℝ) (N n nd2 : ℕ) (hN : 0 < N) (hW : 0 < (∑ n ∈ range N, w n ^ 2) / N) (hn : n ≤ N / 2 + 1) (ε : ℝ)
    (h : PhaseRun r P w N n nd2 ε) :
    ∃ F S, coherentRun (pyRun r P w) N n = some F ∧ mlPhaseRun r P w N nd2 = some S ∧
      ∀ k, 1 ≤ k → 2 * k ≤ N → ∃ g : ℝ, 0 < g ∧ g ≤ 1 ∧ 1 - ε ≤ g ∧ F k * ((1 / (2 * √((∑ n ∈ range N, w n ^ 2) / N)) : ℝ) : ℂ) = g * S k := by
  obtain ⟨⟨i, hi, hi1⟩, b, hpk, hε, hR⟩ := h
  have hY := run_spec r P hP w N hW
  set κ : ℝ := 1 / (2 * √((∑ n ∈ range N, w n ^ 2) / N)) with hκd
  have hκ : 0 < κ := by rw [hκd]; have := Real.sqrt_pos.mpr hW; positivity
  rw [hY] at hR
  obtain ⟨b1, b2⟩ := C127_bin (pyRunSpec r P w N) κ hκ n nd2 b (N / 2 + 1) hpk hn
  have hb0 : b ≠ 0 := by have := hpk.1; omega
  refine ⟨alignSpectrumPhase (pyRunSpec r P w N) b (mlPhaseRefine (fun k => (κ : ℂ) * pyRunSpec r P w N k) b nd2) N,
    mlPhaseAlign (fun k => (κ : ℂ) * pyRunSpec r P w N k) b (mlPhaseRefine (fun k => (κ : ℂ) * pyRunSpec r P w N k) b nd2) N, ?_, ?_, ?_⟩
  · unfold coherentRun
    rw [if_neg (by push Not; exact ⟨i, hi, hi1⟩)]
    show (if (locateFundamental ((List.range (N / 2 + 1)).map fun (k : ℕ) => ‖pyRunSpec r P w N k‖ ^ 2) n).1 = 0 then none
      else some (alignSpectrumPhase (pyRunSpec r P w N) (locateFundamental ((List.range (N / 2 + 1)).map fun (k : ℕ) => ‖pyRunSpec r P w N k‖ ^ 2) n).1
        (locateFundamental ((List.range (N / 2 + 1)).map fun (k : ℕ) => ‖pyRunSpec r P w N k‖ ^ 2) n).2 N)) = _
    rw [b1, hR, if_neg hb0]
  · unfold mlPhaseRun
    simp only
    rw [hY, b2, if_neg hb0]
  · intro k hk hkN
    have hhalf := ml_refine_half _ n nd2 b (peak_scale _ κ hκ n nd2 b hpk)
    set bR := mlPhaseRefine (fun k => (κ : ℂ) * pyRunSpec r P w N k) b nd2
    have hb1 : (1 : ℝ) ≤ b := by exact_mod_cast hpk.1
    have hbR : 1 / 2 ≤ bR := by have := (abs_le.mp hhalf).1; linarith
    have hkR : 2 * (k : ℝ) ≤ N := by exact_mod_cast hkN
    have hN' : (0 : ℝ) < N := by exact_mod_cast hN
    obtain ⟨g, g1, g2, g3, g4⟩ := C127_align (pyRunSpec r P w N) κ hκ b N k bR hN hpk.1 hpk.2.2.2.1 hk (by linarith) (by nlinarith)
    exact ⟨g, g1, g2, by linarith, g4⟩

/-! ### The polar spectrum -/

private theorem half_le (N : ℕ) (osr : ℝ) (h : 1 ≤ osr) : mlPhaseHalf N osr ≤ N / 2 := by
  unfold mlPhaseHalf
  have h1 : ⌊(N : ℝ) / 2 / osr⌋ ≤ ((N / 2 : ℕ) : ℤ) := by
    rw [← Int.lt_add_one_iff, Int.floor_lt]
    have h2 : (N : ℝ) / 2 / osr ≤ N / 2 := div_le_self (by positivity) h
    have h3 : (N : ℝ) < 2 * ((N / 2 : ℕ) : ℝ) + 2 := by
      have : N < 2 * (N / 2) + 2 := by omega
      exact_mod_cast this
    rw [Int.cast_add, Int.cast_natCast, Int.cast_one]
    linarith
  omega

private theorem inband_le (N : ℕ) (osr : ℝ) (n : ℕ) (h : rfftInbandBinCount (N : ℤ) osr = .ok n) : n ≤ N / 2 + 1 ∧ 0 < N := by
  unfold rfftInbandBinCount at h
  split_ifs at h with h1 h2
  simp only [Except.ok.injEq] at h
  constructor
  · rw [← h]
    omega
  · omega

private theorem sum_runs (d : List (List ℝ)) (P : ℝ) (hP : P ≠ 0) (w : ℕ → ℝ) (N n nd2 : ℕ) (hN : 0 < N) (hW : 0 < (∑ n ∈ range N, w n ^ 2) / N) (hn : n ≤ N / 2 + 1)
    (ε : ℝ) (h : ∀ r ∈ d, PhaseRun r P w N n nd2 ε) (k : ℕ) (hk : 1 ≤ k) (hkN : 2 * k ≤ N) :
    ((d.map fun r => pyRun r P w).filterMap fun x => coherentRun x N n).length = d.length ∧ (d.filterMap fun r => mlPhaseRun r P w N nd2).length = d.length ∧
    ‖((((d.map fun r => pyRun r P w).filterMap fun x => coherentRun x N n).map fun F => F k).sum * ((1 / (2 * √((∑ n ∈ range N, w n ^ 2) / N)) : ℝ) : ℂ)
        - ((d.filterMap fun r => mlPhaseRun r P w N nd2).map fun S => S k).sum)‖
      ≤ ε * ((d.filterMap fun r => mlPhaseRun r P w N nd2).map fun S => ‖S k‖).sum := by
  induction d with
  | nil => simp
  | cons r d ih =>
    obtain ⟨i1, i2, i3⟩ := ih fun r hr => h r (List.mem_cons_of_mem _ hr)
    obtain ⟨F, S, hF, hS, hg⟩ := C127_run r P hP w N n nd2 hN hW hn ε (h r (by simp))
    obtain ⟨g, g1, g2, g3, g4⟩ := hg k hk hkN
    rw [List.map_cons, List.filterMap_cons_some (f := fun x => coherentRun x N n) hF, List.filterMap_cons_some (f := fun r => mlPhaseRun r P w N nd2) hS]
    refine ⟨by rw [List.length_cons, i1, List.length_cons], by rw [List.length_cons, i2, List.length_cons], ?_⟩
    simp only [List.map_cons, List.sum_cons]
    rw [add_mul, g4, mul_add]
    have e : ∀ A B C D : ℂ, A + B - (C + D) = (A - C) + (B - D) := fun _ _ _ _ => by ring
    rw [e]
    refine le_trans (norm_add_le _ _) (add_le_add ?_ i3)
    rw [show (g : ℂ) * S k - S k = ((g - 1 : ℝ) : ℂ) * S k by push_cast; ring, norm_mul, Complex.norm_real, Real.norm_eq_abs, abs_of_nonpos (by linarith)]
    exact mul_le_mul_of_nonneg_right (by linarith) (norm_nonneg _)

private theorem run_live (r : List ℝ) (P : ℝ) (w : ℕ → ℝ) (i : ℕ) (h : 1 / 10 ^ 10 ≤ |pyRun r P w i|) : ∃ v ∈ r, v ≠ 0 := by
  by_contra hc
  push Not at hc
  have hr : (removeDc r).getD i 0 = 0 := by
    have hs : r.sum = 0 := List.sum_eq_zero hc
    unfold removeDc
    rw [List.getD_eq_getElem?_getD, List.getElem?_map, hs]
    cases h : r[i]? with
    | none => simp
    | some v => simp [hc v (List.mem_of_getElem? h)]
  unfold pyRun at h
  rw [ml_getD_map_div, hr] at h
  norm_num at h

/-- **C127 (polar spectrum).** With the same full scale, window, oversampling ratio, cutoff and sampling rate, and runs as described by `PhaseRun`, both programs use all runs, and
in the band of `plotphase.m` the complex spectrum of `compute_spectrum` is the coherent sum of `plotphase.m` times `4/(N·runs)` - so `20·log10` of its size is the level
`plotphase.m` draws - up to a relative `ε`. For a single run it is that spectrum times a real `g` in `[1 - ε, 1]`: the angle is the same, and the level differs by the
factor `g` alone. -/
theorem C127_spectrum (lib : WinLib) (d : List (List ℝ)) (h : RunsBySamples d) (hd : d ≠ []) (P : ℝ) (hP : P ≠ 0) (hann : Bool) (a : SpectrumArgs)
    (hs : SameScale d P a.scale) (hw : a.win = pyName hann) (hosr : 1 ≤ a.osr) (N n : ℕ) (hNd : (d.headD []).length = N) (hnd : rfftInbandBinCount (N : ℤ) a.osr = .ok n)
    (ε : ℝ) (hε : 0 ≤ ε) (hr : ∀ r ∈ d, PhaseRun r P (mlWindow hann N) N n (mlPhaseHalf N a.osr) ε) :
    ∃ spec, polarSpectrum lib d a = .ok spec ∧ (mlPhaseSum d P (mlWindow hann N) N a.osr a.cutoff a.fs).2 = d.length ∧
      (∀ k, 1 ≤ k → k < mlPhaseHalf N a.osr →
        ‖spec k - 4 / (N * d.length) * (mlPhaseSum d P (mlWindow hann N) N a.osr a.cutoff a.fs).1 k‖
          ≤ ε * (4 / (N * d.length) * ((d.filterMap fun r => mlPhaseRun r P (mlWindow hann N) N (mlPhaseHalf N a.osr)).map fun S => ‖S k‖).sum)) ∧
      (d.length = 1 → ∀ k, 1 ≤ k → k < mlPhaseHalf N a.osr → ∃ g : ℝ, 0 < g ∧ g ≤ 1 ∧ 1 - ε ≤ g ∧
        spec k = g * (4 / N * (mlPhaseSum d P (mlWindow hann N) N a.osr a.cutoff a.fs).1 k) ∧
        angleDeg (spec k) = mlPhaseAngle (mlPhaseSum d P (mlWindow hann N) N a.osr a.cutoff a.fs).1 k * (180 / Real.pi) ∧
        mlPhaseLevel (mlPhaseSum d P (mlWindow hann N) N a.osr a.cutoff a.fs).1 N 1 k = dB (‖spec k‖ ^ 2 / g ^ 2)) := by
  obtain ⟨hn, hN⟩ := inband_le N a.osr n hnd
  have hhalf := half_le N a.osr hosr
  have hNR : (0 : ℝ) < N := by exact_mod_cast hN
  have hW := ml_window_sq_pos hann N hN
  have hsum := (ml_window_sum_pos hann N hN).ne'
  have hprep := ml_prepared d h P hP a.scale hs
  have hlen : ((d.map fun r => (removeDc r).map (· / (P / 2))).headD []).length = N := by
    rw [← hNd]
    cases d with
    | nil => exact absurd rfl hd
    | cons r d => simp [removeDc]
  have hwv : windowVector lib a.win N = mlWindow hann N := by
    funext i
    rw [hw, ml_window_same lib hann N i hN]
  have hlive : mlLive d = d := by
    unfold mlLive
    rw [List.filter_eq_self]
    intro r hrd
    obtain ⟨⟨i, -, hi⟩, -⟩ := hr r hrd
    simpa using run_live r P _ i hi
  have hL : 0 < d.length := List.length_pos_of_ne_nil hd
  have hLR : (0 : ℝ) < d.length := by exact_mod_cast hL
  set nd2 := mlPhaseHalf N a.osr with hnd2
  set w := mlWindow hann N with hwd
  set W := (∑ n ∈ range N, w n ^ 2) / N with hWd
  have hsW := Real.sqrt_pos.mpr hW
  have hcorr : Real.sqrt (4 / W) = 4 * (1 / (2 * √W)) := by
    rw [Real.sqrt_div (by norm_num), show (4 : ℝ) = 2 ^ 2 by norm_num, Real.sqrt_sq (by norm_num)]
    field_simp
  have hruns : runsOf (d.map fun r => (removeDc r).map (· / (P / 2))) w = d.map fun r => pyRun r P w := by
    unfold runsOf
    rw [List.map_map]
    rfl
  set cb := if 0 < a.cutoff then min ⌈a.cutoff / a.fs * N⌉.toNat (N / 2 + 1) else 0 with hcb
  have hspec : polarSpectrum lib d a = .ok fun k => if k < cb then 0 else coherentComplex (d.map fun r => pyRun r P w) N n k * (Real.sqrt (4 / W) : ℂ) := by
    unfold polarSpectrum
    rw [hprep]
    simp only [hlen]
    rw [hnd]
    simp only [hwv, hruns, ml_correction w N hN hsum]
    rfl
  have hcut : ∀ k, 1 ≤ k → k < nd2 → ((nd2 ≤ k ∨ (0 < a.cutoff ∧ k < ⌈a.cutoff / a.fs * N⌉.toNat)) ↔ k < cb) := by
    intro k hk1 hk
    rw [hcb]
    split_ifs with hc
    · constructor
      · rintro (h0 | h0)
        · omega
        · rw [lt_min_iff]; exact ⟨h0.2, by omega⟩
      · intro h0
        exact Or.inr ⟨hc, lt_of_lt_of_le h0 (min_le_left _ _)⟩
    · constructor
      · rintro (h0 | h0)
        · omega
        · exact absurd h0.1 hc
      · intro h0; omega
  have hml : ∀ k, 1 ≤ k → k < nd2 → (mlPhaseSum d P w N a.osr a.cutoff a.fs).1 k = if k < cb then 0 else ((d.filterMap fun r => mlPhaseRun r P w N nd2).map fun S => S k).sum := by
    intro k hk1 hk
    unfold mlPhaseSum
    simp only [hlive, ← hnd2]
    exact if_congr (hcut k hk1 hk) rfl rfl
  have hval : ∀ k, 1 ≤ k → k < nd2 → coherentComplex (d.map fun r => pyRun r P w) N n k * (Real.sqrt (4 / W) : ℂ) = 4 / (N * d.length) *
      ((((d.map fun r => pyRun r P w).filterMap fun x => coherentRun x N n).map fun F => F k).sum * ((1 / (2 * √W) : ℝ) : ℂ)) := by
    intro k hk1 hk
    obtain ⟨l1, -, -⟩ := sum_runs d P hP w N n nd2 hN hW hn ε hr k hk1 (by omega)
    unfold coherentComplex coherentSum
    simp only [l1]
    rw [if_neg (show ¬ (N % 2 = 0 ∧ k = N / 2) by omega), if_neg (show k ≠ 0 by omega), if_pos hL, hcorr]
    have h1 : (N : ℂ) ≠ 0 := by exact_mod_cast hN.ne'
    have h2 : (d.length : ℂ) ≠ 0 := by exact_mod_cast hL.ne'
    push_cast
    field_simp
  refine ⟨_, hspec, ?_, ?_, ?_⟩
  · unfold mlPhaseSum
    simp only [hlive, ← hnd2]
    have hcase : ∀ l : List (List ℝ), (∀ r ∈ l, PhaseRun r P w N n nd2 ε) → (l.filterMap fun r => mlPhaseRun r P w N nd2).length = l.length := by
      intro l
      induction l with
      | nil => simp
      | cons r l ih =>
        intro hl
        obtain ⟨F, S, -, hS, -⟩ := C127_run r P hP w N n nd2 hN hW hn ε (hl r (by simp))
        rw [List.filterMap_cons_some (f := fun r => mlPhaseRun r P w N nd2) hS, List.length_cons, List.length_cons, ih fun r hr => hl r (List.mem_cons_of_mem _ hr)]
    exact hcase d hr
  · intro k hk1 hk
    rw [hml k hk1 hk]
    have hnn : 0 ≤ ((d.filterMap fun r => mlPhaseRun r P w N nd2).map fun S => ‖S k‖).sum := by
      apply List.sum_nonneg
      intro x hx
      obtain ⟨S, -, rfl⟩ := List.mem_map.mp hx
      exact norm_nonneg _
    split_ifs with hc
    · rw [mul_zero, sub_zero, norm_zero]
      positivity
    · obtain ⟨-, -, l3⟩ := sum_runs d P hP w N n nd2 hN hW hn ε hr k hk1 (by omega)
      rw [hval k hk1 hk, ← mul_sub, norm_mul]
      have e4 : ‖(4 / (N * d.length) : ℂ)‖ = 4 / (N * d.length) := by
        rw [norm_div, norm_mul, Complex.norm_natCast, Complex.norm_natCast]
        norm_num
      rw [e4, mul_left_comm]
      exact mul_le_mul_of_nonneg_left l3 (by positivity)
  · intro h1 k hk1 hk
    obtain ⟨r, rfl⟩ := List.length_eq_one_iff.mp h1
    obtain ⟨F, S, hF, hS, hg⟩ := C127_run r P hP w N n nd2 hN hW hn ε (hr r (by simp))
    obtain ⟨g, g1, g2, g3, g4⟩ := hg k hk1 (by omega)
    have e : (if k < cb then 0 else coherentComplex ([r].map fun r => pyRun r P w) N n k * (Real.sqrt (4 / W) : ℂ))
        = g * (4 / N * (mlPhaseSum [r] P w N a.osr a.cutoff a.fs).1 k) := by
      rw [hml k hk1 hk]
      split_ifs with hc
      · simp
      · rw [hval k hk1 hk]
        simp only [List.map_cons, List.map_nil, List.filterMap_cons_some (f := fun x => coherentRun x N n) hF, List.filterMap_cons_some (f := fun r => mlPhaseRun r P w N nd2) hS, List.filterMap_nil, List.sum_cons, List.sum_nil, add_zero]
        rw [g4]
        simp only [List.length_cons, List.length_nil]
        push_cast
        ring
    refine ⟨g, g1, g2, g3, e, ?_, ?_⟩
    · simp only [e]
      unfold angleDeg mlPhaseAngle
      rw [Complex.arg_real_mul _ g1, show (4 / (N : ℂ)) = ((4 / N : ℝ) : ℂ) by push_cast; rfl, Complex.arg_real_mul _ (by positivity)]
    · simp only [e]
      unfold mlPhaseLevel
      congr 1
      rw [norm_mul, norm_mul, Complex.norm_real, Real.norm_of_nonneg g1.le, norm_div, Complex.norm_natCast]
      have : ‖(4 : ℂ)‖ = 4 := by norm_num
      rw [this]
      field_simp
      push_cast
      ring

/-! ### Cases -/

/-- A spectrum that meets the conditions of `C127_refine`: bins 0, 1, 3, 2, 1/2. -/
example : PhasePeak (fun k => ([0, 1, 3, 2, 1 / 2] : List ℂ).getD k 0) 5 4 2 := by
  refine ⟨by norm_num, by norm_num, by norm_num, by norm_num, fun j h1 h2 => ?_, fun j h1 h2 => ?_⟩
  · interval_cases j <;> norm_num
  · interval_cases j; norm_num

private theorem cis_quarter' (k n : ℕ) : cis (-(((k : ℤ) : ℝ) * n / ((4 : ℕ) : ℝ))) = (-Complex.I) ^ (k * n) := by
  have c1 : cis (-(1 / 4)) = -Complex.I := by
    apply Complex.ext
    · rw [cis_re, show 2 * Real.pi * (-(1 / 4)) = -(Real.pi / 2) by ring, Real.cos_neg, Real.cos_pi_div_two]; simp
    · rw [cis_im, show 2 * Real.pi * (-(1 / 4)) = -(Real.pi / 2) by ring, Real.sin_neg, Real.sin_pi_div_two]; simp
  rw [← c1, ← cis_nat_mul]
  congr 1
  push_cast
  ring

/-- A run that meets `PhaseRun`: samples 2, 0, -1, -1, no window, full scale 2. Its bins are 0, `3 - i`, 2. -/
example : PhaseRun [2, 0, -1, -1] 2 (mlWindow false 4) 4 3 2 (4 / 10 ^ 20) := by
  have hd : ∀ k : ℕ, pyRunSpec [2, 0, -1, -1] 2 (mlWindow false 4) 4 k = 2 - (-Complex.I) ^ (k * 2) - (-Complex.I) ^ (k * 3) := by
    intro k
    unfold pyRunSpec dft pyRun removeDc mlWindow
    simp only [sum_range_succ, sum_range_zero, Bool.false_eq_true, false_and, if_false]
    rw [cis_quarter' k 0, cis_quarter' k 1, cis_quarter' k 2, cis_quarter' k 3]
    norm_num
    ring
  have h0 : pyRunSpec [2, 0, -1, -1] 2 (mlWindow false 4) 4 0 = 0 := by rw [hd]; norm_num
  have h1 : pyRunSpec [2, 0, -1, -1] 2 (mlWindow false 4) 4 1 = ⟨3, -1⟩ := by rw [hd]; apply Complex.ext <;> simp [pow_succ] <;> norm_num
  have h2 : pyRunSpec [2, 0, -1, -1] 2 (mlWindow false 4) 4 2 = ⟨2, 0⟩ := by rw [hd]; apply Complex.ext <;> simp [pow_succ]
  have n1 : ‖pyRunSpec [2, 0, -1, -1] 2 (mlWindow false 4) 4 1‖ ^ 2 = 10 := by rw [h1, Complex.sq_norm, Complex.normSq_apply]; norm_num
  have n2 : ‖pyRunSpec [2, 0, -1, -1] 2 (mlWindow false 4) 4 2‖ ^ 2 = 4 := by rw [h2, Complex.sq_norm, Complex.normSq_apply]; norm_num
  have m1 : (1 : ℝ) ≤ ‖pyRunSpec [2, 0, -1, -1] 2 (mlWindow false 4) 4 1‖ := by
    have := norm_nonneg (pyRunSpec [2, 0, -1, -1] 2 (mlWindow false 4) 4 1)
    nlinarith
  have hpk : PhasePeak (pyRunSpec [2, 0, -1, -1] 2 (mlWindow false 4) 4) 3 2 1 := by
    refine ⟨le_refl _, by norm_num, by norm_num, ?_, fun j a b => ?_, fun j a b => by omega⟩
    · rw [← norm_pos_iff]; linarith
    · interval_cases j
      · exact le_refl _
      · rw [← sq_le_sq₀ (norm_nonneg _) (norm_nonneg _), n1, n2]; norm_num
  refine ⟨⟨0, by norm_num, ?_⟩, 1, hpk, ?_, ?_⟩
  · unfold pyRun removeDc mlWindow
    norm_num
  · rw [show (4 : ℝ) / 10 ^ 20 = (4 : ℕ) * (1 / 10 ^ 20 / 1) by norm_num]
    gcongr
  · have hW := ml_window_sq_pos false 4 (by norm_num)
    rw [run_spec _ 2 (by norm_num) _ 4 hW, refine_scale _ _ (by have := Real.sqrt_pos.mpr hW; positivity) 3 2 1 hpk]
    have hpb := py_bin _ 3 2 1 3 hpk (le_refl 3)
    unfold locateFundamental
    simp only [show 4 / 2 + 1 = 3 from rfl, hpb]
    unfold refineBin mlPhaseRefine
    simp only [List.range_succ, List.range_zero, List.nil_append, List.map_append, List.map_cons, List.map_nil, List.cons_append, List.take_succ_cons, List.take_zero, List.getD_cons_zero,
      List.getD_cons_succ, h0, n1, n2, Nat.sub_self, true_or, if_true, norm_zero]
    have e0 : logFloor (0 ^ 2) = -20 := by
      unfold logFloor
      rw [max_eq_right (by norm_num), Real.logb_div (by norm_num) (by norm_num), Real.logb_one, Real.logb_pow, Real.logb_self_eq_one (by norm_num)]
      norm_num
    have e1 : logFloor 10 = 1 := by
      unfold logFloor
      rw [max_eq_left (by norm_num), Real.logb_self_eq_one (by norm_num)]
    rw [e0, e1, if_neg (show ¬ ((1 : ℝ) - 4 ≤ min (-20) (logFloor 4)) by rw [le_min_iff]; norm_num)]
    simp

end Verif
