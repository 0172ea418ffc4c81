import Verif.Model.MatlabSpectrum
import Verif.Theorems.MultiTone

/-!
# C123: the automatic side bin of `plotspec.m` and of `_detect_side_bin_auto`
-/

namespace Verif

open Model Finset

/-- The noise-floor estimate of both programs: the median of the in-band bins above `1e-20`, of all in-band bins if fewer than three are. -/
noncomputable def floorOf (p : List ℝ) (n : ℕ) : ℝ :=
  if 3 ≤ ((p.take n).filter fun v => decide (1 / 10 ^ 20 < v)).length then median ((p.take n).filter fun v => decide (1 / 10 ^ 20 < v)) else median (p.take n)

/-- Bin `k` of the ideal tone as `_detect_side_bin_auto` computes it. -/
private theorem py_ideal (w : ℕ → ℝ) (N k : ℕ) (hk1 : 1 ≤ k) (hk : k ≤ N / 2) (hw : ∑ n ∈ range N, w n ≠ 0) (bF : ℝ) :
    ((powerAverage [fun n => Real.sin (2 * Real.pi * bF * n / N) * w n] N).map (· * powerCorrection (windowGain w N) (windowEnbw w N))).getD k 0 = mlIdeal bF w N k / 4 := by
  have hN : 0 < N := by omega
  have hNR : (N : ℝ) ≠ 0 := by exact_mod_cast hN.ne'
  have hS : 0 < ∑ n ∈ range N, w n ^ 2 := by
    apply lt_of_le_of_ne (sum_nonneg fun i _ => sq_nonneg _)
    intro h0
    apply hw
    apply sum_eq_zero
    intro i hi
    have := (sum_eq_zero_iff_of_nonneg (fun i _ => sq_nonneg (w i))).mp h0.symm i hi
    exact pow_eq_zero_iff two_ne_zero |>.mp this
  have hW : 0 < (∑ n ∈ range N, w n ^ 2) / N := by
    have : (0 : ℝ) < N := by exact_mod_cast hN
    positivity
  have hcorr : powerCorrection (windowGain w N) (windowEnbw w N) = 4 / ((∑ n ∈ range N, w n ^ 2) / N) := by
    unfold powerCorrection windowGain windowEnbw
    congr 1
    field_simp
  rw [hcorr]
  unfold powerAverage mlIdeal mlNyquist oneSided
  rw [List.map_map, List.getD_eq_getElem?_getD, List.getElem?_map, List.getElem?_range (by omega)]
  simp only [Option.map_some, Option.getD_some, Function.comp, List.map_cons, List.map_nil, List.sum_cons, List.sum_nil, add_zero, List.length_cons, List.length_nil, zero_add,
    Nat.cast_one, div_one, if_neg (show k ≠ 0 by omega)]
  set W := (∑ n ∈ range N, w n ^ 2) / N with hWd
  have e : (fun n : ℕ => ((Real.sin (2 * Real.pi * bF / N * n) * w n / √W : ℝ) : ℂ))
      = fun n : ℕ => (1 / √W : ℝ) * ((Real.sin (2 * Real.pi * bF * n / N) * w n : ℝ) : ℂ) := by
    funext n
    rw [show 2 * Real.pi * bF / N * n = 2 * Real.pi * bF * n / N by ring]
    push_cast
    ring
  have hd : dft N (fun n : ℕ => ((Real.sin (2 * Real.pi * bF / N * n) * w n / √W : ℝ) : ℂ)) k
      = (1 / √W : ℝ) * dft N (fun n : ℕ => ((Real.sin (2 * Real.pi * bF * n / N) * w n : ℝ) : ℂ)) k := by
    rw [e]
    unfold dft
    rw [mul_sum]
    apply sum_congr rfl
    intro n _
    ring
  rw [hd, norm_mul, mul_pow, Complex.norm_real, Real.norm_eq_abs, sq_abs, div_pow, one_pow, Real.sq_sqrt hW.le]
  split_ifs <;> (field_simp; ring)

/-- The two searches agree as long as they stay clear of the DC bin. -/
private theorem loop_same (I : List ℝ) (J : ℕ → ℝ) (fl : ℝ) (b n : ℕ) (h : ∀ k, 1 ≤ k → k < n → I.getD k 0 = J k) : ∀ fuel sb,
    (∀ r, mlSideLoop J fl b n sb fuel = some r → r < b → sideBinSearch I fl b n sb fuel = some r) ∧
    (mlSideLoop J fl b n sb fuel = none → sb + fuel ≤ b → sideBinSearch I fl b n sb fuel = none) := by
  intro fuel
  induction fuel with
  | zero => intro sb; exact ⟨fun r h => by simp [mlSideLoop] at h, fun _ _ => rfl⟩
  | succ fuel ih =>
    intro sb
    have hge : ∀ (fuel sb r : ℕ), mlSideLoop J fl b n sb fuel = some r → sb ≤ r := by
      intro fuel
      induction fuel with
      | zero => intro sb r h; simp [mlSideLoop] at h
      | succ fuel ih =>
        intro sb r h
        unfold mlSideLoop at h
        split_ifs at h with hc
        · cases h; exact le_refl _
        · have := ih _ _ h; omega
    have hc : sb < b → (((sb ≤ b ∧ I.getD (b - sb) 0 ≤ fl) ∧ (b + sb < n ∧ I.getD (b + sb) 0 ≤ fl)) ↔
        ((sb ≤ b ∧ J (b - sb) ≤ fl) ∧ (b + sb < n ∧ J (b + sb) ≤ fl))) := by
      intro hs
      constructor
      · rintro ⟨⟨h1, h2⟩, h3, h4⟩
        rw [h _ (by omega) (by omega)] at h2
        rw [h _ (by omega) h3] at h4
        exact ⟨⟨h1, h2⟩, h3, h4⟩
      · rintro ⟨⟨h1, h2⟩, h3, h4⟩
        rw [← h _ (by omega) (by omega)] at h2
        rw [← h _ (by omega) h3] at h4
        exact ⟨⟨h1, h2⟩, h3, h4⟩
    constructor
    · intro r hr hrb
      have hsb : sb < b := lt_of_le_of_lt (hge _ _ _ hr) hrb
      unfold mlSideLoop at hr
      unfold sideBinSearch
      by_cases hcond : (sb ≤ b ∧ J (b - sb) ≤ fl) ∧ (b + sb < n ∧ J (b + sb) ≤ fl)
      · rw [if_pos hcond] at hr
        rw [if_pos ((hc hsb).mpr hcond)]
        exact hr
      · rw [if_neg hcond] at hr
        rw [if_neg (fun hh => hcond ((hc hsb).mp hh))]
        exact (ih (sb + 1)).1 r hr hrb
    · intro hnone hle
      unfold mlSideLoop at hnone
      unfold sideBinSearch
      split_ifs at hnone with hcond
      rw [if_neg (fun hh => hcond ((hc (by omega)).mp hh))]
      exact (ih (sb + 1)).2 hnone (by omega)

private theorem loop_bound (J : ℕ → ℝ) (fl : ℝ) (b n : ℕ) : ∀ fuel sb r, mlSideLoop J fl b n sb fuel = some r → sb ≤ r ∧ r < sb + fuel := by
  intro fuel
  induction fuel with
  | zero => intro sb r h; simp [mlSideLoop] at h
  | succ fuel ih =>
    intro sb r h
    unfold mlSideLoop at h
    split_ifs at h with hc
    · cases h; omega
    · have := ih _ _ h; omega

private theorem scaled_same (p : List ℝ) (b n N : ℕ) (bF : ℝ) (w : ℕ → ℝ) (hb : 1 ≤ b) (hbn : b < n) (hnN : n ≤ N / 2 + 1)
    (hw : ∑ i ∈ range N, w i ≠ 0) (hpb : 1 / 10 ^ 30 ≤ p.getD b 0) (hib : 4 / 10 ^ 30 ≤ mlIdeal bF w N b) (k : ℕ) (hk1 : 1 ≤ k) (hkn : k < n) :
    let ideal := (powerAverage [fun n => Real.sin (2 * Real.pi * bF * n / N) * w n] N).map (· * powerCorrection (windowGain w N) (windowEnbw w N))
    (ideal.map (· * (max (p.getD b 0) (1 / 10 ^ 30) / max (ideal.getD b 0) (1 / 10 ^ 30)))).getD k 0 = mlIdeal bF w N k * (p.getD b 0 / mlIdeal bF w N b) := by
  intro ideal
  have hi : ∀ k, 1 ≤ k → k < n → ideal.getD k 0 = mlIdeal bF w N k / 4 := fun k h1 h2 => py_ideal w N k h1 (by omega) hw bF
  have hmap : ∀ (l : List ℝ) (c : ℝ), (l.map (· * c)).getD k 0 = l.getD k 0 * c := by
    intro l c
    rw [List.getD_eq_getElem?_getD, List.getElem?_map, List.getD_eq_getElem?_getD]
    cases l[k]? <;> simp
  have h4 : mlIdeal bF w N b / 4 ≥ 1 / 10 ^ 30 := by
    rw [ge_iff_le, le_div_iff₀ (by norm_num)]
    norm_num at hib ⊢
    linarith
  have hpos : 0 < mlIdeal bF w N b := lt_of_lt_of_le (by norm_num) hib
  rw [hmap, max_eq_left hpb, hi b hb hbn, max_eq_left h4, hi k hk1 hkn]
  field_simp

/-- **C123 (same search).** Where the floor estimate is at least `1e-24` of the peak and peak and ideal line do not vanish, both programs run the same search over the same
scaled ideal spectrum. If `plotspec.m` finds its width before it reaches DC or the band edge, Python reports that width raised to the window's default; if it reaches the band
edge, `plotspec.m` takes everything it may and Python the fallback of the window. -/
theorem C123_side_bin (p : List ℝ) (b n N : ℕ) (bF : ℝ) (w : ℕ → ℝ) (fallback minimum : ℕ) (hb : 1 ≤ b) (hbn : b < n) (hnN : n ≤ N / 2 + 1)
    (hw : ∑ i ∈ range N, w i ≠ 0) (hpb : 1 / 10 ^ 30 ≤ p.getD b 0) (hib : 4 / 10 ^ 30 ≤ mlIdeal bF w N b) (hfl : p.getD b 0 * (1 / 10 ^ 24) ≤ floorOf p n) :
    let ml := mlSideBin p b bF n N w
    let py := detectSideBinAuto p b bF n N w (powerCorrection (windowGain w N) (windowEnbw w N)) fallback minimum
    let room := min b (n - 1 - b)
    ml ≤ room ∧ (ml < room → ml + 1 < b → py = max ml (min minimum room)) ∧ (ml = room → room < b → py = min (max fallback (min minimum room)) room) := by
  intro ml py room
  have hsc := scaled_same p b n N bF w hb hbn hnN hw hpb hib
  have hflm : max (floorOf p n) (max (p.getD b 0) (1 / 10 ^ 30) * (1 / 10 ^ 24)) = floorOf p n := by
    rw [max_eq_left hpb, max_eq_left hfl]
  have hml : ml = match mlSideLoop (fun k => mlIdeal bF w N k * (p.getD b 0 / mlIdeal bF w N b)) (floorOf p n) b n 1 room with
      | some sb => sb - 1
      | none => room := rfl
  have hpy : py = match sideBinSearch (((powerAverage [fun n => Real.sin (2 * Real.pi * bF * n / N) * w n] N).map
        (· * powerCorrection (windowGain w N) (windowEnbw w N))).map (· * (max (p.getD b 0) (1 / 10 ^ 30) /
          max (((powerAverage [fun n => Real.sin (2 * Real.pi * bF * n / N) * w n] N).map (· * powerCorrection (windowGain w N) (windowEnbw w N))).getD b 0)
            (1 / 10 ^ 30)))) (max (floorOf p n) (max (p.getD b 0) (1 / 10 ^ 30) * (1 / 10 ^ 24))) b n 1 room with
      | some sb => max (sb - 1) (min minimum room)
      | none => min (max fallback (min minimum room)) room := rfl
  rw [hflm] at hpy
  obtain ⟨l1, l2⟩ := loop_same _ _ (floorOf p n) b n hsc room 1
  cases hloop : mlSideLoop (fun k => mlIdeal bF w N k * (p.getD b 0 / mlIdeal bF w N b)) (floorOf p n) b n 1 room with
  | none =>
    rw [hloop] at hml
    simp only at hml
    refine ⟨hml.le, fun h => by omega, fun _ hr => ?_⟩
    rw [hpy, l2 hloop (by omega)]
  | some sb =>
    rw [hloop] at hml
    simp only at hml
    have hbd := loop_bound _ _ b n _ _ _ hloop
    refine ⟨by omega, fun _ h2 => ?_, fun h => by omega⟩
    rw [hpy, l1 sb hloop (by omega), hml]

private theorem loop_found (J : ℕ → ℝ) (fl : ℝ) (b n sb0 : ℕ) (hc : (sb0 ≤ b ∧ J (b - sb0) ≤ fl) ∧ (b + sb0 < n ∧ J (b + sb0) ≤ fl)) :
    ∀ fuel sb, sb ≤ sb0 → sb0 < sb + fuel → ∃ r, mlSideLoop J fl b n sb fuel = some r ∧ r ≤ sb0 := by
  intro fuel
  induction fuel with
  | zero => intro sb h1 h2; omega
  | succ fuel ih =>
    intro sb h1 h2
    unfold mlSideLoop
    by_cases h : (sb ≤ b ∧ J (b - sb) ≤ fl) ∧ (b + sb < n ∧ J (b + sb) ≤ fl)
    · rw [if_pos h]
      exact ⟨sb, rfl, h1⟩
    · rw [if_neg h]
      refine ih (sb + 1) ?_ (by omega)
      rcases Nat.lt_or_ge sb sb0 with h' | h'
      · omega
      · have : sb = sb0 := by omega
        subst this
        exact absurd hc h

/-- The ideal line of a coherent tone is the window's lobe. -/
private theorem ideal_lobe (w : ℕ → ℝ) (N b m : ℕ) (hw : LobeWindow w N m) (hm : m < b) (hb : 2 * (b + m) < N) (k : ℕ) (hk : k ≤ N / 2) :
    mlIdeal b w N k = mlNyquist N k (4 * ‖dft N (fun n => (w n : ℂ)) ((k : ℤ) - b)‖ ^ 2 / (N * ∑ i ∈ range N, w i ^ 2)) := by
  have hN : 0 < N := by omega
  have hNR : (0 : ℝ) < N := by exact_mod_cast hN
  have hS : 0 < ∑ n ∈ range N, w n ^ 2 := by
    apply lt_of_le_of_ne (sum_nonneg fun i _ => sq_nonneg _)
    intro h0
    apply hw.mean
    apply sum_eq_zero
    intro i hi
    have := (sum_eq_zero_iff_of_nonneg (fun i _ => sq_nonneg (w i))).mp h0.symm i hi
    exact pow_eq_zero_iff two_ne_zero |>.mp this
  have hW : 0 < (∑ n ∈ range N, w n ^ 2) / N := by positivity
  unfold mlIdeal
  congr 1
  set S := ∑ n ∈ range N, w n ^ 2
  have e : (fun n : ℕ => ((Real.sin (2 * Real.pi * b / N * n) * w n / √(S / N) : ℝ) : ℂ))
      = fun n : ℕ => (1 / √(S / N) : ℝ) * ((1 * Real.cos (2 * Real.pi * (b * n / N) + -(Real.pi / 2)) * w n : ℝ) : ℂ) := by
    funext n
    rw [← sub_eq_add_neg, Real.cos_sub_pi_div_two, show 2 * Real.pi * b / N * n = 2 * Real.pi * (b * n / N) by ring]
    push_cast
    ring
  have hd : dft N (fun n : ℕ => ((Real.sin (2 * Real.pi * b / N * n) * w n / √(S / N) : ℝ) : ℂ)) k
      = (1 / √(S / N) : ℝ) * dft N (fun n : ℕ => ((1 * Real.cos (2 * Real.pi * (b * n / N) + -(Real.pi / 2)) * w n : ℝ) : ℂ)) k := by
    rw [e]
    unfold dft
    rw [mul_sum]
    apply sum_congr rfl
    intro n _
    ring
  rw [hd, norm_mul, mul_pow, Complex.norm_real, Real.norm_eq_abs, sq_abs, div_pow, one_pow, Real.sq_sqrt hW.le, tone_bin N b m 1 _ w hw hm hb k hk]
  field_simp
  ring

/-- **C123 (coherent tone).** For a tone in a whole bin, seen through a window whose lobe is `m` bins wide on either side, and a noise floor at least `1e-24` of the peak,
`plotspec.m` settles on at most `m` side bins and Python, starting from the default `m`, on exactly `m`. -/
theorem C123_coherent_tone (p : List ℝ) (b n N m : ℕ) (w : ℕ → ℝ) (fallback : ℕ) (hw : LobeWindow w N m) (henbw : windowEnbw w N ≤ 10 ^ 30) (hb : m + 2 ≤ b)
    (hbn : b + m + 2 ≤ n) (hnN : n ≤ N / 2 + 1) (hpb : 1 / 10 ^ 30 ≤ p.getD b 0) (hfl : p.getD b 0 * (1 / 10 ^ 24) ≤ floorOf p n) :
    mlSideBin p b b n N w ≤ m ∧ detectSideBinAuto p b b n N w (powerCorrection (windowGain w N) (windowEnbw w N)) fallback m = m := by
  have hNR : (0 : ℝ) < N := by exact_mod_cast (by omega : 0 < N)
  have hS : 0 < ∑ n ∈ range N, w n ^ 2 := by
    apply lt_of_le_of_ne (sum_nonneg fun i _ => sq_nonneg _)
    intro h0
    apply hw.mean
    apply sum_eq_zero
    intro i hi
    have := (sum_eq_zero_iff_of_nonneg (fun i _ => sq_nonneg (w i))).mp h0.symm i hi
    exact pow_eq_zero_iff two_ne_zero |>.mp this
  have hmean : 0 < (∑ i ∈ range N, w i) ^ 2 := lt_of_le_of_ne (sq_nonneg _) (Ne.symm (pow_ne_zero 2 hw.mean))
  have hI := ideal_lobe w N b m hw (by omega) (by omega)
  have hib : 4 / 10 ^ 30 ≤ mlIdeal b w N b := by
    rw [hI b (by omega)]
    have hny : mlNyquist N b = fun v => v := by
      funext v
      unfold mlNyquist
      rw [if_neg (by omega)]
    have hW0 : ‖dft N (fun n => (w n : ℂ)) ((b : ℤ) - b)‖ ^ 2 = (∑ i ∈ range N, w i) ^ 2 := by
      rw [sub_self]
      unfold dft
      have : ∑ n ∈ range N, (fun n => (w n : ℂ)) n * cis (-(((0 : ℤ) : ℝ) * n / N)) = ((∑ i ∈ range N, w i : ℝ) : ℂ) := by
        rw [Complex.ofReal_sum]
        apply sum_congr rfl
        intro n _
        simp [cis_zero]
      rw [this, Complex.norm_real, Real.norm_eq_abs, sq_abs]
    rw [hny, hW0]
    unfold windowEnbw at henbw
    rw [div_le_iff₀ hmean] at henbw
    rw [div_le_div_iff₀ (by norm_num) (by positivity)]
    linarith
  have hfl0 : 0 ≤ floorOf p n := le_trans (mul_nonneg (le_trans (by norm_num) hpb) (by norm_num)) hfl
  have hzero : ∀ k, k ≤ N / 2 → k + m < b ∨ b + m < k → mlIdeal b w N k = 0 := by
    intro k hk hout
    rw [hI k hk]
    have : dft N (fun n => (w n : ℂ)) ((k : ℤ) - b) = 0 := by
      apply hw.band
      intro j hj hdv
      rw [abs_le] at hj
      have hne : ((k : ℤ) - b) - j ≠ 0 := by omega
      have := Int.le_of_dvd (by have := abs_pos.mpr hne; exact this) ((dvd_abs _ _).mpr hdv)
      rcases abs_cases (((k : ℤ) - b) - j) with ⟨h, _⟩ | ⟨h, _⟩ <;> omega
    rw [this]
    unfold mlNyquist
    simp
  have hfound : mlSideBin p b b n N w ≤ m := by
    obtain ⟨r, h1, h2⟩ := loop_found (fun k => mlIdeal b w N k * (p.getD b 0 / mlIdeal b w N b)) (floorOf p n) b n (m + 1)
      ⟨⟨by omega, by rw [hzero _ (by omega) (by omega), zero_mul]; exact hfl0⟩, by omega, by
        rw [hzero _ (by omega) (by omega), zero_mul]; exact hfl0⟩ (min b (n - 1 - b)) 1 (by omega) (by omega)
    have : mlSideBin p b b n N w = match mlSideLoop (fun k => mlIdeal b w N k * (p.getD b 0 / mlIdeal b w N b)) (floorOf p n) b n 1 (min b (n - 1 - b)) with
      | some sb => sb - 1
      | none => min b (n - 1 - b) := rfl
    rw [this, h1]
    simp only
    omega
  refine ⟨hfound, ?_⟩
  obtain ⟨-, h2, -⟩ := C123_side_bin p b n N b w fallback m (by omega) (by omega) hnN hw.mean hpb hib hfl
  rw [h2 (by omega) (by omega)]
  omega

/-- A Hann-windowed tone in bin 5 of 64 over a flat floor of one thousandth. -/
example (lib : WinLib) : LobeWindow (windowVector lib "hann" 64) 64 1 ∧ windowEnbw (windowVector lib "hann" 64) 64 ≤ 10 ^ 30 ∧
    (1 : ℝ) * (1 / 10 ^ 24) ≤ floorOf ((List.replicate 5 (1 / 1000)) ++ [1] ++ List.replicate 27 (1 / 1000)) 33 := by
  refine ⟨C26_default_side_bin_covers_lobe lib "hann" (by decide) (by decide) 64 (by norm_num) (by decide), ?_, ?_⟩
  · have h := (C109_leak_share lib 64 (by norm_num)).1
    have : windowEnbw (windowVector lib "hann" 64) 64 = 3 / 2 := by
      rw [← one_div_one_div (windowEnbw (windowVector lib "hann" 64) 64), h]
      norm_num
    rw [this]
    norm_num
  · unfold floorOf
    have hall : ∀ v ∈ (((List.replicate 5 (1 / 1000 : ℝ)) ++ [1] ++ List.replicate 27 (1 / 1000)).take 33), (1 / 1000 : ℝ) ≤ v := by
      intro v hv
      have hv := List.mem_of_mem_take hv
      simp only [List.mem_append, List.mem_replicate, List.mem_singleton] at hv
      rcases hv with (⟨_, rfl⟩ | rfl) | ⟨_, rfl⟩ <;> norm_num
    have hf : (((List.replicate 5 (1 / 1000 : ℝ)) ++ [1] ++ List.replicate 27 (1 / 1000)).take 33).filter (fun v => decide (1 / 10 ^ 20 < v))
        = ((List.replicate 5 (1 / 1000 : ℝ)) ++ [1] ++ List.replicate 27 (1 / 1000)).take 33 := by
      rw [List.filter_eq_self]
      intro v hv
      have := hall v hv
      rw [decide_eq_true_eq]
      exact lt_of_lt_of_le (by norm_num) this
    rw [hf, if_pos (by simp), one_mul]
    refine le_trans ?_ (median_bounds _ (by simp) (1 / 1000) (1000) hall ?_).1
    · norm_num
    · intro v hv
      have hv := List.mem_of_mem_take hv
      simp only [List.mem_append, List.mem_replicate, List.mem_singleton] at hv
      rcases hv with (⟨_, rfl⟩ | rfl) | ⟨_, rfl⟩ <;> norm_num

/-- A floor of one thousandth and a line of height one in bin 20 of 33. -/
noncomputable def lineSpectrum : List ℝ := List.replicate 20 (1 / 1000) ++ [1] ++ List.replicate 12 (1 / 1000)

private theorem lineSpectrum_floor : floorOf lineSpectrum 33 = 1 / 1000 := by
  unfold floorOf
  have ht : lineSpectrum.take 33 = lineSpectrum := by
    rw [List.take_of_length_le]
    simp [lineSpectrum]
  have hf : lineSpectrum.filter (fun v => decide (1 / 10 ^ 20 < v)) = lineSpectrum := by
    rw [List.filter_eq_self]
    intro v hv
    unfold lineSpectrum at hv
    simp only [List.mem_append, List.mem_replicate, List.mem_singleton] at hv
    rw [decide_eq_true_eq]
    rcases hv with (⟨_, rfl⟩ | rfl) | ⟨_, rfl⟩ <;> norm_num
  rw [ht, hf, if_pos (by simp [lineSpectrum])]
  have hperm : lineSpectrum.Perm (List.replicate 32 (1 / 1000) ++ [1]) := by
    have : (List.replicate 32 (1 / 1000 : ℝ)) = List.replicate 20 (1 / 1000) ++ List.replicate 12 (1 / 1000) := by rw [← List.replicate_add]
    rw [this]
    unfold lineSpectrum
    rw [List.append_assoc, List.append_assoc]
    exact List.Perm.append_left _ (List.perm_append_comm)
  rw [median_perm _ _ hperm]
  have hs : sortAsc (List.replicate 32 (1 / 1000 : ℝ) ++ [1]) = List.replicate 32 (1 / 1000) ++ [1] := by
    refine List.Perm.eq_of_pairwise (le := (· ≤ ·)) (fun a b _ _ h1 h2 => le_antisymm h1 h2) (sortAsc_sorted _) ?_ (sortAsc_perm _)
    rw [List.pairwise_append]
    refine ⟨List.pairwise_replicate.mpr (Or.inr (le_refl _)), List.pairwise_singleton _ _, ?_⟩
    intro a ha b hb
    rw [List.mem_replicate] at ha
    rw [List.mem_singleton] at hb
    rw [ha.2, hb]
    norm_num
  unfold median
  simp only [hs]
  norm_num [List.replicate]

/-- **C123 (refuted: no crossing).** When the ideal line never falls to the floor inside the band, `plotspec.m` counts everything up to the band edge as signal and Python only
the window's fallback: here, with a window of one sample, 12 against 3 side bins. -/
theorem C123_no_crossing : mlSideBin lineSpectrum 20 16 33 64 (fun n => if n = 1 then 1 else 0) = 12 ∧
    detectSideBinAuto lineSpectrum 20 16 33 64 (fun n => if n = 1 then 1 else 0)
      (powerCorrection (windowGain (fun n => if n = 1 then 1 else 0) 64) (windowEnbw (fun n => if n = 1 then 1 else 0) 64)) 3 1 = 3 := by
  set w : ℕ → ℝ := fun n => if n = 1 then 1 else 0 with hw
  have hsum : ∑ i ∈ range 64, w i = 1 := by
    simp only [hw]
    rw [sum_ite_eq' (range 64) 1, if_pos (by simp)]
  have hsq : ∑ i ∈ range 64, w i ^ 2 = 1 := by
    rw [← hsum]
    apply sum_congr rfl
    intro i _
    simp only [hw]
    split_ifs <;> norm_num
  have hp : lineSpectrum.getD 20 0 = 1 := by norm_num [lineSpectrum, List.replicate]
  have hI : ∀ k, mlIdeal 16 w 64 k = mlNyquist 64 k (1 / 4) := by
    intro k
    unfold mlIdeal
    congr 1
    rw [hsq]
    have : dft 64 (fun n : ℕ => ((Real.sin (2 * Real.pi * 16 / (64 : ℕ) * n) * w n / √(1 / (64 : ℕ)) : ℝ) : ℂ)) k = 8 * cis (-(k / 64)) := by
      unfold dft
      rw [sum_eq_single_of_mem 1 (by simp)]
      · simp only [hw, if_true]
        rw [show (2 * Real.pi * 16 / (64 : ℕ) * (1 : ℕ) : ℝ) = Real.pi / 2 by push_cast; ring, Real.sin_pi_div_two,
          show (1 / (64 : ℕ) : ℝ) = (1 / 8) ^ 2 by norm_num, Real.sqrt_sq (by norm_num)]
        norm_num
      · intro i _ hne
        simp [hw, hne]
    rw [this, norm_mul, norm_cis]
    norm_num
  have hJ : ∀ k, 1 / 2 ≤ mlIdeal 16 w 64 k * (lineSpectrum.getD 20 0 / mlIdeal 16 w 64 20) := by
    intro k
    rw [hI k, hI 20, hp]
    unfold mlNyquist
    split_ifs <;> norm_num at *
  have hnone : ∀ fuel sb, mlSideLoop (fun k => mlIdeal 16 w 64 k * (lineSpectrum.getD 20 0 / mlIdeal 16 w 64 20)) (floorOf lineSpectrum 33) 20 33 sb fuel = none := by
    intro fuel
    induction fuel with
    | zero => intro sb; rfl
    | succ fuel ih =>
      intro sb
      unfold mlSideLoop
      rw [if_neg]
      · exact ih _
      · rintro ⟨⟨_, h⟩, _⟩
        rw [lineSpectrum_floor] at h
        have := hJ (20 - sb)
        linarith
  have hml : mlSideBin lineSpectrum 20 16 33 64 w = 12 := by
    have e : mlSideBin lineSpectrum 20 16 33 64 w
        = match mlSideLoop (fun k => mlIdeal 16 w 64 k * (lineSpectrum.getD 20 0 / mlIdeal 16 w 64 20)) (floorOf lineSpectrum 33) 20 33 1 (min 20 (33 - 1 - 20)) with
      | some sb => sb - 1
      | none => min 20 (33 - 1 - 20) := rfl
    rw [e, hnone]
    rfl
  refine ⟨hml, ?_⟩
  have h3 := (C123_side_bin lineSpectrum 20 33 64 16 w 3 1 (by norm_num) (by norm_num) (by norm_num) (by rw [hsum]; norm_num) (by rw [hp]; norm_num)
    (by rw [hI]; unfold mlNyquist; norm_num) (by rw [hp, lineSpectrum_floor]; norm_num)).2.2
  rw [h3 (by rw [hml]; rfl) (by decide)]
  rfl

end Verif
