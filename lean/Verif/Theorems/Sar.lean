import Verif.Proofs.Sar
import Mathlib.Data.Rat.Floor

/-!
# C10–C16, C53: SAR converter model and plain quantizer
-/

namespace Verif

open Model Spec

variable {K : Type} [Field K] [LinearOrder K] [IsStrictOrderedRing K]

/-- Convert with a weight vector, then reconstruct with the same weights (the ideal use of the two functions). -/
def sarRoundTrip (vin : K) (ws : List K) (range : List K) : Py K := do
  let codes ← sarConvertIdeal vin ws range
  sarReconstruct codes ws range

theorem ideal_none (n : ℕ) (hn : n ≠ 0) :
    sarIdealWeights (K := K) n none = .ok ((pow2List n).map (· / 2 ^ n)) := by
  obtain ⟨l, hl⟩ := pow2List_last (K := K) n hn
  unfold sarIdealWeights sarRawWeights
  simp only [pow2List_eq, bind, Except.bind, pure, Except.pure]
  have hlast : pyGet (pow2List n : List K) (-1) = .ok 1 := by
    rw [pyGet_neg _ _ (by norm_num) (by rw [pow2List_length]; omega)]
    rw [hl]
    have : (-1 + ((l ++ [(1 : K)]).length : ℤ)) = ((l.length : ℕ) : ℤ) := by simp
    rw [this, pyGet_nat _ _ (by simp)]
    simp
  rw [hlast]
  simp only [pow2List_sum, sub_add_cancel]

private theorem scale_pow2 (n : ℕ) :
    (quiet ((pow2List n : List K).map (· / 2 ^ n))).map (fun p => (p.1 * 2 ^ n, p.2 * 2 ^ n)) = quiet (pow2List n) := by
  unfold quiet
  rw [List.map_map, List.map_map]
  apply List.map_congr_left
  intro w _
  have h2 : (2 : K) ^ n ≠ 0 := by positivity
  simp [h2]

theorem weighted_map_div (bs : List Bool) (ws : List K) (c : K) :
    weighted bs (ws.map (· / c)) = weighted bs ws / c := by
  induction bs generalizing ws with
  | nil => cases ws <;> simp [weighted]
  | cons b bs ih =>
    cases ws with
    | nil => simp [weighted]
    | cons w ws =>
      simp only [List.map_cons, weighted, ih]
      split_ifs <;> ring

theorem idealCode_lt [FloorRing K] (n : ℕ) (x : K) : idealCode n x < 2 ^ n := by
  have hpos : (0 : ℤ) < 2 ^ n := by positivity
  have hN : ((2 ^ n : ℕ) : ℤ) = 2 ^ n := by push_cast; ring
  unfold idealCode; omega

private theorem ideal_loop [FloorRing K] (n : ℕ) (x : K) :
    sarLoop x 0 (quiet ((pow2List n).map (· / 2 ^ n))) = bitsMSB n (idealCode n x) := by
  rw [sarLoop_scale x (2 ^ n) (by positivity), scale_pow2, sarLoop_pow2]; rfl

/-- **C10.** With ideal weights and no noise the SAR loop returns the binary expansion (MSB first) of the
floor-quantized, range-clamped code — every resolution, every range, every input (in range or not). -/
theorem C10_sar_is_floor_quantizer [FloorRing K] (n : ℕ) (hn : n ≠ 0) (vin vmin vmax : K) (h : vmin < vmax) :
    (do let ws ← sarIdealWeights n none; sarConvertIdeal vin ws [vmin, vmax]) =
      .ok (bitsMSB n (idealCode n ((vin - vmin) / (vmax - vmin)))) := by
  rw [ideal_none n hn]
  simp only [bind, Except.bind]
  rw [convertIdeal_eq vin _ vmin vmax h, ideal_loop]

/-- **C10 (range errors).** A range that is not an increasing pair is rejected with `ValueError`. -/
theorem C10_sar_bad_range (vin : K) (ws range : List K) :
    sarConvertIdeal vin ws range = .error .valueError ↔ ¬ ∃ vmin vmax, range = [vmin, vmax] ∧ vmin < vmax := by
  constructor
  · rintro h ⟨a, b, rfl, hab⟩
    rw [convertIdeal_eq vin ws a b hab] at h
    exact absurd h (by simp)
  · intro h
    have : parseQuantRange range = .error .valueError := by
      match range with
      | [] => rfl
      | [_] => rfl
      | _ :: _ :: _ :: _ => rfl
      | [a, b] =>
        show (if b ≤ a then Except.error PyErr.valueError else Except.ok (a, b)) = _
        rw [if_pos]
        by_contra hab
        exact h ⟨a, b, rfl, not_le.mp hab⟩
    unfold sarConvertIdeal sarConvert
    rw [this]; rfl

private theorem round_trip_ideal [FloorRing K] (n : ℕ) (hn : n ≠ 0) (vin vmin vmax : K) (h : vmin < vmax) :
    (do let ws ← sarIdealWeights n none; sarRoundTrip vin ws [vmin, vmax]) =
      .ok ((idealCode n ((vin - vmin) / (vmax - vmin)) : K) * ((vmax - vmin) / 2 ^ n) + vmin) := by
  rw [ideal_none n hn]
  unfold sarRoundTrip
  simp only [bind, Except.bind]
  rw [convertIdeal_eq vin _ vmin vmax h]
  simp only
  rw [reconstruct_eq _ _ _ _ h (by simp [sarLoop_length, quiet])]
  rw [ideal_loop, weighted_map_div, weighted_bits_pow2 n _ (idealCode_lt n _)]
  congr 1; ring

private theorem idealCode_bounds [FloorRing K] (n : ℕ) (x : K) :
    (x < 0 → idealCode n x = 0) ∧ (1 ≤ x → (idealCode n x : K) = 2 ^ n - 1) ∧
      (0 ≤ x → x < 1 → (idealCode n x : K) ≤ x * 2 ^ n ∧ x * 2 ^ n < idealCode n x + 1) := by
  have hpos : (0 : ℤ) < 2 ^ n := by positivity
  have hposK : (0 : K) < 2 ^ n := by positivity
  refine ⟨fun hx => ?_, fun hx => ?_, fun h0 h1 => ?_⟩
  · have : ⌊x * 2 ^ n⌋ < 0 := by
      apply Int.floor_lt.mpr; push_cast; exact mul_neg_of_neg_of_pos hx hposK
    unfold idealCode; omega
  · have : (2 : ℤ) ^ n ≤ ⌊x * 2 ^ n⌋ := by
      apply Int.le_floor.mpr; push_cast; nlinarith
    have hz : ((idealCode n x : ℕ) : ℤ) = 2 ^ n - 1 := by unfold idealCode; omega
    have hc : ((idealCode n x : ℕ) : K) = (((idealCode n x : ℕ) : ℤ) : K) := (Int.cast_natCast _).symm
    rw [hc, hz]; push_cast; ring
  · have hf0 : 0 ≤ ⌊x * 2 ^ n⌋ := Int.floor_nonneg.mpr (by positivity)
    have hf1 : ⌊x * 2 ^ n⌋ < 2 ^ n := by
      apply Int.floor_lt.mpr; push_cast; nlinarith
    have hz : ((idealCode n x : ℕ) : ℤ) = ⌊x * 2 ^ n⌋ := by unfold idealCode; omega
    have hc : ((idealCode n x : ℕ) : K) = (⌊x * 2 ^ n⌋ : K) := by rw [← hz, Int.cast_natCast]
    rw [hc]
    exact ⟨Int.floor_le _, Int.lt_floor_add_one _⟩

/-- **C11.** Ideal conversion followed by reconstruction: in range the error is in `[0, LSB)`; below range the result
is `vmin`; at or above `vmax` it is `vmax - LSB`. -/
theorem C11_sar_error_below_lsb [FloorRing K] (n : ℕ) (hn : n ≠ 0) (vin vmin vmax : K) (h : vmin < vmax) :
    ∃ y, (do let ws ← sarIdealWeights n none; sarRoundTrip vin ws [vmin, vmax]) = .ok y ∧
      (vmin ≤ vin → vin < vmax → 0 ≤ vin - y ∧ vin - y < (vmax - vmin) / 2 ^ n) ∧
      (vin < vmin → y = vmin) ∧
      (vmax ≤ vin → y = vmax - (vmax - vmin) / 2 ^ n) := by
  refine ⟨_, round_trip_ideal n hn vin vmin vmax h, ?_, ?_, ?_⟩
  all_goals
    have hd : 0 < vmax - vmin := by linarith
    have hp : (0 : K) < 2 ^ n := by positivity
    obtain ⟨hb1, hb2, hb3⟩ := idealCode_bounds n ((vin - vmin) / (vmax - vmin))
  · intro h1 h2
    obtain ⟨ha, hb⟩ := hb3 (div_nonneg (by linarith) hd.le) (by rw [div_lt_one hd]; linarith)
    have e : vin - vmin = ((vin - vmin) / (vmax - vmin) * 2 ^ n) * ((vmax - vmin) / 2 ^ n) := by
      field_simp
    have hl : 0 < (vmax - vmin) / 2 ^ n := div_pos hd hp
    constructor
    · have := mul_le_mul_of_nonneg_right ha hl.le
      linarith
    · have := mul_lt_mul_of_pos_right hb hl
      rw [add_mul] at this
      linarith
  · intro h1
    rw [hb1 (div_neg_of_neg_of_pos (by linarith) hd)]; simp
  · intro h1
    rw [hb2 (by rw [le_div_iff₀ hd]; linarith)]
    field_simp; ring

/-- **C12.** For any non-negative weights the noise-free transfer curve is monotone, and the reconstruction never
exceeds an input that is at or above `vmin`; it always stays between `vmin` and `vmin + fs * sum(weights)`. -/
theorem C12_sar_monotone (ws : List K) (hw : ∀ w ∈ ws, 0 ≤ w) (vmin vmax : K) (h : vmin < vmax) (v1 v2 : K)
    (h12 : v1 ≤ v2) :
    ∃ y1 y2, sarRoundTrip v1 ws [vmin, vmax] = .ok y1 ∧ sarRoundTrip v2 ws [vmin, vmax] = .ok y2 ∧
      y1 ≤ y2 ∧ (vmin ≤ v1 → y1 ≤ v1) ∧ vmin ≤ y1 ∧ y2 ≤ vmin + (vmax - vmin) * ws.sum := by
  have hrt : ∀ v, sarRoundTrip v ws [vmin, vmax]
      = .ok (gval ((v - vmin) / (vmax - vmin)) ws * (vmax - vmin) + vmin) := by
    intro v
    unfold sarRoundTrip
    rw [convertIdeal_eq v ws vmin vmax h]
    simp only [bind, Except.bind]
    rw [reconstruct_eq _ _ _ _ h (by simp [sarLoop_length, quiet])]
    rfl
  have hd : 0 < vmax - vmin := by linarith
  refine ⟨_, _, hrt v1, hrt v2, ?_, ?_, ?_, ?_⟩
  · have := gval_mono ws hw (r := (v1 - vmin) / (vmax - vmin)) (s := (v2 - vmin) / (vmax - vmin))
      ((div_le_div_iff_of_pos_right hd).mpr (by linarith))
    have := mul_le_mul_of_nonneg_right this hd.le
    linarith
  · intro hv
    have := gval_le_max ((v1 - vmin) / (vmax - vmin)) ws hw
    rw [max_eq_left (div_nonneg (by linarith) hd.le)] at this
    have := mul_le_mul_of_nonneg_right this hd.le
    rw [div_mul_cancel₀ _ hd.ne'] at this
    linarith
  · have := mul_nonneg (gval_nonneg ((v1 - vmin) / (vmax - vmin)) ws hw) hd.le
    linarith
  · have : gval ((v2 - vmin) / (vmax - vmin)) ws ≤ ws.sum := weighted_le_sum _ _ hw
    have := mul_le_mul_of_nonneg_right this hd.le
    linarith

/-- **C13.** If every weight is covered by the later ones up to `eps`, every input with normalised value in
`[0, sum + eps)` is converted with a residue in `[0, eps)` of full scale. -/
theorem C13_redundancy_residue (eps : K) (ws : List K) (hc : Covered eps ws) (vmin vmax vin : K) (h : vmin < vmax)
    (h0 : vmin ≤ vin) (h1 : vin < vmin + (ws.sum + eps) * (vmax - vmin)) :
    ∃ y, sarRoundTrip vin ws [vmin, vmax] = .ok y ∧ 0 ≤ vin - y ∧ vin - y < eps * (vmax - vmin) := by
  have hd : 0 < vmax - vmin := by linarith
  refine ⟨gval ((vin - vmin) / (vmax - vmin)) ws * (vmax - vmin) + vmin, ?_, ?_⟩
  · unfold sarRoundTrip
    rw [convertIdeal_eq vin ws vmin vmax h]
    simp only [bind, Except.bind]
    rw [reconstruct_eq _ _ _ _ h (by simp [sarLoop_length, quiet])]
    rfl
  · obtain ⟨ha, hb⟩ := gval_residue eps ws hc ((vin - vmin) / (vmax - vmin)) (div_nonneg (by linarith) hd.le)
      (by rw [div_lt_iff₀ hd]; linarith)
    have e : (vin - vmin) / (vmax - vmin) * (vmax - vmin) = vin - vmin := div_mul_cancel₀ _ hd.ne'
    have h3 := mul_nonneg ha hd.le
    have h4 := mul_lt_mul_of_pos_right hb hd
    rw [sub_mul, e] at h3 h4
    constructor <;> linarith

/-- **C13 (converse).** If some weight exceeds the later ones by more than `eps`, some input of the same range is
converted with a residue of at least `eps`. -/
theorem C13_redundancy_necessary (eps : K) (he : 0 ≤ eps) (ws : List K) (hw : ∀ w ∈ ws, 0 ≤ w)
    (hc : ¬ Covered eps ws) (vmin vmax : K) (h : vmin < vmax) :
    ∃ vin y, vmin ≤ vin ∧ vin < vmin + (ws.sum + eps) * (vmax - vmin) ∧
      sarRoundTrip vin ws [vmin, vmax] = .ok y ∧ eps * (vmax - vmin) ≤ vin - y := by
  have hd : 0 < vmax - vmin := by linarith
  obtain ⟨r, hr0, hr1, hr2⟩ := gval_uncovered eps he ws hw hc
  refine ⟨r * (vmax - vmin) + vmin, gval r ws * (vmax - vmin) + vmin, ?_, ?_, ?_, ?_⟩
  · have := mul_nonneg hr0 hd.le; linarith
  · have := mul_lt_mul_of_pos_right hr1 hd; linarith
  · unfold sarRoundTrip
    rw [convertIdeal_eq _ ws vmin vmax h]
    simp only [bind, Except.bind]
    rw [reconstruct_eq _ _ _ _ h (by simp [sarLoop_length, quiet])]
    rw [show (r * (vmax - vmin) + vmin - vmin) / (vmax - vmin) = r by field_simp; ring]
    rfl
  · have := mul_le_mul_of_nonneg_right hr2 hd.le
    rw [sub_mul] at this; linarith

/-- **C14.** Comparator noise: `nc` holds the volts of noise drawn in each trial. If downward noise stays inside the
redundancy margin (`CoveredNoisy`) and upward noise never exceeds `E` (normalised), then the final residue lies in
`[-E, eps)` of full scale — whatever the noise sequence. -/
theorem C14_noise_residue (eps E : K) (ws nc : List K) (hl : nc.length = ws.length) (vmin vmax vin : K)
    (h : vmin < vmax) (hc : CoveredNoisy eps ws (nc.map (· / (vmax - vmin))))
    (hup : ∀ e ∈ nc, e ≤ E * (vmax - vmin))
    (h0 : vmin - E * (vmax - vmin) ≤ vin) (h1 : vin < vmin + (ws.sum + eps) * (vmax - vmin)) :
    ∃ codes y, sarConvert vin ws [vmin, vmax] 0 nc = .ok codes ∧ sarReconstruct codes ws [vmin, vmax] = .ok y ∧
      -E * (vmax - vmin) ≤ vin - y ∧ vin - y < eps * (vmax - vmin) := by
  have hd : 0 < vmax - vmin := by linarith
  have hconv : sarConvert vin ws [vmin, vmax] 0 nc =
      .ok (sarLoop ((vin - vmin) / (vmax - vmin)) 0 (ws.zip (nc.map (· / (vmax - vmin))))) := by
    unfold sarConvert
    rw [parseQuantRange_ok vmin vmax h]
    simp only [bind, Except.bind, pure, Except.pure, add_zero]
  refine ⟨_, _, hconv, reconstruct_eq _ _ _ _ h (by simp [sarLoop_length, hl]), ?_⟩
  obtain ⟨ha, hb⟩ := noisy_residue eps E ws (nc.map (· / (vmax - vmin))) (by simpa using hl) hc
    (by
      intro e he
      rw [List.mem_map] at he
      obtain ⟨a, ha, rfl⟩ := he
      rw [div_le_iff₀ hd]; exact hup a ha)
    ((vin - vmin) / (vmax - vmin)) (by rw [le_div_iff₀ hd]; linarith) (by rw [div_lt_iff₀ hd]; linarith)
  have e : (vin - vmin) / (vmax - vmin) * (vmax - vmin) = vin - vmin := div_mul_cancel₀ _ hd.ne'
  have h3 := mul_le_mul_of_nonneg_right ha hd.le
  have h4 := mul_lt_mul_of_pos_right hb hd
  rw [sub_mul, e] at h3 h4
  constructor <;> linarith

/-- **C14 (downward noise is fully absorbed).** When no noise sample is positive and each stays inside the redundancy
margin, the residue lies in the error-free band `[0, eps)`. -/
theorem C14_downward_noise_absorbed (eps : K) (ws nc : List K) (hl : nc.length = ws.length) (vmin vmax vin : K)
    (h : vmin < vmax) (hc : CoveredNoisy eps ws (nc.map (· / (vmax - vmin)))) (hup : ∀ e ∈ nc, e ≤ 0)
    (h0 : vmin ≤ vin) (h1 : vin < vmin + (ws.sum + eps) * (vmax - vmin)) :
    ∃ codes y, sarConvert vin ws [vmin, vmax] 0 nc = .ok codes ∧ sarReconstruct codes ws [vmin, vmax] = .ok y ∧
      0 ≤ vin - y ∧ vin - y < eps * (vmax - vmin) := by
  obtain ⟨c, y, hc1, hy, ha, hb⟩ := C14_noise_residue eps 0 ws nc hl vmin vmax vin h hc (by simpa using hup)
    (by linarith) h1
  exact ⟨c, y, hc1, hy, by linarith, hb⟩

/-- **C14 (negation of the symmetric claim).** Redundancy does *not* absorb upward noise: with the redundant array
`[8,4,4,2,1]/20` and eps = 1/20, an upward noise sample no larger than half the redundancy margin of its trial makes
the final error leave the error-free band `[0, eps)`. -/
theorem C14_symmetric_noise_false :
    ∃ (ws nc : List ℚ) (vin y : ℚ) (codes : List Bool),
      nc.length = ws.length ∧ CoveredNoisy (1 / 20) ws (nc.map fun e => -|e|) ∧
      0 ≤ vin ∧ vin < ws.sum + 1 / 20 ∧
      sarConvert vin ws [0, 1] 0 nc = .ok codes ∧ sarReconstruct codes ws [0, 1] = .ok y ∧
      ¬ (0 ≤ vin - y ∧ vin - y < 1 / 20) := by
  refine ⟨[8/20, 4/20, 4/20, 2/20, 1/20], [2/20, 0, 0, 0, 0], 7/20, 8/20, [true, false, false, false, false],
    rfl, ?_, by norm_num, by norm_num, by decide +kernel, by decide +kernel, by norm_num⟩
  simp only [CoveredNoisy, List.map_cons, List.map_nil, List.sum_cons, List.sum_nil]
  norm_num

/-! ### C15 -/

theorem ideal_of_raw (w : List K) (l : List K) (z : K) (hw : w = l ++ [z]) (hpos : ∀ x ∈ w, 0 < x)
    (n : ℕ) (red : Option ℤ) (hraw : sarRawWeights n red = .ok w) :
    sarIdealWeights n red = .ok (w.map (· / (w.sum + z))) ∧ 0 < w.sum + z ∧
      (w.map (· / (w.sum + z))).sum + z / (w.sum + z) = 1 := by
  have hlast : pyGet w (-1) = .ok z := by
    rw [pyGet_neg _ _ (by norm_num) (by rw [hw]; simp)]
    rw [hw]
    have : (-1 + ((l ++ [z]).length : ℤ)) = ((l.length : ℕ) : ℤ) := by simp
    rw [this, pyGet_nat _ _ (by simp)]
    simp
  have hz : 0 < z := hpos z (by rw [hw]; simp)
  have hs : 0 ≤ w.sum := List.sum_nonneg fun x hx => (hpos x hx).le
  refine ⟨?_, by linarith, ?_⟩
  · unfold sarIdealWeights
    rw [hraw]
    simp only [bind, Except.bind, pure, Except.pure, hlast]
  · have : (w.map (· / (w.sum + z))).sum = w.sum / (w.sum + z) := by
      generalize w.sum + z = d
      clear hlast hpos hraw hw hs
      induction w with
      | nil => simp
      | cons a w ih => simp [ih, add_div]
    rw [this, ← add_div, div_self (by linarith)]

/-- **C15.** Without redundancy the weights are exactly `1/2, 1/4, …, 1/2^n`. -/
theorem C15_ideal_weights_binary (n : ℕ) (hn : n ≠ 0) :
    sarIdealWeights (K := K) n none = .ok ((List.range n).map fun i => 1 / 2 ^ (i + 1)) := by
  rw [ideal_none n hn, ← pow2List_eq, List.map_map]
  congr 1
  apply List.map_congr_left
  intro i hi
  rw [List.mem_range] at hi
  simp only [Function.comp]
  rw [div_eq_div_iff (by positivity) (by positivity), ← pow_add, one_mul]
  congr 1; omega

/-- **C15.** For every resolution and every valid redundant position (Python index, other than `-1`) the result has
`n+1` positive non-increasing weights, the chosen bit appears twice in a row, and `sum + last = 1`. -/
theorem C15_ideal_weights_redundant (n : ℕ) (r : ℤ) (h1 : -(n : ℤ) ≤ r) (h2 : r < n) (hne : r ≠ -1) :
    ∃ ws last, sarIdealWeights (K := K) n (some r) = .ok ws ∧ ws.length = n + 1 ∧ (∀ w ∈ ws, 0 < w) ∧
      ws.Pairwise (· ≥ ·) ∧ ws.getLast? = some last ∧ ws.sum + last = 1 ∧
      (∃ a x b, ws = a ++ x :: x :: b ∧ (a.length : ℤ) = if r < 0 then r + n else r) := by
  have hn : n ≠ 0 := by omega
  obtain ⟨l, hl⟩ := pow2List_last (K := K) n hn
  obtain ⟨a, x, b, hsplit, hlen, hget, hins⟩ := pyInsert_dup (pow2List n : List K) r
    (by rw [pow2List_length]; exact h1) (by rw [pow2List_length]; exact h2) hne
  rw [pow2List_length] at hlen
  have hraw : sarRawWeights (K := K) n (some r) = .ok (a ++ x :: x :: b) := by
    unfold sarRawWeights
    simp only [pow2List_eq, bind, Except.bind, pure, Except.pure, hget, hins]
  have hpos : ∀ y ∈ a ++ x :: x :: b, 0 < y := by
    intro y hy
    apply pow2List_pos n y
    rw [hsplit]; simp at hy ⊢; tauto
  have hsort := pow2List_sorted (K := K) n
  rw [hsplit, List.pairwise_append, List.pairwise_cons] at hsort
  obtain ⟨hs1, ⟨hs2, hs3⟩, hs4⟩ := hsort
  have hsort' : (a ++ x :: x :: b).Pairwise (· ≥ ·) := by
    rw [List.pairwise_append, List.pairwise_cons, List.pairwise_cons]
    refine ⟨hs1, ⟨?_, hs2, hs3⟩, ?_⟩
    · intro y hy; rcases List.mem_cons.mp hy with rfl | hy
      · exact le_refl _
      · exact hs2 y hy
    · intro y hy z hz
      rcases List.mem_cons.mp hz with rfl | hz
      · exact hs4 y hy _ (by simp)
      · exact hs4 y hy z hz
  obtain ⟨l', z, hlast⟩ : ∃ l' z, a ++ x :: x :: b = l' ++ [z] := by
    rcases List.eq_nil_or_concat (a ++ x :: x :: b) with h | ⟨l', z, h⟩
    · simp at h
    · exact ⟨l', z, by simpa using h⟩
  obtain ⟨hok, hd, hsum⟩ := ideal_of_raw _ l' z hlast hpos n (some r) hraw
  refine ⟨_, z / ((a ++ x :: x :: b).sum + z), hok, ?_, ?_, ?_, ?_, hsum, ?_⟩
  · have := congrArg List.length hsplit
    rw [pow2List_length] at this
    simp at this ⊢; omega
  · intro w hw
    rw [List.mem_map] at hw
    obtain ⟨y, hy, rfl⟩ := hw
    exact div_pos (hpos y hy) hd
  · rw [List.pairwise_map]
    refine hsort'.imp ?_
    intro p q hpq
    exact (div_le_div_iff_of_pos_right hd).mpr hpq
  · generalize (a ++ x :: x :: b).sum + z = d
    rw [hlast]; simp
  · exact ⟨a.map (· / _), x / _, b.map (· / _), by rw [List.map_append]; rfl, by rw [List.length_map]; exact hlen⟩

/-- **C15 (defect).** Index `-1` (the LSB in Python convention) puts the duplicate in front, so the "MSB at index 0"
order is lost for every resolution above one bit. -/
theorem C15_minus_one_breaks_order (n : ℕ) (hn : 2 ≤ n) :
    ∃ ws, sarIdealWeights (K := K) n (some (-1)) = .ok ws ∧ ¬ ws.Pairwise (· ≥ ·) := by
  obtain ⟨l, hl⟩ := pow2List_last (K := K) n (by omega)
  have hget : pyGet (pow2List n : List K) (-1) = .ok 1 := by
    rw [pyGet_neg _ _ (by norm_num) (by rw [pow2List_length]; omega)]
    rw [hl]
    have : (-1 + ((l ++ [(1 : K)]).length : ℤ)) = ((l.length : ℕ) : ℤ) := by simp
    rw [this, pyGet_nat _ _ (by simp)]
    simp
  have hraw : sarRawWeights (K := K) n (some (-1)) = .ok (1 :: pow2List n) := by
    unfold sarRawWeights
    simp only [pow2List_eq, bind, Except.bind, pure, Except.pure, hget, pyInsert_neg_one]
  obtain ⟨hok, hd, -⟩ := ideal_of_raw (1 :: pow2List n) (1 :: l) 1 (by rw [hl]; rfl)
    (by
      intro x hx
      rcases List.mem_cons.mp hx with rfl | hx
      · exact one_pos
      · exact pow2List_pos n x hx) n _ hraw
  refine ⟨_, hok, ?_⟩
  intro hp
  rw [List.pairwise_map, List.pairwise_cons] at hp
  obtain ⟨m, rfl⟩ : ∃ m, n = m + 2 := ⟨n - 2, by omega⟩
  have := hp.1 (2 ^ (m + 1)) (by simp [pow2List])
  have h1 := (div_le_div_iff_of_pos_right hd).mp this
  have h2 : (1 : K) ≤ 2 ^ m := one_le_pow₀ (by norm_num)
  rw [pow_succ] at h1
  linarith

/-- **C15 (errors).** The call fails exactly when there is no bit or the redundant index is outside `[-n, n)`, and the
failure is always Python's `IndexError`. -/
theorem C15_error_iff (n : ℕ) (red : Option ℤ) (e : PyErr) :
    sarIdealWeights (K := K) n red = .error e ↔
      e = .indexError ∧ (n = 0 ∨ ∃ r, red = some r ∧ (r < -(n : ℤ) ∨ (n : ℤ) ≤ r)) := by
  by_cases hn : n = 0
  · subst hn
    have : sarIdealWeights (K := K) 0 red = .error .indexError := by
      cases red with
      | none => rfl
      | some r =>
        unfold sarIdealWeights sarRawWeights
        simp only [List.range_zero, List.map_nil]
        rw [pyGet_error ([] : List K) r (by simp; omega)]
        rfl
    rw [this]; simp [eq_comm]
  · cases red with
    | none => rw [ideal_none n hn]; simp [hn]
    | some r =>
      by_cases hr : r < -(n : ℤ) ∨ (n : ℤ) ≤ r
      · have : sarIdealWeights (K := K) n (some r) = .error .indexError := by
          unfold sarIdealWeights sarRawWeights
          simp only [pow2List_eq]
          rw [pyGet_error _ r (by rw [pow2List_length]; exact hr)]
          rfl
        rw [this]; simp [eq_comm, hr]
      · have hr' := hr
        push Not at hr
        by_cases hne : r = -1
        · subst hne
          have hok : ∃ ws, sarIdealWeights (K := K) n (some (-1)) = .ok ws := by
            by_cases h2 : 2 ≤ n
            · obtain ⟨ws, h, -⟩ := C15_minus_one_breaks_order (K := K) n h2
              exact ⟨ws, h⟩
            · have : n = 1 := by omega
              subst this
              exact ⟨_, rfl⟩
          obtain ⟨ws, h⟩ := hok
          rw [h]; simp [hn]; omega
        · obtain ⟨ws, _, h, -⟩ := C15_ideal_weights_redundant (K := K) n r hr.1 hr.2 hne
          rw [h]; simp [hn]; intros; omega

/-! ### C16, C53 -/

private theorem quantize_eq [FloorRing K] (n : ℕ) (vin vmin vmax : K) (h : vmin < vmax) :
    quantize vin n vmin vmax = (idealCode n ((vin - vmin) / (vmax - vmin)) : K) * ((vmax - vmin) / 2 ^ n) + vmin := by
  have hd : vmax - vmin ≠ 0 := by
    have : 0 < vmax - vmin := by linarith
    exact this.ne'
  have hpos : (0 : ℤ) < 2 ^ n := by positivity
  have e : (vin - vmin) / ((vmax - vmin) / 2 ^ n) = (vin - vmin) / (vmax - vmin) * 2 ^ n := by
    field_simp
  unfold quantize
  simp only [e]
  congr 2
  have hz : ((idealCode n ((vin - vmin) / (vmax - vmin)) : ℕ) : ℤ)
      = clip ⌊(vin - vmin) / (vmax - vmin) * 2 ^ n⌋ 0 (2 ^ n - 1) := by
    unfold idealCode clip; omega
  rw [← hz, Int.cast_natCast]

/-- **C16.** The signal generator's quantizer and the ideal SAR model (convert, then reconstruct) agree on every
input, for every resolution and range. -/
theorem C16_quantizer_agrees_with_sar [FloorRing K] (n : ℕ) (hn : n ≠ 0) (vin vmin vmax : K) (h : vmin < vmax) :
    (do let ws ← sarIdealWeights n none; sarRoundTrip vin ws [vmin, vmax]) = .ok (quantize vin n vmin vmax) := by
  rw [round_trip_ideal n hn vin vmin vmax h, quantize_eq n vin vmin vmax h]

private theorem idealCode_mono [FloorRing K] (n : ℕ) {x y : K} (h : x ≤ y) : idealCode n x ≤ idealCode n y := by
  have hp : (0 : K) < 2 ^ n := by positivity
  have : ⌊x * 2 ^ n⌋ ≤ ⌊y * 2 ^ n⌋ := Int.floor_le_floor (mul_le_mul_of_nonneg_right h hp.le)
  unfold idealCode; omega

/-- **C53.** The quantizer output is in `[vmin, vmax - LSB]`, is one of the `2^n` levels `vmin + k·LSB`, is within one
LSB below any in-range input, and is monotone in the input. -/
theorem C53_quantizer [FloorRing K] (n : ℕ) (v1 v2 vmin vmax : K) (h : vmin < vmax) :
    (vmin ≤ quantize v1 n vmin vmax ∧ quantize v1 n vmin vmax ≤ vmax - (vmax - vmin) / 2 ^ n) ∧
    (∃ k : ℕ, k < 2 ^ n ∧ quantize v1 n vmin vmax = vmin + k * ((vmax - vmin) / 2 ^ n)) ∧
    (vmin ≤ v1 → v1 < vmax → 0 ≤ v1 - quantize v1 n vmin vmax ∧
      v1 - quantize v1 n vmin vmax < (vmax - vmin) / 2 ^ n) ∧
    (v1 ≤ v2 → quantize v1 n vmin vmax ≤ quantize v2 n vmin vmax) := by
  have hd : 0 < vmax - vmin := by linarith
  have hp : (0 : K) < 2 ^ n := by positivity
  have hl : 0 < (vmax - vmin) / 2 ^ n := div_pos hd hp
  rw [quantize_eq n v1 vmin vmax h, quantize_eq n v2 vmin vmax h]
  refine ⟨⟨?_, ?_⟩, ⟨idealCode n ((v1 - vmin) / (vmax - vmin)), idealCode_lt n _, by ring⟩, ?_, ?_⟩
  · have : (0 : K) ≤ (idealCode n ((v1 - vmin) / (vmax - vmin)) : K) := Nat.cast_nonneg _
    have := mul_nonneg this hl.le
    linarith
  · have hlt := idealCode_lt n ((v1 - vmin) / (vmax - vmin))
    have : ((idealCode n ((v1 - vmin) / (vmax - vmin)) : ℕ) : K) + 1 ≤ 2 ^ n := by exact_mod_cast hlt
    have := mul_le_mul_of_nonneg_right this hl.le
    rw [add_mul, mul_div_cancel₀ _ hp.ne'] at this
    linarith
  · intro h1 h2
    obtain ⟨ha, hb⟩ := (idealCode_bounds n ((v1 - vmin) / (vmax - vmin))).2.2 (div_nonneg (by linarith) hd.le)
      (by rw [div_lt_one hd]; linarith)
    have e : v1 - vmin = ((v1 - vmin) / (vmax - vmin) * 2 ^ n) * ((vmax - vmin) / 2 ^ n) := by
      field_simp
    constructor
    · have := mul_le_mul_of_nonneg_right ha hl.le
      linarith
    · have := mul_lt_mul_of_pos_right hb hl
      rw [add_mul] at this
      linarith
  · intro h12
    have : (idealCode n ((v1 - vmin) / (vmax - vmin)) : K) ≤ (idealCode n ((v2 - vmin) / (vmax - vmin)) : K) := by
      exact_mod_cast idealCode_mono n ((div_le_div_iff_of_pos_right hd).mpr (by linarith))
    have := mul_le_mul_of_nonneg_right this hl.le
    linarith

/-- **C53 (idempotence).** Quantizing twice with the same settings is the same as quantizing once. -/
theorem C53_quantizer_idempotent [FloorRing K] (n : ℕ) (v vmin vmax : K) (h : vmin < vmax) :
    quantize (quantize v n vmin vmax) n vmin vmax = quantize v n vmin vmax := by
  have hd : 0 < vmax - vmin := by linarith
  have hp : (0 : K) < 2 ^ n := by positivity
  obtain ⟨-, ⟨k, hk, he⟩, -⟩ := C53_quantizer n v v vmin vmax h
  rw [he, quantize_eq n _ vmin vmax h]
  have e : (vmin + k * ((vmax - vmin) / 2 ^ n) - vmin) / (vmax - vmin) * 2 ^ n = ((k : ℤ) : K) := by
    rw [Int.cast_natCast]; field_simp; ring
  have hc : idealCode n ((vmin + k * ((vmax - vmin) / 2 ^ n) - vmin) / (vmax - vmin)) = k := by
    have hN : ((2 ^ n : ℕ) : ℤ) = 2 ^ n := by push_cast; ring
    unfold idealCode
    rw [e, Int.floor_intCast]; omega
  rw [hc]; ring

/-! ### Concrete cases -/

-- C10: 4 bits on [-1, 1], input 0.3 ⇒ code 10 = 1010b
example : (do let ws ← sarIdealWeights 4 none; sarConvertIdeal (3/10 : ℚ) ws [-1, 1])
    = .ok [true, false, true, false] := by decide +kernel
example : sarConvertIdeal (1/2 : ℚ) [1/2] [1, 1] = .error .valueError := by decide +kernel
-- C11/C16
example : (do let ws ← sarIdealWeights 4 none; sarRoundTrip (3/10 : ℚ) ws [-1, 1]) = .ok (1/4) := by decide +kernel
example : quantize (3/10 : ℚ) 4 (-1) 1 = 1/4 := by decide +kernel
-- C12: mismatched weights
example : ∀ w ∈ [(51/100 : ℚ), 24/100, 13/100], 0 ≤ w := by decide +kernel
-- C13: a redundant array is covered, a gapped one is not
example : Covered (1/20 : ℚ) [8/20, 4/20, 4/20, 2/20, 1/20] := by simp only [Covered]; norm_num
example : ¬ Covered (1/20 : ℚ) [12/20, 4/20, 2/20, 1/20] := by simp only [Covered]; norm_num
-- C14: downward noise on the first two trials
example : CoveredNoisy (1/20 : ℚ) [8/20, 4/20, 4/20, 2/20, 1/20] [-3/20, -2/20, 0, 0, 0] := by
  simp only [CoveredNoisy]; norm_num
-- C15
example : sarIdealWeights (K := ℚ) 4 (some 1) = .ok [8/20, 4/20, 4/20, 2/20, 1/20] := by decide +kernel
example : sarIdealWeights (K := ℚ) 4 (some (-3)) = .ok [8/20, 4/20, 4/20, 2/20, 1/20] := by decide +kernel
example : sarIdealWeights (K := ℚ) 4 (some 4) = .error .indexError := by decide +kernel

end Verif
