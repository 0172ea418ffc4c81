import Verif.Model.MatlabSpectrum
import Verif.Theorems.Matlab
import Verif.Theorems.MatlabFilter
import Verif.Theorems.SpectrumBins

/-!
# C120: the sums behind the spectrum report against `plotspec.m`

Both programs start from the same one-sided power spectrum `p` (C121), the same fundamental bin `b` and the same side bin `s`.
-/

namespace Verif

open Model Spec Finset

section

variable {K : Type} [Field K] [LinearOrder K] [IsStrictOrderedRing K] [FloorRing K]

private theorem ext_getD (x y : List K) (hl : x.length = y.length) (h : ∀ j < x.length, x.getD j 0 = y.getD j 0) : x = y := by
  apply List.ext_getElem hl
  intro j h1 h2
  have := h j h1
  rw [List.getD_eq_getElem?_getD, List.getElem?_eq_getElem h1, List.getD_eq_getElem?_getD, List.getElem?_eq_getElem h2] at this
  exact this

private theorem ml_getD (p : List K) (s b i : ℕ) :
    (mlCleared p s b).getD i 0 = if s ≤ i ∧ ¬ (b - s ≤ i ∧ i < b + s + 1) then p.getD i 0 else 0 := by
  unfold mlCleared
  rw [zeroRange_getD, zeroRange_getD]
  have hout : p.length ≤ i → p.getD i 0 = 0 := fun h => by rw [List.getD_eq_getElem?_getD, List.getElem?_eq_none h]; rfl
  split_ifs with h1 h2 h3 h4 h5 h6
  any_goals rfl
  any_goals omega
  exact hout (by omega)

private theorem ml_length (p : List K) (s b : ℕ) : (mlCleared p s b).length = p.length := by
  unfold mlCleared
  rw [zeroRange_length, zeroRange_length]

private theorem ml_take_getD (p : List K) (n s b i : ℕ) :
    ((mlCleared p s b).take n).getD i 0 = if i < n ∧ s ≤ i ∧ ¬ (b - s ≤ i ∧ i < b + s + 1) then p.getD i 0 else 0 := by
  rw [List.getD_eq_getElem?_getD, List.getElem?_take]
  by_cases h : i < n
  · rw [if_pos h, ← List.getD_eq_getElem?_getD, ml_getD]
    simp [h]
  · rw [if_neg h, if_neg (by tauto)]
    rfl

/-- The bin in which the two programs can differ: `plotspec.m` keeps bin `s`, the Python function clears it with DC. -/
def guardBin (p : List K) (s b : ℕ) : K := if 2 * s < b then p.getD s 0 else 0

/-- **C120 (refuted: one more bin next to DC).** `plotspec.m` clears the bins `0 .. s-1` around DC, `compute_spectrum` clears `0 .. s`. So the noise-and-distortion
power of `plotspec.m` is the Python one plus the power in bin `s`, unless that bin belongs to the signal. -/
theorem C120_noise_dist (p : List K) (n s b : ℕ) (hn : n ≤ p.length) (hs : s < n) (hb : s ≤ b) :
    mlNoiseDist p n s b = noiseAndDistortion p n s b + guardBin p s b := by
  rw [nad_eq_cleared p n s b hn]
  unfold mlNoiseDist
  rw [list_sum_eq, list_sum_eq, cleared_length, List.length_take, ml_length, min_eq_left hn]
  have hg : guardBin p s b = ∑ i ∈ range n, if i = s then guardBin p s b else 0 := by
    rw [sum_ite_eq' (range n) s, if_pos (mem_range.mpr hs)]
  rw [hg, ← sum_add_distrib]
  apply sum_congr rfl
  intro i hi
  rw [mem_range] at hi
  rw [ml_take_getD, cleared_getD]
  unfold guardBin
  split_ifs with h1 h2 h3 h4 h5 h6
  any_goals omega
  any_goals simp
  all_goals (subst_vars; rfl)

/-- If bin `s` is empty, or belongs to the signal, the two cleared spectra are the same list. -/
private theorem cleared_same (p : List K) (n s b : ℕ) (hn : n ≤ p.length) (hs : s < n) (hb : s ≤ b) (hg : guardBin p s b = 0) :
    (mlCleared p s b).take n = clearedInband p n s (b - s) (min (b + s + 1) n) := by
  apply ext_getD
  · rw [List.length_take, ml_length, cleared_length]
  · intro i hi
    rw [List.length_take, ml_length] at hi
    rw [ml_take_getD, cleared_getD]
    unfold guardBin at hg
    split_ifs with h1 h2 h2
    any_goals rfl
    any_goals omega
    have : i = s := by omega
    rw [if_pos (by omega)] at hg
    rw [this]
    exact hg

private theorem floorBins (c : List K) : mlFloorBins c = specForFloor c := by
  unfold mlFloorBins specForFloor
  simp only [gt_iff_lt]

private theorem mean_same (c : List K) (n : ℕ) : mlNoiseMean c n = trimmedNoise c n := by
  unfold mlNoiseMean trimmedNoise trimmedIndices
  simp only [floorBins, sortAsc_length]
  set m := (specForFloor c).length with hm
  have hsl : slice (sortAsc (specForFloor c)) (max 1 (m * 5 / 100) - 1) (min (max (max 1 (m * 5 / 100) - 1 + 1) (max 1 (m * 95 / 100))) m)
      = slice (sortAsc (specForFloor c)) (max 1 (m * 5 / 100) - 1) (max 1 (m * 95 / 100)) := by
    rw [show max (max 1 (m * 5 / 100) - 1 + 1) (max 1 (m * 95 / 100)) = max 1 (m * 95 / 100) by omega]
    unfold slice
    congr 1
    rw [List.take_eq_take_iff, sortAsc_length]
    omega
  rw [hsl]

private theorem exclude_fold (n : ℕ) (hs : List ℤ) (hpos : ∀ h ∈ hs, 0 ≤ h) : ∀ c : List K,
    (hs.foldl (fun (c : List K) (h : ℤ) => zeroRange c h.toNat (h.toNat + 1)) c).take n =
      hs.foldl (fun (s : List K) (h : ℤ) => if 0 ≤ h ∧ h < (n : ℤ) then zeroRange s h.toNat (h.toNat + 1) else s) (c.take n) := by
  induction hs with
  | nil => intro c; rfl
  | cons h t ih =>
    intro c
    rw [List.foldl_cons, List.foldl_cons, ih (fun x hx => hpos x (by simp [hx]))]
    congr 1
    have h0 := hpos h (by simp)
    apply ext_getD
    · split_ifs <;> simp [zeroRange_length]
    · intro i hi
      have hin : i < n := by rw [List.length_take] at hi; omega
      have htk : ∀ l : List K, (l.take n).getD i 0 = l.getD i 0 := by
        intro l
        rw [List.getD_eq_getElem?_getD, List.getElem?_take, if_pos hin, ← List.getD_eq_getElem?_getD]
      rw [htk, zeroRange_getD]
      split_ifs with h1 h2 h2
      · rw [zeroRange_getD, if_pos h1]
      · omega
      · rw [zeroRange_getD, if_neg h1, htk]
      · rw [htk]

/-- **C120 (agreement).** If bin `s` is empty or belongs to the signal, noise and distortion, spur bin and spur power, and the noise power of each of the four methods
are those of `plotspec.m`; the Python noise power is floored at `1e-15`. -/
theorem C120_same (p : List K) (method : ℤ) (n M s b : ℕ) (hs : List ℤ) (hn : n ≤ p.length) (hsn : s < n) (hb : s ≤ b) (hpos : ∀ h ∈ hs, 0 ≤ h)
    (hg : guardBin p s b = 0) (hm : 0 ≤ method ∧ method ≤ 3) :
    mlNoiseDist p n s b = noiseAndDistortion p n s b ∧ extractHighestSpur p s n (b - s) (min (b + s + 1) n) = .ok (mlSpur p n s b) ∧
      ∃ v, mlNoise p method n M s b hs = some v ∧ estimateNoisePower p method n M b hs s = .ok (some (max v (1 / 10 ^ 15))) := by
  have hc := cleared_same p n s b hn hsn hb hg
  refine ⟨by rw [C120_noise_dist p n s b hn hsn hb, hg, add_zero], ?_, ?_⟩
  · unfold extractHighestSpur mlSpur
    simp only [← hc]
    rw [if_neg (fun e => by
      have := congrArg List.length e
      rw [List.length_take, ml_length, List.length_nil] at this
      omega)]
  · have he : mlNoiseExclude p n s b hs = excludeNoise (clearedInband p n s (b - s) (min (b + s + 1) n)) hs n := by
      unfold mlNoiseExclude excludeNoise
      rw [exclude_fold n hs hpos, hc]
    have hmed : ∀ c : List K, mlNoiseMedian c M n = medianNoise c M n := fun c => by
      unfold mlNoiseMedian medianNoise
      rw [floorBins]
    unfold mlNoise estimateNoisePower
    simp only [hc, hmed, mean_same, he]
    have : method = 0 ∨ method = 1 ∨ method = 2 ∨ method = 3 := by omega
    rcases this with rfl | rfl | rfl | rfl <;> exact ⟨_, rfl, rfl⟩

private theorem fold_sum (hs : List ℤ) (hpos : ∀ h ∈ hs, 0 ≤ h) (i : ℕ) : ∀ c : List K,
    (hs.foldl (fun (c : List K) (h : ℤ) => zeroRange c h.toNat (h.toNat + 1)) c).getD i 0 = if (i : ℤ) ∈ hs then 0 else c.getD i 0 := by
  induction hs with
  | nil => intro c; simp
  | cons h t ih =>
    intro c
    have h0 := hpos h (by simp)
    rw [List.foldl_cons, ih (fun x hx => hpos x (by simp [hx])), zeroRange_getD]
    by_cases h1 : (i : ℤ) ∈ t
    · rw [if_pos h1, if_pos (by simp [h1])]
    · rw [if_neg h1]
      by_cases h2 : (i : ℤ) = h
      · rw [if_pos (by omega), if_pos (by simp [h2])]
      · rw [if_neg (by omega), if_neg (by simp [h1, h2])]

/-- **C120 (exclude method).** The noise power of method 3 in `plotspec.m` is the Python one plus bin `s`, unless that bin is a harmonic or belongs to the signal. -/
theorem C120_exclude (p : List K) (n M s b : ℕ) (hs : List ℤ) (hn : n ≤ p.length) (hsn : s < n) (hb : s ≤ b) (hpos : ∀ h ∈ hs, 0 ≤ h) :
    ∃ v, estimateNoisePower p 3 n M b hs s = .ok (some (max v (1 / 10 ^ 15))) ∧
      mlNoise p 3 n M s b hs = some (v + if (s : ℤ) ∈ hs then 0 else guardBin p s b) := by
  refine ⟨excludeNoise (clearedInband p n s (b - s) (min (b + s + 1) n)) hs n, rfl, ?_⟩
  show some (mlNoiseExclude p n s b hs) = _
  rw [Option.some.injEq]
  have hcl : clearedInband p n s (b - s) (min (b + s + 1) n) = (clearedInband p n s (b - s) (min (b + s + 1) n)).take n := by
    rw [List.take_of_length_le]
    rw [cleared_length]; omega
  unfold mlNoiseExclude excludeNoise
  rw [hcl, ← exclude_fold n hs hpos, list_sum_eq, list_sum_eq]
  have hlen : ∀ (hs : List ℤ) (c : List K), (hs.foldl (fun (c : List K) (h : ℤ) => zeroRange c h.toNat (h.toNat + 1)) c).length = c.length := by
    intro hs
    induction hs with
    | nil => intro c; rfl
    | cons h t ih => intro c; rw [List.foldl_cons, ih, zeroRange_length]
  rw [List.length_take, List.length_take, hlen, hlen, ml_length, cleared_length, min_eq_left hn, min_self]
  have hg : (if (s : ℤ) ∈ hs then 0 else guardBin p s b) = ∑ i ∈ range n, if i = s then (if (s : ℤ) ∈ hs then 0 else guardBin p s b) else 0 := by
    rw [sum_ite_eq' (range n) s, if_pos (mem_range.mpr hsn)]
  rw [hg, ← sum_add_distrib]
  apply sum_congr rfl
  intro i hi
  rw [mem_range] at hi
  have htk : ∀ l : List K, (l.take n).getD i 0 = l.getD i 0 := by
    intro l
    rw [List.getD_eq_getElem?_getD, List.getElem?_take, if_pos hi, ← List.getD_eq_getElem?_getD]
  rw [htk, htk, fold_sum hs hpos, fold_sum hs hpos, ml_getD, cleared_getD]
  unfold guardBin
  by_cases his : i = s
  · subst his
    by_cases hmem : (i : ℤ) ∈ hs
    · simp [hmem]
    · simp only [hmem, if_false, if_true]
      split_ifs with h1 h2 h3 h4 h5
      any_goals omega
      all_goals simp
  · rw [if_neg his, add_zero]
    split_ifs with h1 h2 h3
    any_goals rfl
    all_goals omega

end

/-- **C120 (SNDR).** With a positive signal the Python SNDR is better than that of `plotspec.m` exactly if bin `s` holds more than the `1e-20` that Python adds to
every noise power. -/
theorem C120_sndr (p : List ℝ) (n s b : ℕ) (hn : n ≤ p.length) (hsn : s < n) (hb : 2 * s < b) (hp : ∀ v ∈ p, 0 ≤ v) (sig : ℝ) (hsig : 0 < sig)
    (hpos : 0 < mlNoiseDist p n s b) :
    dB (sig / mlNoiseDist p n s b) < dB (sig / (noiseAndDistortion p n s b + 1 / 10 ^ 20)) ↔ 1 / 10 ^ 20 < p.getD s 0 := by
  have hnd := C120_noise_dist p n s b hn hsn (by omega)
  unfold guardBin at hnd
  rw [if_pos hb] at hnd
  have h0 : 0 ≤ noiseAndDistortion p n s b := by
    rw [nad_eq_cleared p n s b hn, list_sum_eq]
    exact sum_nonneg fun i _ => cleared_getD_nonneg p hp n s _ _ i
  have h1 : 0 < noiseAndDistortion p n s b + 1 / 10 ^ 20 := by positivity
  unfold dB
  rw [if_neg (by positivity), if_neg (by positivity), EReal.coe_lt_coe_iff]
  rw [mul_lt_mul_iff_right₀ (by norm_num), Real.logb_lt_logb_iff (by norm_num) (by positivity) (by positivity),
    div_lt_div_iff_of_pos_left hsig hpos h1, hnd]
  constructor <;> intro h <;> linarith

/-- Spectrum `0, 5, 1, 1, 1, 9, 100, 9, 1, 1`, fundamental 6, side bin 1: bin 1 counts in `plotspec.m` only, so its noise and distortion is twice as large. -/
example : mlNoiseDist [(0 : ℚ), 5, 1, 1, 1, 9, 100, 9, 1, 1] 10 1 6 = 10 ∧ noiseAndDistortion [(0 : ℚ), 5, 1, 1, 1, 9, 100, 9, 1, 1] 10 1 6 = 5 ∧
    mlSpur [(0 : ℚ), 5, 1, 1, 1, 9, 100, 9, 1, 1] 10 1 6 = (1, 6) ∧
    extractHighestSpur [(0 : ℚ), 5, 1, 1, 1, 9, 100, 9, 1, 1] 1 10 5 8 = .ok (2, 2) := by decide +kernel

/-! ## THD -/

section

variable {K : Type} [Field K] [LinearOrder K] [IsStrictOrderedRing K] [FloorRing K]

private theorem ml_thd_mem (n s : ℕ) (hs : List ℤ) (i : ℕ) :
    i ∈ mlThdBins n s hs ↔ i < n ∧ ∃ h ∈ hs, |(i : ℤ) - h| ≤ s := by
  have key : ∀ (hs : List ℤ) (m : Finset ℕ),
      i ∈ hs.foldl (fun (m : Finset ℕ) (h : ℤ) => m ∪ Ico (max (h - s) 0).toNat (min (h + s + 1) n).toNat) m ↔
        i ∈ m ∨ (i < n ∧ ∃ h ∈ hs, |(i : ℤ) - h| ≤ s) := by
    intro hs
    induction hs with
    | nil => intro m; simp
    | cons h t ih =>
      intro m
      rw [List.foldl_cons, ih, mem_union, mem_Ico]
      have hh : ((max (h - s) 0).toNat ≤ i ∧ i < (min (h + s + 1) n).toNat) ↔ i < n ∧ |(i : ℤ) - h| ≤ s := by
        rw [abs_le]; omega
      rw [hh]
      simp only [List.mem_cons, exists_eq_or_imp]
      tauto
  unfold mlThdBins
  rw [key]
  simp

/-- **C120 (THD).** If every harmonic lies inside the band with its side bins and clear of the lobes of DC and of the signal, THD is the same sum (floored at `1e-15`
in Python). -/
theorem C120_thd_same (p : List K) (n s b : ℕ) (hs : List ℤ) (hn : n ≤ p.length)
    (hcl : ∀ h ∈ hs, 2 * (s : ℤ) < |h - b| ∧ (s : ℤ) < h ∧ 2 * (s : ℤ) ≤ h ∧ h + s < n) :
    (calculateHarmonicPower p b hs s).1 = max (mlThd p n s b hs) (1 / 10 ^ 15) := by
  rw [C29_thd_power]
  congr 1
  unfold power mlThd
  have hset : thdBins p.length b s hs = mlThdBins n s hs := by
    ext i
    rw [C29_thd_bins_spec, ml_thd_mem]
    constructor
    · rintro ⟨_, h, hm, h2, h3, h4⟩
      have := hcl h hm
      rw [abs_le] at h4
      exact ⟨by omega, h, hm, by rw [abs_le]; omega⟩
    · rintro ⟨h1, h, hm, h4⟩
      have := hcl h hm
      exact ⟨by omega, h, hm, this.1, this.2.1, h4⟩
  rw [hset]
  apply sum_congr rfl
  intro i hi
  obtain ⟨_, h, hm, h4⟩ := (ml_thd_mem n s hs i).mp hi
  obtain ⟨h1, _, h2, h3⟩ := hcl h hm
  rw [ml_getD, if_pos]
  rw [abs_le] at h4
  rw [lt_abs] at h1
  omega

/-- **C120 (refuted: THD outside the band).** With oversampling, harmonics beyond the band edge count in Python and not in `plotspec.m`: if all of them are out there,
`plotspec.m` reports no distortion at all, Python the full lobe powers. -/
theorem C120_thd_out_of_band (p : List K) (n s b : ℕ) (hs : List ℤ) (hb : b < n) (hout : ∀ h ∈ hs, (n : ℤ) + s ≤ h ∧ 2 * (s : ℤ) < |h - b|) :
    mlThd p n s b hs = 0 ∧ (calculateHarmonicPower p b hs s).1 =
      max (power (fun i => p.getD i 0) ((range p.length).filter fun i => ∃ h ∈ hs, |(i : ℤ) - h| ≤ s)) (1 / 10 ^ 15) := by
  constructor
  · unfold mlThd
    rw [sum_eq_zero]
    intro i hi
    obtain ⟨h1, h, hm, h4⟩ := (ml_thd_mem n s hs i).mp hi
    have := (hout h hm).1
    rw [abs_le] at h4
    omega
  · rw [C29_thd_power]
    congr 2
    ext i
    rw [C29_thd_bins_spec, mem_filter, mem_range]
    constructor
    · rintro ⟨h1, h, hm, _, _, h4⟩; exact ⟨h1, h, hm, h4⟩
    · rintro ⟨h1, h, hm, h4⟩
      have := hout h hm
      exact ⟨h1, h, hm, this.2, by omega, h4⟩

/-- A strong second harmonic (bin 6) outside the band `0..4`, fundamental 3: `plotspec.m` reports 0, Python 50. -/
example : mlThd [(0 : ℚ), 0, 0, 100, 0, 0, 50, 0, 0] 5 0 3 [6] = 0 ∧
    (calculateHarmonicPower [(0 : ℚ), 0, 0, 100, 0, 0, 50, 0, 0] 3 [6] 0).1 = 50 := by decide +kernel

/-- **C120 (refuted: THD next to the signal).** A single harmonic whose lobe overlaps the signal lobe from above is dropped as a whole in Python; `plotspec.m` counts the
part of its lobe outside the signal lobe. -/
theorem C120_thd_collision (p : List K) (n s b : ℕ) (h : ℤ) (h1 : (b : ℤ) ≤ h) (h2 : h ≤ b + 2 * s) (hn : h + s < n) (hb : 2 * s ≤ b) :
    (calculateHarmonicPower p b [h] s).1 = 1 / 10 ^ 15 ∧ mlThd p n s b [h] = ∑ i ∈ Ico (b + s + 1) (h + s + 1).toNat, p.getD i 0 := by
  constructor
  · rw [C29_thd_power]
    have : thdBins p.length b s [h] = ∅ := by
      rw [eq_empty_iff_forall_notMem]
      intro i hi
      rw [C29_thd_bins_spec] at hi
      obtain ⟨_, h', hm, h3, _⟩ := hi
      rw [List.mem_singleton] at hm
      subst hm
      rw [lt_abs] at h3
      omega
    rw [this]
    unfold power
    rw [sum_empty, max_eq_right]
    positivity
  · unfold mlThd
    symm
    apply sum_subset_zero_on_sdiff
    · intro i hi
      rw [mem_Ico] at hi
      rw [ml_thd_mem]
      exact ⟨by omega, h, by simp, by rw [abs_le]; omega⟩
    · intro i hi
      rw [mem_sdiff, ml_thd_mem, mem_Ico] at hi
      obtain ⟨⟨_, h', hm, h4⟩, h5⟩ := hi
      rw [List.mem_singleton] at hm
      subst hm
      rw [abs_le] at h4
      rw [ml_getD, if_neg]
      omega
    · intro i hi
      rw [mem_Ico] at hi
      rw [ml_getD, if_pos]
      omega

example : mlThd [(0 : ℚ), 0, 0, 1, 100, 1, 50, 7, 0] 9 1 4 [6] = 57 ∧
    (calculateHarmonicPower [(0 : ℚ), 0, 0, 1, 100, 1, 50, 7, 0] 4 [6] 1).1 = 1 / 10 ^ 15 := by decide +kernel

/-- **C120 (harmonic bins).** For an even record length and every fundamental position none of whose multiples is half-way between two bins, and for every record length
and every whole fundamental bin, the harmonics are looked up in the same bins. -/
theorem C120_harmonic_bins (fund : K) (H N : ℕ) (hH : 1 ≤ H) (hN : 0 < N)
    (hf : (∃ z : ℤ, fund = z) ∨ (Even N ∧ ∀ i : ℕ, i < H - 1 → ∀ y : ℤ, fund * ((i + 2 : ℕ) : K) ≠ y + 1 / 2)) :
    locateHarmonicBins fund H N = .ok (mlHarmonicBins fund H N) := by
  have hNK : (0 : K) < N := by exact_mod_cast hN
  have hml : ∀ x : K, ⌊(mlAlias ((mlRound x : ℤ) : K) (N : K)).getD 0⌋ = ⌊foldFrequency ((mlRound x : ℤ) : K) (N : K)⌋ := by
    intro x
    rw [C115_alias, if_pos hNK]
    rfl
  have hround : ∀ x : K, (∀ y : ℤ, x ≠ y + 1 / 2) → mlRound x = rint x := fun x h => (C117_round x 0 le_rfl).1 h
  have hkey : ∀ i : ℕ, i < H - 1 → ∃ r, foldBin (fund * ((i + 2 : ℕ) : K)) N = .ok r ∧
      rint r = ⌊foldFrequency ((mlRound (fund * ((i + 2 : ℕ) : K)) : ℤ) : K) (N : K)⌋ := by
    intro i hi
    rcases hf with ⟨z, hz⟩ | ⟨he, ht⟩
    · have hx : fund * ((i + 2 : ℕ) : K) = ((z * ((i + 2 : ℕ) : ℤ) : ℤ) : K) := by rw [hz]; push_cast; ring
      obtain ⟨r, h1, h2⟩ := C05_fold_bin_integer_partial (K := K) (z * ((i + 2 : ℕ) : ℤ)) N hN
      rw [hx]
      refine ⟨r, h1, ?_⟩
      have hr : mlRound (((z * ((i + 2 : ℕ) : ℤ) : ℤ)) : K) = z * ((i + 2 : ℕ) : ℤ) := by
        rw [hround _ (fun y e => ?_), rint_intCast]
        have h3 : (2 * (z * ((i + 2 : ℕ) : ℤ)) : ℤ) = 2 * y + 1 := by
          have : (2 : K) * ((z * ((i + 2 : ℕ) : ℤ) : ℤ) : K) = 2 * y + 1 := by rw [e]; ring
          exact_mod_cast this
        omega
      rw [hr, ← C04_fold_unique _ _ r hNK h2]
      obtain ⟨_, _, m, hm⟩ := h2
      have : ∃ w : ℤ, r = w := by
        rcases hm with hm | hm
        · exact ⟨z * ((i + 2 : ℕ) : ℤ) - m * N, by push_cast at hm ⊢; linarith⟩
        · exact ⟨m * N - z * ((i + 2 : ℕ) : ℤ), by push_cast at hm ⊢; linarith⟩
      obtain ⟨w, rfl⟩ := this
      rw [rint_intCast, Int.floor_intCast]
    · obtain ⟨r, h1, h2⟩ := C05_fold_bin_even_partial (fund * ((i + 2 : ℕ) : K)) N hN he
      set x := fund * ((i + 2 : ℕ) : K) with hx
      refine ⟨r, h1, ?_⟩
      rw [hround x (ht i hi)]
      have hclose : |x - rint x| < 1 / 2 := by
        refine lt_of_le_of_ne (abs_sub_rint_le x) (fun e => ?_)
        rcases (abs_eq (by norm_num : (0 : K) ≤ 1 / 2)).mp e with h | h
        · exact ht i hi (rint x) (by linarith)
        · exact ht i hi (rint x - 1) (by rw [← hx, Int.cast_sub, Int.cast_one]; linarith)
      obtain ⟨q, hq⟩ := he
      have hNq : (N : K) = 2 * q := by rw [hq]; push_cast; ring
      have hq0 : (0 : ℤ) ≤ q := by positivity
      have hbnd : ∀ w : ℤ, |r - w| < 1 / 2 → 0 ≤ w ∧ w ≤ q := by
        intro w hw
        rw [abs_lt] at hw
        have hr1 := h2.1
        have hr2 := h2.2.1
        rw [hNq] at hr2
        constructor
        · have : (-1 : K) < w := by linarith
          have : (-1 : ℤ) < w := by exact_mod_cast this
          omega
        · have : (w : K) < q + 1 := by linarith
          have : w < q + 1 := by exact_mod_cast this
          omega
      have hfin : ∀ w : ℤ, |r - w| < 1 / 2 → Alias ((rint x : ℤ) : K) (N : K) (w : K) → rint r = ⌊foldFrequency ((rint x : ℤ) : K) (N : K)⌋ := by
        intro w hw hal
        obtain ⟨b1, b2⟩ := hbnd w hw
        have b1K : (0 : K) ≤ w := by exact_mod_cast b1
        have b2K : (w : K) ≤ q := by exact_mod_cast b2
        rw [← C04_fold_unique _ _ (w : K) hNK ⟨b1K, by rw [hNq]; linarith, hal⟩, Int.floor_intCast]
        exact rint_unique hw
      obtain ⟨m, hm⟩ := h2.2.2
      rcases hm with hm | hm
      · apply hfin (rint x - m * N)
        · push_cast
          rw [show r - ((rint x : K) - m * N) = x - rint x by rw [hm]; ring]
          exact hclose
        · exact ⟨m, Or.inl (by push_cast; ring)⟩
      · apply hfin (m * N - rint x)
        · push_cast
          rw [show r - ((m : K) * N - rint x) = -(x - rint x) by rw [hm]; ring, abs_neg]
          exact hclose
        · exact ⟨m, Or.inr (by push_cast; ring)⟩
  unfold locateHarmonicBins mlHarmonicBins
  rw [if_neg (by omega)]
  have hmapM : ∀ (l : List ℕ), (∀ i ∈ l, i < H - 1) →
      (l.mapM fun (i : ℕ) => do
        let a ← foldBin (fund * ((i + 2 : ℕ) : K)) N
        return rint a : Py (List ℤ)) =
      .ok (l.map fun (i : ℕ) => ⌊(mlAlias ((mlRound (fund * ((i + 2 : ℕ) : K)) : ℤ) : K) (N : K)).getD 0⌋) := by
    intro l
    induction l with
    | nil => intro _; rfl
    | cons i t ih =>
      intro hl
      obtain ⟨r, h1, h2⟩ := hkey i (hl i (by simp))
      rw [List.mapM_cons, ih (fun j hj => hl j (by simp [hj])), h1, List.map_cons, hml, ← h2]
      rfl
  exact hmapM _ (fun i hi => by simpa using hi)

/-- Half-way products differ: the second harmonic of a fundamental at `2.25` sits at `4.5`, in bin 5 of `plotspec.m` and in bin 4 in Python. -/
theorem C120_harmonic_tie : locateHarmonicBins (9 / 4 : ℚ) 2 64 = .ok [4] ∧ mlHarmonicBins (9 / 4 : ℚ) 2 64 = [5] := by decide +kernel

end

end Verif
