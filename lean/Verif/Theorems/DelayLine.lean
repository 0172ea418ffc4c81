import Verif.Model.DelayLine
import Verif.Theorems.Mismatch

/-!
# C93: variable delay line and interleaved sampler
-/

namespace Verif

open Model

section Line
variable {K : Type} [Field K] [LinearOrder K] [IsStrictOrderedRing K]

private theorem raw_le (lsb cv : K) (hl : 0 ≤ lsb) (z : ℕ → K) (i j : ℕ) (h : i ≤ j) :
    ((j - i : ℕ) : K) * (lsb / 20) ≤ vdlRaw lsb cv z j - vdlRaw lsb cv z i := by
  induction j, h using Nat.le_induction with
  | base => simp
  | succ j hj ih =>
    have e : j + 1 - i = (j - i) + 1 := by omega
    have hs : lsb / 20 ≤ vdlStep lsb cv (z j) := by
      unfold vdlStep
      have := mul_le_mul_of_nonneg_left (le_max_right (1 + cv * z j) (5 / 100)) hl
      calc lsb / 20 = lsb * (5 / 100) := by ring
        _ ≤ _ := this
    rw [e]
    push_cast
    show _ ≤ vdlRaw lsb cv z j + vdlStep lsb cv (z j) - vdlRaw lsb cv z i
    linarith

omit [IsStrictOrderedRing K] in
private theorem delays_get (n : ℤ) (lsb cv offset : K) (z : ℕ → K) (d : List K) (h : vdlDelays n lsb cv offset z = .ok d) :
    1 ≤ n ∧ (d.length : ℤ) = n ∧ ∀ k < d.length, d.getD k 0 = vdlRaw lsb cv z k - vdlRaw lsb cv z (n.toNat / 2) + offset := by
  unfold vdlDelays at h
  by_cases hn : n < 1
  · rw [if_pos hn] at h; cases h
  rw [if_neg hn] at h
  injection h with h
  subst h
  have hl : ((List.range n.toNat).map fun (k : ℕ) => vdlRaw lsb cv z k - vdlRaw lsb cv z (n.toNat / 2) + offset).length = n.toNat := by simp
  refine ⟨by omega, by rw [hl]; omega, fun k hk => ?_⟩
  rw [hl] at hk
  rw [List.getD_eq_getElem?_getD, List.getElem?_map, List.getElem?_range hk]
  rfl

/-- **C93 (monotone line).** For a non-negative step and any draws and spread, one more code adds at least 5 % of the nominal step, so the delay is
strictly increasing for a positive step; the delay at the centre code is exactly the offset. The line exists exactly for one code or more. -/
theorem C93_line (n : ℤ) (lsb cv offset : K) (hl : 0 ≤ lsb) (z : ℕ → K) :
    (n < 1 → vdlDelays n lsb cv offset z = .error .valueError) ∧
    (1 ≤ n → ∃ d, vdlDelays n lsb cv offset z = .ok d ∧ (d.length : ℤ) = n ∧ d.getD (n.toNat / 2) 0 = offset ∧
      (∀ i j, i ≤ j → j < d.length → ((j - i : ℕ) : K) * (lsb / 20) ≤ d.getD j 0 - d.getD i 0) ∧ ((d.length - 1 : ℕ) : K) * (lsb / 20) ≤ vdlRange d) := by
  refine ⟨fun h => if_pos h, fun h => ?_⟩
  have hd : ∃ d, vdlDelays n lsb cv offset z = .ok d := ⟨_, if_neg (by omega)⟩
  obtain ⟨d, hd⟩ := hd
  obtain ⟨h1, h2, h3⟩ := delays_get n lsb cv offset z d hd
  have hm : ∀ i j, i ≤ j → j < d.length → ((j - i : ℕ) : K) * (lsb / 20) ≤ d.getD j 0 - d.getD i 0 := by
    intro i j hij hj
    rw [h3 j hj, h3 i (by omega)]
    have := raw_le lsb cv hl z i j hij
    linarith
  refine ⟨d, hd, h2, ?_, hm, hm 0 (d.length - 1) (by omega) (by omega)⟩
  rw [h3 _ (by omega)]
  ring

/-- **C93 (uniform line).** Without spread the line is exactly uniform. -/
theorem C93_uniform (n : ℤ) (lsb offset : K) (z : ℕ → K) (d : List K) (h : vdlDelays n lsb 0 offset z = .ok d) (k : ℕ) (hk : k < d.length) :
    d.getD k 0 = ((k : K) - ((n.toNat / 2 : ℕ) : K)) * lsb + offset := by
  have hr : ∀ k, vdlRaw lsb 0 z k = (k : K) * lsb := by
    intro k
    induction k with
    | zero => simp [vdlRaw]
    | succ k ih =>
      rw [vdlRaw, ih, vdlStep, zero_mul, add_zero, max_eq_left (by norm_num)]
      push_cast
      ring
  rw [(delays_get n lsb 0 offset z d h).2.2 k hk, hr, hr]
  ring

/-- A line: delays that do not decrease from code to code. -/
def IsLine (d : List K) : Prop := d ≠ [] ∧ ∀ i j, i ≤ j → j < d.length → d.getD i 0 ≤ d.getD j 0

/-- Every constructed line is one. -/
theorem C93_is_line (n : ℤ) (lsb cv offset : K) (hl : 0 ≤ lsb) (z : ℕ → K) (d : List K) (h : vdlDelays n lsb cv offset z = .ok d) : IsLine d := by
  obtain ⟨h1, h2, _⟩ := delays_get n lsb cv offset z d h
  obtain ⟨d', h3, _, _, h4, _⟩ := (C93_line n lsb cv offset hl z).2 h1
  rw [h] at h3
  injection h3 with h3
  subst h3
  refine ⟨List.ne_nil_of_length_pos (by omega), fun i j hij hj => ?_⟩
  have h5 := h4 i j hij hj
  have : (0 : K) ≤ ((j - i : ℕ) : K) * (lsb / 20) := by positivity
  linarith

omit [IsStrictOrderedRing K] in
/-- **C93 (lookup).** Codes beyond the ends give the end delays, and a larger code never a smaller delay. -/
theorem C93_lookup (d : List K) (hd : IsLine d) (c c' : ℤ) :
    (0 ≤ c → c < d.length → vdlCall d c = d.getD c.toNat 0) ∧ (c < 0 → vdlCall d c = d.getD 0 0) ∧
    ((d.length : ℤ) ≤ c → vdlCall d c = d.getD (d.length - 1) 0) ∧ (c ≤ c' → vdlCall d c ≤ vdlCall d c') := by
  have hl := List.length_pos_iff.mpr hd.1
  unfold vdlCall clip
  refine ⟨fun h1 h2 => ?_, fun h => ?_, fun h => ?_, fun h => ?_⟩
  · rw [max_eq_left h1, min_eq_left (by omega)]
  · rw [max_eq_right (by omega), min_eq_left (by omega)]; rfl
  · rw [max_eq_left (by omega), min_eq_right (by omega)]
    congr 1
    omega
  · exact hd.2 _ _ (by omega) (by omega)

/-- **C93 (nearest code).** No code is closer to the target, and of equally close ones the smallest is taken. A target between two adjacent delays is
met within half their distance. -/
theorem C93_nearest (d : List K) (hne : d ≠ []) (t : K) :
    nearestCode d t < d.length ∧ (∀ k < d.length, |d.getD (nearestCode d t) 0 - t| ≤ |d.getD k 0 - t|) ∧
    (∀ k < nearestCode d t, |d.getD (nearestCode d t) 0 - t| < |d.getD k 0 - t|) ∧
    ∀ k, k + 1 < d.length → d.getD k 0 ≤ t → t ≤ d.getD (k + 1) 0 → |d.getD (nearestCode d t) 0 - t| ≤ (d.getD (k + 1) 0 - d.getD k 0) / 2 := by
  have hl := List.length_pos_iff.mpr hne
  have hlt : nearestCode d t < d.length := by
    have := argmax_lt (d.map fun d => -|d - t|) (by simpa using hne)
    rw [List.length_map] at this
    exact this
  have hget : ∀ k < d.length, (d.map fun d => -|d - t|)[k]? = some (-|d.getD k 0 - t|) := by
    intro k hk
    rw [List.getElem?_map, List.getD_eq_getElem?_getD, List.getElem?_eq_getElem hk]
    rfl
  have hm := hget _ hlt
  have hbest : ∀ k < d.length, |d.getD (nearestCode d t) 0 - t| ≤ |d.getD k 0 - t| := by
    intro k hk
    have := argmax_max _ _ hm _ (List.mem_of_getElem? (hget k hk))
    linarith
  refine ⟨hlt, hbest, fun k hk => ?_, fun k hk h1 h2 => ?_⟩
  · have := argmax_first _ _ hm k _ hk (hget k (by omega))
    linarith
  · have a1 := hbest k (by omega)
    have a2 := hbest (k + 1) hk
    rw [abs_of_nonpos (by linarith : d.getD k 0 - t ≤ 0)] at a1
    rw [abs_of_nonneg (by linarith : 0 ≤ d.getD (k + 1) 0 - t)] at a2
    linarith

/-- A line of 5 codes with unequal steps; the target -1 is nearest to the delay of code 1. -/
example : vdlDelays 5 (2 : ℚ) (1 / 10) 1 (fun k => [0, 5, -5, -100].getD k 0) = .ok [-4, -2, 1, 2, 21 / 10] ∧
    nearestCode [(-4 : ℚ), -2, 1, 2, 21 / 10] (-1) = 1 ∧ vdlCall [(-4 : ℚ), -2, 1, 2, 21 / 10] 9 = 21 / 10 := by decide +kernel

end Line

/-! ## Sampler -/

/-- **C93 (what a capture reveals).** From a clean coherent capture (any start phase) `extract_mismatch_sine` returns exactly the effective skews of the
channels - intrinsic plus delay line at the current code - minus their mean, and no gain or offset mismatch. -/
theorem C93_measured_skew (M : ℕ) (hM : M ≠ 0) (intrinsic : ℕ → ℝ) (lines : ℕ → List ℝ) (codes : ℕ → ℤ) (fs fin amp φ : ℝ) (K : ℕ) (b : ℤ)
    (hfs : fs ≠ 0) (hfin : fin ≠ 0) (hcoh : fin * (K * M) / fs = b) (hb : ¬ (K : ℤ) ∣ b) (hb2 : ¬ (K : ℤ) ∣ 2 * b) (hA : 0 < amp)
    (hsk : ((List.range M).map (effectiveSkew intrinsic lines codes)).IsChain fun s t => |2 * Real.pi * fin * (t - s)| < Real.pi) (z : ℕ → ℝ) :
    ∃ r, extractMismatch 1 ((List.range (K * M)).map (captureAt M fs fin amp φ (effectiveSkew intrinsic lines codes) none 0 z)) (M : ℤ) fs fin = .ok r ∧
      r.A = amp ∧ (∀ g ∈ r.gain, g = 1) ∧ (∀ o ∈ r.offset, o = 0) ∧
      r.skew = ((List.range M).map (effectiveSkew intrinsic lines codes)).map (· - mean ((List.range M).map (effectiveSkew intrinsic lines codes))) := by
  set s := (List.range M).map (effectiveSkew intrinsic lines codes) with hs
  have hsl : s.length = M := by simp [hs]
  have hgl : (List.replicate M (1 : ℝ)).length = M := List.length_replicate
  have hmean : mean (List.replicate M (1 : ℝ)) = 1 := by
    have : (M : ℝ) ≠ 0 := by exact_mod_cast hM
    unfold mean
    simp [this]
  obtain ⟨r, h1, h2, h3, h4, h5⟩ := C20_recovers_parameters (List.replicate M 1) (List.replicate M 0) s amp fs fin φ K b
    (by simpa using hM) (by simp) (by rw [hsl, hgl]) hfs hfin (by rw [hgl]; exact hcoh) hb hb2 hA
    (fun g hg => by rw [(List.mem_replicate.mp hg).2]; exact one_pos) hsk
  refine ⟨r, ?_, by rw [h3, hmean, mul_one], ?_, ?_, h5⟩
  · rw [hgl] at h1
    rw [← h1]
    congr 1
    apply List.map_congr_left
    intro n _
    have hm : n % M < M := Nat.mod_lt _ (by omega)
    unfold captureAt tiCapture captureTone
    simp only [addHd3, lt_irrefl, if_false, hgl]
    have e1 : (List.replicate M (0 : ℝ)).getD (n % M) 0 = 0 := by
      rw [List.getD_eq_getElem?_getD, List.getElem?_replicate, if_pos hm]
      rfl
    have e2 : (List.replicate M (1 : ℝ)).getD (n % M) 0 = 1 := by
      rw [List.getD_eq_getElem?_getD, List.getElem?_replicate, if_pos hm]
      rfl
    have e3 : s.getD (n % M) 0 = effectiveSkew intrinsic lines codes (n % M) := by
      rw [hs, List.getD_eq_getElem?_getD, List.getElem?_map, List.getElem?_range hm]
      rfl
    rw [e1, e2, e3]
    rw [mul_one, zero_add]
    congr 2
    ring
  · intro g hg
    rw [h4] at hg
    obtain ⟨a, ha, rfl⟩ := List.mem_map.mp hg
    rw [(List.mem_replicate.mp ha).2, hmean, div_one]
  · intro o ho
    rw [h2] at ho
    exact (List.mem_replicate.mp ho).2

/-- **C93 (reachable optimum).** With the code nearest to the delay that would match channel `m` to the reference skew `s0`, the remaining difference is
at most half the step of the line around that delay - for every draw and every skew inside the range of the line. -/
theorem C93_reachable_optimum (d : List ℝ) (intrinsic s0 : ℝ) (k : ℕ) (hk : k + 1 < d.length) (h1 : d.getD k 0 ≤ s0 - intrinsic)
    (h2 : s0 - intrinsic ≤ d.getD (k + 1) 0) :
    |effectiveSkew (fun _ => intrinsic) (fun _ => d) (fun _ => (nearestCode d (s0 - intrinsic) : ℤ)) 0 - s0| ≤ (d.getD (k + 1) 0 - d.getD k 0) / 2 := by
  obtain ⟨h3, _, _, h4⟩ := C93_nearest d (List.ne_nil_of_length_pos (by omega)) (s0 - intrinsic)
  have h5 := h4 k hk h1 h2
  have e : vdlCall d (nearestCode d (s0 - intrinsic) : ℤ) = d.getD (nearestCode d (s0 - intrinsic)) 0 := by
    unfold vdlCall clip
    rw [max_eq_left (by omega), min_eq_left (by omega), Int.toNat_natCast]
  unfold effectiveSkew
  rw [e]
  rw [show intrinsic + d.getD (nearestCode d (s0 - intrinsic)) 0 - s0 = d.getD (nearestCode d (s0 - intrinsic)) 0 - (s0 - intrinsic) by ring]
  exact h5

/-- **C93 (third harmonic).** With the cubic term the capture is exactly a fundamental of `1 + 3r` times the amplitude and a third harmonic of `r` times
the amplitude, in phase with the fundamental, where `r` is the requested ratio. -/
theorem C93_third_harmonic (M : ℕ) (fs fin amp φ db : ℝ) (hA : amp ≠ 0) (skew : ℕ → ℝ) (z : ℕ → ℝ) (n : ℕ) :
    captureAt M fs fin amp φ skew (some db) 0 z n =
      amp * (1 + 3 * (10 : ℝ) ^ (db / 20)) * Real.cos (2 * Real.pi * fin * (n / fs + skew (n % M)) + φ) +
      amp * (10 : ℝ) ^ (db / 20) * Real.cos (3 * (2 * Real.pi * fin * (n / fs + skew (n % M)) + φ)) := by
  unfold captureAt captureTone
  simp only [addHd3, lt_irrefl, if_false]
  rw [show (n : ℝ) * (1 / fs) = n / fs by ring, Real.cos_three_mul]
  field_simp
  ring

/-- **C93 (capture noise).** Noise adds to every sample its draw times the requested RMS value; with a zero or negative value the draws play no role. -/
theorem C93_noise (M : ℕ) (fs fin amp φ noise : ℝ) (skew : ℕ → ℝ) (hd3 : Option ℝ) (z z' : ℕ → ℝ) (n : ℕ) :
    captureAt M fs fin amp φ skew hd3 noise z n = captureAt M fs fin amp φ skew hd3 0 z' n + max noise 0 * z n := by
  unfold captureAt
  simp only [lt_irrefl, if_false]
  by_cases h : 0 < noise
  · rw [if_pos h, max_eq_left h.le]
    ring
  · rw [if_neg h, max_eq_right (not_lt.mp h)]
    ring

/-- A draw of 3 with noise 1/10 moves a sample by 3/10, with noise -1 not at all. -/
example : captureAt 2 1 (1 / 8) 1 0 (fun _ => 0) none (1 / 10) (fun _ => 3) 0 = captureAt 2 1 (1 / 8) 1 0 (fun _ => 0) none (-1) (fun _ => 3) 0 + 3 / 10 := by
  rw [C93_noise 2 1 (1 / 8) 1 0 (1 / 10) _ none _ (fun _ => 0), C93_noise 2 1 (1 / 8) 1 0 (-1) _ none _ (fun _ => 0)]
  norm_num

/-- **C93 (level of the third harmonic).** The third harmonic is below the requested level relative to the fundamental, by the factor `1 + 3r`: for a
request of -20 dBc the ratio is `1/13` instead of `1/10`. -/
theorem C93_third_harmonic_level (db : ℝ) :
    (10 : ℝ) ^ (db / 20) / (1 + 3 * (10 : ℝ) ^ (db / 20)) < (10 : ℝ) ^ (db / 20) ∧
    (10 : ℝ) ^ ((-20 : ℝ) / 20) / (1 + 3 * (10 : ℝ) ^ ((-20 : ℝ) / 20)) = 1 / 13 := by
  have h : (0 : ℝ) < (10 : ℝ) ^ (db / 20) := Real.rpow_pos_of_pos (by norm_num) _
  refine ⟨?_, ?_⟩
  · rw [div_lt_iff₀ (by linarith)]
    nlinarith
  · rw [show (-20 : ℝ) / 20 = -1 by norm_num, Real.rpow_neg (by norm_num), Real.rpow_one]
    norm_num

/-- Four channels, 64 samples each, 83 cycles: the hypotheses of `C93_measured_skew` hold for equal lines at their centre. -/
example : ∃ r, extractMismatch 1 ((List.range (64 * 4)).map (captureAt 4 1 (83 / 256) (1 / 2) 1
      (effectiveSkew (fun m => (m : ℝ) / 100) (fun _ => [0]) (fun _ => 0)) none 0 (fun _ => 0))) (4 : ℕ) 1 (83 / 256) = .ok r ∧ r.A = 1 / 2 := by
  obtain ⟨r, h, h2, _⟩ := C93_measured_skew 4 (by norm_num) (fun m => (m : ℝ) / 100) (fun _ => [0]) (fun _ => 0) 1 (83 / 256) (1 / 2) 1 64 83 (by norm_num)
    (by norm_num) (by norm_num) (by norm_num) (by norm_num) (by norm_num) (by
      have hp := Real.pi_pos
      have e : ∀ m : ℕ, effectiveSkew (fun m => (m : ℝ) / 100) (fun _ => [0]) (fun _ => 0) m = (m : ℝ) / 100 := by
        intro m
        simp [effectiveSkew, vdlCall, clip]
      simp only [List.range_succ, List.range_zero, List.nil_append, List.cons_append, List.map_cons, List.map_nil, e]
      simp only [List.isChain_cons_cons, List.isChain_singleton, and_true]
      refine ⟨?_, ?_, ?_⟩ <;> rw [abs_lt] <;> constructor <;> push_cast <;> nlinarith) (fun _ => 0)
  exact ⟨r, h, h2⟩

end Verif
