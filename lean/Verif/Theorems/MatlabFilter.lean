import Verif.Model.MatlabFilter
import Verif.Theorems.Matlab
import Verif.Theorems.BandFilter

/-!
# C117: `ifilter` against MATLAB `ifilter.m`
-/

namespace Verif

open Model Finset

section

variable {K : Type} [Field K] [LinearOrder K] [IsStrictOrderedRing K] [FloorRing K]

/-- **C117.** MATLAB's `round` and numpy's agree on every number that is not half-way between two integers. At `z + 1/2` with `z ≥ 0` MATLAB takes the upper
integer; numpy takes the even one, so they agree there exactly for odd `z`. -/
theorem C117_round (x : K) (z : ℤ) (hz : 0 ≤ z) :
    ((∀ y : ℤ, x ≠ y + 1 / 2) → mlRound x = rint x) ∧ mlRound ((z : K) + 1 / 2) = z + 1 ∧ (rint ((z : K) + 1 / 2) = z + 1 ↔ z % 2 = 1) := by
  refine ⟨?_, ?_, ?_⟩
  · intro h
    have h0 := Int.floor_le x
    have h1 := Int.lt_floor_add_one x
    have hne := h ⌊x⌋
    unfold mlRound rint
    simp only
    rcases lt_or_gt_of_ne (show x - (⌊x⌋ : K) ≠ 1 / 2 from fun e => hne (by linarith)) with hl | hl
    · rw [if_pos hl]
      split_ifs
      · rw [Int.floor_eq_iff]; constructor <;> linarith
      · rw [Int.ceil_eq_iff]; constructor <;> linarith
    · rw [if_neg (show ¬ x - (⌊x⌋ : K) < 1 / 2 by linarith), if_pos hl]
      split_ifs
      · rw [Int.floor_eq_iff]; push_cast; constructor <;> linarith
      · rw [Int.ceil_eq_iff]; push_cast; constructor <;> linarith
  · have hzK : (0 : K) ≤ z := by exact_mod_cast hz
    unfold mlRound
    rw [if_pos (by linarith), Int.floor_eq_iff]
    push_cast
    constructor <;> linarith
  · have hf : ⌊(z : K) + 1 / 2⌋ = z := by rw [Int.floor_eq_iff]; constructor <;> linarith
    unfold rint
    simp only [hf]
    rw [if_neg (by linarith), if_neg (by linarith)]
    split_ifs <;> omega

example : mlRound (5 / 2 : ℚ) = 3 ∧ rint (5 / 2 : ℚ) = 2 ∧ mlRound (7 / 2 : ℚ) = 4 ∧ rint (7 / 2 : ℚ) = 4 := by decide +kernel

/-- No band edge lies half-way between two bins of a record of length `N`. -/
def Spec.NoTie (N : ℕ) (bands : List (K × K)) : Prop := ∀ b ∈ bands, ∀ y : ℤ, b.1 * (N : K) ≠ y + 1 / 2 ∧ b.2 * (N : K) ≠ y + 1 / 2

private theorem fold_cast (z : ℤ) (N : ℕ) : ((rint (foldFrequency (z : K) (N : K)) : ℤ) : K) = foldFrequency (z : K) (N : K) := by
  have h : foldFrequency (z : K) (N : K) = ((|z - N * rint ((z : K) / N)| : ℤ) : K) := by
    unfold foldFrequency
    push_cast
    rfl
  rw [h, rint_intCast]

private theorem ids_eq (N : ℕ) (hN : 0 < N) (bands : List (K × K)) (ht : Spec.NoTie N bands) (b : K × K) (hb : b ∈ bands) :
    mlBandIds N b = (bandIds N b).map fun (z : ℤ) => (z : K) := by
  have hNK : (0 : K) < N := by exact_mod_cast hN
  unfold mlBandIds bandIds
  simp only [(C117_round (b.1 * (N : K)) 0 le_rfl).1 (fun y => (ht b hb y).1), (C117_round (b.2 * (N : K)) 0 le_rfl).1 (fun y => (ht b hb y).2),
    List.map_map]
  apply List.map_congr_left
  intro i _
  rw [C115_alias, if_pos hNK]
  simp only [Option.getD_some, Function.comp_apply]
  rw [fold_cast]

/-- **C117 (mask).** When no band edge is half-way between two bins, `ifilter.m` passes the bins `ifilter` passes and, for an odd record length only, one more: the
mirror image `(N+1)/2` of the highest bin whenever that bin is passed. -/
theorem C117_mask (N : ℕ) (hN : 0 < N) (bands : List (K × K)) (ht : Spec.NoTie N bands) (k : ℕ) (hk : k < N) :
    mlBandMask N bands k = true ↔
      bandMask N bands k = true ∨ (N % 2 = 1 ∧ k = (N + 1) / 2 ∧ bandMask N bands ((N - 1) / 2) = true) := by
  have hlt : ∀ id : ℤ, (id : K) < (N : K) / 2 ↔ 2 * id < N := by
    intro id
    rw [lt_div_iff₀ (by norm_num : (0 : K) < 2)]
    constructor
    · intro h; have : ((id * 2 : ℤ) : K) < ((N : ℤ) : K) := by push_cast; exact h
      have := Int.cast_lt.mp this
      omega
    · intro h; have : ((id * 2 : ℤ) : K) < ((N : ℤ) : K) := Int.cast_lt.mpr (by omega)
      push_cast at this; exact this
  have heq : ∀ id : ℤ, (id : K) = (k : K) ↔ id = (k : ℤ) := by
    intro id
    rw [← Int.cast_natCast (R := K) k, Int.cast_inj]
  have hsub : ∀ id : ℤ, (N : K) - (id : K) = (k : K) ↔ (N : ℤ) - id = (k : ℤ) := by
    intro id
    rw [← Int.cast_natCast (R := K) k, ← Int.cast_natCast (R := K) N, ← Int.cast_sub, Int.cast_inj]
  have hpy : ∀ k' : ℕ, bandMask N bands k' = true ↔ ∃ b ∈ bands, ∃ id ∈ bandIds N b,
      id = k' ∨ (0 < id ∧ id < ((N / 2 : ℕ) : ℤ) ∧ (N : ℤ) - id = k') := by
    intro k'
    unfold bandMask
    simp only [List.any_eq_true, Bool.or_eq_true, Bool.and_eq_true, decide_eq_true_eq, and_assoc]
  have hml : mlBandMask N bands k = true ↔ ∃ b ∈ bands, ∃ id ∈ bandIds N b,
      id = k ∨ (0 < id ∧ 2 * id < N ∧ (N : ℤ) - id = k) := by
    unfold mlBandMask
    simp only [List.any_eq_true, Bool.or_eq_true, Bool.and_eq_true, decide_eq_true_eq, and_assoc]
    constructor
    · rintro ⟨b, hb, v, hv, h⟩
      rw [ids_eq N hN bands ht b hb, List.mem_map] at hv
      obtain ⟨id, hid, rfl⟩ := hv
      refine ⟨b, hb, id, hid, ?_⟩
      rwa [heq, Int.cast_pos, hlt, hsub] at h
    · rintro ⟨b, hb, id, hid, h⟩
      refine ⟨b, hb, (id : K), ?_, ?_⟩
      · rw [ids_eq N hN bands ht b hb, List.mem_map]
        exact ⟨id, hid, rfl⟩
      · rw [heq, Int.cast_pos, hlt, hsub]
        exact h
  rw [hml, hpy, hpy]
  constructor
  · rintro ⟨b, hb, id, hid, h⟩
    rcases h with h | ⟨h1, h2, h3⟩
    · exact Or.inl ⟨b, hb, id, hid, Or.inl h⟩
    · by_cases hh : id < ((N / 2 : ℕ) : ℤ)
      · exact Or.inl ⟨b, hb, id, hid, Or.inr ⟨h1, hh, h3⟩⟩
      · refine Or.inr ⟨by omega, by omega, b, hb, id, hid, Or.inl (by omega)⟩
  · rintro (⟨b, hb, id, hid, h⟩ | ⟨h1, h2, b, hb, id, hid, h⟩)
    · refine ⟨b, hb, id, hid, ?_⟩
      rcases h with h | h
      · exact Or.inl h
      · exact Or.inr ⟨h.1, by omega, h.2.2⟩
    · refine ⟨b, hb, id, hid, ?_⟩
      rcases h with h | h
      · by_cases h0 : 0 < id
        · exact Or.inr ⟨h0, by omega, by omega⟩
        · omega
      · omega

end

private theorem maskFilter_congr (N : ℕ) (m m' : ℕ → Bool) (x : ℕ → ℝ) (n : ℕ) (h : ∀ k < N, m k = m' k) : maskFilter N m x n = maskFilter N m' x n := by
  unfold maskFilter idft
  congr 2
  apply sum_congr rfl
  intro k hk
  simp only [h k (mem_range.mp hk)]

/-- **C117 (even length).** For a record of even length and band edges that are not half-way between two bins, `ifilter` and `ifilter.m` return the same columns. -/
theorem C117_same_even (rows bands : List (List ℝ)) (N : ℕ)
    (hN : N = if rows.length < (rows.headD []).length then (rows.headD []).length else rows.length) (h0 : 0 < N) (h2 : N % 2 = 0)
    (ht : ∀ bs, checkBands bands = .ok bs → Spec.NoTie N bs) :
    mlIfilter rows bands = (extractFreqComponents rows bands).toOption := by
  unfold mlIfilter extractFreqComponents
  simp only [← hN, if_neg h0.ne']
  by_cases c1 : bands = [] ∨ ∃ r ∈ bands, r.length ≠ 2
  · rw [if_pos c1]
    simp only [checkBands, if_pos c1]
    rfl
  by_cases c2 : ∃ r ∈ bands, ∃ v ∈ r, v < 0 ∨ 1 / 2 < v
  · rw [if_neg c1, if_pos c2]
    simp only [checkBands, if_neg c1, if_pos c2]
    rfl
  have hc : checkBands bands = .ok (bands.map fun r => (min (r.getD 0 0) (r.getD 1 0), max (r.getD 0 0) (r.getD 1 0))) := by
    simp only [checkBands, if_neg c1, if_neg c2]
  rw [if_neg c1, if_neg c2]
  simp only [hc]
  have hmask : ∀ k < N, mlBandMask N (bands.map fun r => (min (r.getD 0 0) (r.getD 1 0), max (r.getD 0 0) (r.getD 1 0))) k =
      bandMask N (bands.map fun r => (min (r.getD 0 0) (r.getD 1 0), max (r.getD 0 0) (r.getD 1 0))) k := by
    intro k hk
    rw [Bool.eq_iff_iff, C117_mask N h0 _ (ht _ hc) k hk]
    constructor
    · rintro (h | h)
      · exact h
      · omega
    · exact Or.inl
  simp only [maskFilter_congr N _ _ _ _ hmask]
  have hT : mlTranspose (rows.headD []).length rows = transposeRows rows (rows.headD []).length := rfl
  rw [hT]
  rfl

example : Spec.NoTie 8 [((1 / 8 : ℚ), 2 / 5)] := by
  intro b hb y
  simp only [List.mem_singleton] at hb
  subst hb
  constructor
  · intro h
    have : ((2 * y - 1 : ℤ) : ℚ) = 0 := by push_cast; linarith
    have : 2 * y - 1 = 0 := by exact_mod_cast this
    omega
  · intro h
    have : ((10 * y - 27 : ℤ) : ℚ) = 0 := by push_cast; linarith
    have : 10 * y - 27 = 0 := by exact_mod_cast this
    omega

/-- **C117 (every length).** The full band `[0, 1/2]` of `ifilter.m` is the identity for every record length, odd ones included; the Python function halves the
highest bin of odd lengths (`C36_odd_top_bin_halved`). -/
theorem C117_matlab_full_band (N : ℕ) (hN : 0 < N) (x : ℕ → ℝ) (n : ℕ) (hn : n < N) :
    maskFilter N (mlBandMask N [((0 : ℝ), 1 / 2)]) x n = x n := by
  have hNR : (0 : ℝ) < N := by exact_mod_cast hN
  have hin : ∀ j : ℕ, 2 * j ≤ N → ((j : ℕ) : ℝ) ∈ mlBandIds N ((0 : ℝ), 1 / 2) := by
    intro j hj
    have hjR : (2 : ℝ) * j ≤ N := by exact_mod_cast hj
    unfold mlBandIds
    have h0 : mlRound ((0 : ℝ) * (N : ℝ)) = 0 := by
      unfold mlRound
      rw [zero_mul, if_pos le_rfl, Int.floor_eq_iff]
      norm_num
    have h1 : (j : ℤ) ≤ mlRound ((1 / 2 : ℝ) * (N : ℝ)) := by
      unfold mlRound
      rw [if_pos (by positivity), Int.le_floor]
      push_cast
      linarith
    simp only [h0]
    rw [List.mem_map]
    refine ⟨j, by rw [List.mem_range]; omega, ?_⟩
    rw [C115_alias, if_pos hNR]
    simp only [Option.getD_some, zero_add, Int.cast_natCast]
    symm
    apply C04_fold_unique _ _ _ hNR
    exact ⟨by positivity, by linarith, 0, Or.inl (by push_cast; ring)⟩
  have hall : ∀ k < N, mlBandMask N [((0 : ℝ), 1 / 2)] k = true := by
    intro k hk
    unfold mlBandMask
    simp only [List.any_eq_true, Bool.or_eq_true, Bool.and_eq_true, decide_eq_true_eq, and_assoc]
    refine ⟨(0, 1 / 2), by simp, ?_⟩
    by_cases h : 2 * k ≤ N
    · exact ⟨k, hin k h, Or.inl rfl⟩
    · refine ⟨((N - k : ℕ) : ℝ), hin (N - k) (by omega), Or.inr ⟨?_, ?_, ?_⟩⟩
      · exact_mod_cast (by omega : 0 < N - k)
      · have : (2 : ℝ) * ((N - k : ℕ) : ℝ) < N := by exact_mod_cast (by omega : 2 * (N - k) < N)
        linarith
      · rw [Nat.cast_sub hk.le]; ring
  apply eq_of_dft N hN _ _ _ n hn
  intro k hk
  have hs : mlBandMask N [((0 : ℝ), 1 / 2)] ((N - k) % N) = mlBandMask N [((0 : ℝ), 1 / 2)] k := by
    rw [hall k hk, hall _ (Nat.mod_lt _ hN)]
  rw [dft_maskFilter N hN _ x k hk, maskGain_symm N _ k hs, if_pos (hall k hk), mul_one]

/-- **C117 (refuted for odd lengths and full band).** A tone in the highest bin of an odd-length record comes back whole from `ifilter.m` and halved from `ifilter`. -/
theorem C117_odd_differs (N : ℕ) (hN : 3 ≤ N) (h2 : N % 2 = 1) (A φ : ℝ) (n : ℕ) (hn : n < N) :
    let tone := fun i : ℕ => A * Real.cos (2 * Real.pi * ((N / 2 : ℕ) * i / N) + φ)
    maskFilter N (mlBandMask N [((0 : ℝ), 1 / 2)]) tone n = tone n ∧ maskFilter N (bandMask N [((0 : ℝ), 1 / 2)]) tone n = 1 / 2 * tone n :=
  ⟨C117_matlab_full_band N (by omega) _ n hn, C36_odd_top_bin_halved N hN h2 A φ n hn⟩

example : (3 : ℕ) ≤ 7 ∧ 7 % 2 = 1 := by decide

/-- **C117 (refuted for edges half-way between bins).** If the upper edge is half-way between an even bin `k` and `k + 1`, `ifilter.m` passes bin `k + 1` and `ifilter` does not. -/
theorem C117_tie_differs (N k : ℕ) (hk : k % 2 = 0) (hkN : k + 1 < N / 2) :
    mlBandMask N [((0 : ℝ), ((k : ℝ) + 1 / 2) / N)] (k + 1) = true ∧ bandMask N [((0 : ℝ), ((k : ℝ) + 1 / 2) / N)] (k + 1) = false := by
  have hN : 0 < N := by omega
  have hNR : (0 : ℝ) < N := by exact_mod_cast hN
  have hedge : ((k : ℝ) + 1 / 2) / N * N = ((k : ℤ) : ℝ) + 1 / 2 := by rw [div_mul_cancel₀ _ hNR.ne', Int.cast_natCast]
  have hr := C117_round (K := ℝ) 0 (k : ℤ) (by omega)
  constructor
  · unfold mlBandMask
    simp only [List.any_eq_true, Bool.or_eq_true, Bool.and_eq_true, decide_eq_true_eq, and_assoc]
    refine ⟨_, List.mem_singleton.mpr rfl, ((k + 1 : ℕ) : ℝ), ?_, Or.inl rfl⟩
    unfold mlBandIds
    have h0 : mlRound ((0 : ℝ) * (N : ℝ)) = 0 := by
      unfold mlRound
      rw [zero_mul, if_pos le_rfl, Int.floor_eq_iff]
      norm_num
    simp only [h0, hedge, hr.2.1]
    rw [List.mem_map]
    refine ⟨k + 1, by rw [List.mem_range]; omega, ?_⟩
    rw [C115_alias, if_pos hNR]
    simp only [Option.getD_some, zero_add, Int.cast_natCast]
    symm
    apply C04_fold_unique _ _ _ hNR
    refine ⟨by positivity, ?_, 0, Or.inl (by push_cast; ring)⟩
    have : (2 : ℝ) * ((k + 1 : ℕ) : ℝ) ≤ N := by exact_mod_cast (by omega : 2 * (k + 1) ≤ N)
    linarith
  · rw [Bool.eq_false_iff, Ne, mask_low N _ _ (k + 1) hkN]
    · rintro ⟨b, hb, h1, h2⟩
      rw [List.mem_singleton] at hb
      subst hb
      simp only [hedge] at h2
      have := rint_eq_floor_or (((k : ℤ) : ℝ) + 1 / 2)
      have hf : ⌊((k : ℤ) : ℝ) + 1 / 2⌋ = (k : ℤ) := by rw [Int.floor_eq_iff]; constructor <;> linarith
      rw [hf] at this
      rcases this with h | h
      · rw [h] at h2; push_cast at h2; omega
      · have := hr.2.2.mp h; omega
    · intro b hb
      rw [List.mem_singleton] at hb
      subst hb
      refine ⟨le_rfl, by positivity, ?_⟩
      rw [div_le_iff₀ hNR]
      have : (2 : ℝ) * ((k + 1 : ℕ) : ℝ) ≤ N := by exact_mod_cast (by omega : 2 * (k + 1) ≤ N)
      push_cast at this
      linarith

example : mlBandMask 10 [((0 : ℚ), 1 / 4)] 3 = true ∧ bandMask 10 [((0 : ℚ), 1 / 4)] 3 = false := by decide +kernel

end Verif
