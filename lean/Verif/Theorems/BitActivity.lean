import Verif.Theorems.Dout
import Verif.Theorems.Sar
import Verif.Theorems.SineInlAccuracy

/-!
# C151: bit activity of a sine
-/

namespace Verif

open Model Finset Spec

/-! ## Specification -/

/-- The bits of a code, most significant first. -/
noncomputable def Spec.codeBits (B : ℕ) (c : ℤ) : List ℝ := (List.range B).map fun j => ((c / 2 ^ (B - 1 - j) % 2 : ℤ) : ℝ)

/-- The bit matrix of a coherent sine, one row per sample. -/
noncomputable def Spec.sineBits (q : ℝ → ℤ) (B N b : ℕ) (A φ D : ℝ) : List (List ℝ) := (sineCodesOf q N b A φ D).map (codeBits B)

/-! ## Counting -/

private theorem odd_sum (y : ℤ) (h0 : 0 ≤ y) (K : ℕ) :
    ∑ k ∈ range K, ((if y < 2 * k + 2 then (1 : ℝ) else 0) - (if y < 2 * k + 1 then 1 else 0)) = if y % 2 = 1 ∧ y < 2 * K then 1 else 0 := by
  induction K with
  | zero =>
    rw [range_zero, sum_empty, if_neg]
    push_cast
    omega
  | succ K ih =>
    rw [sum_range_succ, ih]
    push_cast
    split_ifs <;> first | omega | norm_num

/-- Sums of numbers that are antisymmetric up to one. -/
private theorem sym_sum (K : ℕ) (hK : 1 ≤ K) (H F : ℕ → ℝ) (N : ℝ) (h1 : ∀ r, 1 ≤ r → r < 2 * K → |F r - H r| ≤ 1)
    (h2 : ∀ r, 1 ≤ r → r < 2 * K → F (2 * K - r) = N - F r) (h3 : H (2 * K) = N) :
    |∑ k ∈ range K, (H (2 * k + 2) - H (2 * k + 1)) - N / 2| ≤ 2 * K - 1 := by
  obtain ⟨J, rfl⟩ : ∃ J, K = J + 1 := ⟨K - 1, by omega⟩
  have ho : ∑ k ∈ range (J + 1), F (2 * k + 1) = (J + 1) * N / 2 := by
    have hr : ∑ k ∈ range (J + 1), F (2 * k + 1) = ∑ k ∈ range (J + 1), (N - F (2 * k + 1)) := by
      rw [← sum_range_reflect]
      apply sum_congr rfl
      intro k hk
      rw [mem_range] at hk
      rw [← h2 (2 * k + 1) (by omega) (by omega)]
      congr 1
      omega
    rw [sum_sub_distrib, sum_const, card_range, nsmul_eq_mul] at hr
    push_cast at hr
    linarith
  have he : ∑ k ∈ range J, F (2 * k + 2) = J * N / 2 := by
    have hr : ∑ k ∈ range J, F (2 * k + 2) = ∑ k ∈ range J, (N - F (2 * k + 2)) := by
      rw [← sum_range_reflect]
      apply sum_congr rfl
      intro k hk
      rw [mem_range] at hk
      rw [← h2 (2 * k + 2) (by omega) (by omega)]
      congr 1
      omega
    rw [sum_sub_distrib, sum_const, card_range, nsmul_eq_mul] at hr
    linarith
  have ho' : |∑ k ∈ range (J + 1), (F (2 * k + 1) - H (2 * k + 1))| ≤ J + 1 := by
    refine (abs_sum_le_sum_abs _ _).trans ?_
    calc ∑ k ∈ range (J + 1), |F (2 * k + 1) - H (2 * k + 1)| ≤ ∑ k ∈ range (J + 1), (1 : ℝ) := sum_le_sum fun k hk => by
          rw [mem_range] at hk
          exact h1 _ (by omega) (by omega)
      _ = J + 1 := by simp
  have he' : |∑ k ∈ range J, (F (2 * k + 2) - H (2 * k + 2))| ≤ J := by
    refine (abs_sum_le_sum_abs _ _).trans ?_
    calc ∑ k ∈ range J, |F (2 * k + 2) - H (2 * k + 2)| ≤ ∑ k ∈ range J, (1 : ℝ) := sum_le_sum fun k hk => by
          rw [mem_range] at hk
          exact h1 _ (by omega) (by omega)
      _ = J := by simp
  rw [sum_sub_distrib] at ho' he' ⊢
  have hlast : ∑ k ∈ range (J + 1), H (2 * k + 2) = ∑ k ∈ range J, H (2 * k + 2) + N := by
    rw [sum_range_succ, ← h3]
    congr 2
  rw [hlast]
  rw [ho] at ho'
  rw [he] at he'
  rw [abs_le] at ho' he' ⊢
  push_cast
  constructor <;> linarith [ho'.1, ho'.2, he'.1, he'.2]

private theorem atMost_sum (zs : List ℤ) (c : ℤ) : (atMost zs c : ℝ) = (zs.map fun z => if z ≤ c then (1 : ℝ) else 0).sum := by
  unfold atMost
  induction zs with
  | nil => simp
  | cons z zs ih =>
    rw [List.countP_cons, List.map_cons, List.sum_cons, ← ih]
    by_cases h : z ≤ c <;> simp [h, add_comm]

private theorem count_sum (zs : List ℤ) (p : ℤ → Prop) [DecidablePred p] : ((zs.countP fun z => decide (p z) : ℕ) : ℝ) = (zs.map fun z => if p z then (1 : ℝ) else 0).sum := by
  induction zs with
  | nil => simp
  | cons z zs ih =>
    rw [List.countP_cons, List.map_cons, List.sum_cons, ← ih]
    by_cases h : p z <;> simp [h, add_comm]

private theorem list_sum_comm (zs : List ℤ) (K : ℕ) (f : ℤ → ℕ → ℝ) : (zs.map fun z => ∑ k ∈ range K, f z k).sum = ∑ k ∈ range K, (zs.map fun z => f z k).sum := by
  induction zs with
  | nil => simp
  | cons z zs ih => simp only [List.map_cons, List.sum_cons, ih, sum_add_distrib]

private theorem list_sum_sub (zs : List ℤ) (f g : ℤ → ℝ) : (zs.map fun z => f z - g z).sum = (zs.map f).sum - (zs.map g).sum := by
  induction zs with
  | nil => simp
  | cons z zs ih =>
    simp only [List.map_cons, List.sum_cons, ih]
    ring

/-- The number of codes whose bit of weight `m` is set, from the cumulative histogram. -/
private theorem ones_eq (zs : List ℤ) (K m : ℕ) (hm : 0 < m) (h0 : ∀ z ∈ zs, 0 ≤ z) (h1 : ∀ z ∈ zs, z < 2 * K * m) :
    ((zs.countP fun z => decide (z / (m : ℤ) % 2 = 1) : ℕ) : ℝ) = ∑ k ∈ range K, ((atMost zs (((2 * k + 2 : ℕ) : ℤ) * m - 1) : ℝ) - atMost zs (((2 * k + 1 : ℕ) : ℤ) * m - 1)) := by
  have hmZ : (0 : ℤ) < m := by exact_mod_cast hm
  rw [count_sum]
  have hle : ∀ (z : ℤ) (r : ℕ), z ≤ (r : ℤ) * m - 1 ↔ z / (m : ℤ) < r := by
    intro z r
    rw [Int.ediv_lt_iff_lt_mul hmZ]
    omega
  have : ∀ k, (atMost zs (((2 * k + 2 : ℕ) : ℤ) * m - 1) : ℝ) - atMost zs (((2 * k + 1 : ℕ) : ℤ) * m - 1) =
      (zs.map fun z => (if z / (m : ℤ) < 2 * k + 2 then (1 : ℝ) else 0) - (if z / (m : ℤ) < 2 * k + 1 then 1 else 0)).sum := by
    intro k
    rw [atMost_sum, atMost_sum, list_sum_sub]
    simp only [hle]
    push_cast
    rfl
  rw [sum_congr rfl fun k _ => this k, ← list_sum_comm]
  congr 1
  apply List.map_congr_left
  intro z hz
  rw [odd_sum _ (Int.ediv_nonneg (h0 z hz) hmZ.le)]
  have hlt : z / (m : ℤ) < 2 * K := by
    rw [Int.ediv_lt_iff_lt_mul hmZ]
    exact h1 z hz
  simp only [hlt, and_true]

private theorem atMost_top (zs : List ℤ) (c : ℤ) (h : ∀ z ∈ zs, z ≤ c) : atMost zs c = zs.length := by
  unfold atMost
  rw [List.countP_eq_length]
  simpa using h

/-- What `analyze_bit_activity` returns, in terms of codes. -/
private theorem activity_codes (q : ℝ → ℤ) (B N b : ℕ) (hN : 0 < N) (A φ D : ℝ) :
    ∃ u, bitActivity (sineBits q B N b A φ D) = .ok u ∧ u.length = B ∧ ∀ j < B,
      u.getD j 0 = 100 * (((sineCodesOf q N b A φ D).countP fun z => decide (z / ((2 ^ (B - 1 - j) : ℕ) : ℤ) % 2 = 1) : ℕ) : ℝ) / N := by
  have hmat : BitMatrix B (sineBits q B N b A φ D) := by
    intro r hr
    obtain ⟨c, _, rfl⟩ := List.mem_map.mp hr
    refine ⟨by simp [codeBits], fun x hx => ?_⟩
    obtain ⟨j, _, rfl⟩ := List.mem_map.mp hx
    rcases Int.emod_two_eq_zero_or_one (c / 2 ^ (B - 1 - j)) with h | h <;> rw [h] <;> simp
  have hlen : (sineBits q B N b A φ D).length = N := by simp [sineBits, sineCodesOf]
  have hne : sineBits q B N b A φ D ≠ [] := by
    intro h
    rw [h] at hlen
    simp at hlen
    omega
  obtain ⟨u, hu, hl, hv⟩ := C43_bit_activity B _ hmat hne
  refine ⟨u, hu, hl, fun j hj => ?_⟩
  rw [(hv j hj).1, hlen]
  congr 3
  unfold sineBits
  rw [List.countP_map]
  congr 1
  funext z
  simp only [Function.comp]
  have e : (codeBits B z).getD j 0 = ((z / 2 ^ (B - 1 - j) % 2 : ℤ) : ℝ) := by
    unfold codeBits
    rw [List.getD_eq_getElem _ _ (by simp [hj])]
    simp
  rw [e]
  push_cast
  rcases Int.emod_two_eq_zero_or_one (z / 2 ^ (B - 1 - j)) with h | h <;> rw [h] <;> simp

/-- **C151 (a centred sine).** A converter with `B` bits whose transition levels are symmetric about the sine's offset, and a coherent sine of any amplitude, inside the
range or far beyond it: the activity of bit `j` (0 for the MSB) is 50% up to `(2^(j+1) - 1)` samples. -/
theorem C151_symmetric (q : ℝ → ℤ) (T : ℤ → ℝ) (B N b : ℕ) (hN : 0 < N) (hcop : Nat.Coprime b N) (A φ D : ℝ) (hA : 0 < A) (hq : ∀ v, 0 ≤ q v ∧ q v < 2 ^ B)
    (hT : Transfer q T 0 (2 ^ B - 1)) (hsym : ∀ c, 0 ≤ c → c < 2 ^ B - 1 → T (2 ^ B - 2 - c) + T c = 2 * D) :
    ∃ u, bitActivity (sineBits q B N b A φ D) = .ok u ∧ u.length = B ∧ ∀ j < B, |u.getD j 0 - 50| ≤ 100 * (2 ^ (j + 1) - 1) / N := by
  have hNR : (0 : ℝ) < N := by exact_mod_cast hN
  have hpi := Real.pi_pos
  obtain ⟨u, hu, hl, hv⟩ := activity_codes q B N b hN A φ D
  refine ⟨u, hu, hl, fun j hj => ?_⟩
  rw [hv j hj]
  obtain ⟨m, hm⟩ : ∃ m : ℕ, m = 2 ^ (B - 1 - j) := ⟨_, rfl⟩
  obtain ⟨K, hK⟩ : ∃ K : ℕ, K = 2 ^ j := ⟨_, rfl⟩
  have hm0 : 0 < m := hm ▸ Nat.two_pow_pos _
  have hK0 : 1 ≤ K := hK ▸ Nat.one_le_two_pow
  have hKm : 2 * K * m = 2 ^ B := by
    rw [hK, hm, mul_comm 2, ← pow_succ, ← pow_add]
    congr 1
    omega
  have hKmZ : (2 : ℤ) ^ B = 2 * K * m := by exact_mod_cast hKm.symm
  have hmem : ∀ z ∈ sineCodesOf q N b A φ D, 0 ≤ z ∧ z < 2 * K * m := by
    intro z hz
    obtain ⟨n, _, rfl⟩ := List.mem_map.mp hz
    rw [← hKmZ]
    exact hq _
  have hlen : (sineCodesOf q N b A φ D).length = N := by simp [sineCodesOf]
  rw [← hm, ones_eq _ K m hm0 (fun z hz => (hmem z hz).1) (fun z hz => (hmem z hz).2)]
  have hlev : ∀ r : ℕ, 1 ≤ r → r < 2 * K → 0 ≤ (r : ℤ) * m - 1 ∧ (r : ℤ) * m - 1 < 2 ^ B - 1 := by
    intro r h1 h2
    rw [hKmZ]
    have a1 : (1 : ℤ) * m ≤ r * m := mul_le_mul_of_nonneg_right (by exact_mod_cast h1) (by positivity)
    have a2 : (r : ℤ) * m < 2 * K * m := mul_lt_mul_of_pos_right (by exact_mod_cast h2) (by exact_mod_cast hm0)
    have : (1 : ℤ) ≤ m := by exact_mod_cast hm0
    constructor <;> linarith
  have key := sym_sum K hK0 (fun r => (atMost (sineCodesOf q N b A φ D) ((r : ℤ) * m - 1) : ℝ))
    (fun r => (N : ℝ) * Real.arccos (-((T ((r : ℤ) * m - 1) - D) / A)) / Real.pi) N
    (fun r h1 h2 => atMost_close q N b hN hcop A φ D hA _ _ (hT.below _ (hlev r h1 h2).1 (hlev r h1 h2).2) (hT.above _ (hlev r h1 h2).1 (hlev r h1 h2).2))
    (fun r h1 h2 => by
      have hs := hsym _ (hlev r h1 h2).1 (hlev r h1 h2).2
      have e : (2 : ℤ) ^ B - 2 - ((r : ℤ) * m - 1) = ((2 * K - r : ℕ) : ℤ) * m - 1 := by
        rw [hKmZ, Nat.cast_sub h2.le]
        push_cast
        ring
      rw [e] at hs
      have e2 : (T (((2 * K - r : ℕ) : ℤ) * m - 1) - D) / A = -((T ((r : ℤ) * m - 1) - D) / A) := by
        rw [← neg_div]
        congr 1
        linarith
      rw [e2, Real.arccos_neg (-_)]
      field_simp)
    (by
      rw [atMost_top, hlen]
      intro z hz
      have := (hmem z hz).2
      push_cast
      omega)
  obtain ⟨O, hO⟩ : ∃ O : ℝ, O = ∑ k ∈ range K, ((atMost (sineCodesOf q N b A φ D) (((2 * k + 2 : ℕ) : ℤ) * m - 1) : ℝ) -
    atMost (sineCodesOf q N b A φ D) (((2 * k + 1 : ℕ) : ℤ) * m - 1)) := ⟨_, rfl⟩
  rw [← hO] at key ⊢
  have e : 100 * O / N - 50 = 100 / N * (O - N / 2) := by field_simp; ring
  have hKR : (2 : ℝ) ^ (j + 1) = 2 * K := by rw [hK]; push_cast; ring
  rw [e, abs_mul, abs_of_pos (by positivity), hKR]
  calc 100 / N * |O - N / 2| ≤ 100 / N * (2 * K - 1) := mul_le_mul_of_nonneg_left key (by positivity)
    _ = 100 * (2 * K - 1) / N := by ring

/-- **C151 (offset).** The MSB activity gives the offset of the sine: with the level `T` in the middle of the range in reach of the sine, the offset is
`T - A cos(π p)` for a share `p` of ones, up to `π A / N`. -/
theorem C151_offset (q : ℝ → ℤ) (t : ℝ) (B N b : ℕ) (hB : 1 ≤ B) (hN : 0 < N) (hcop : Nat.Coprime b N) (A φ D : ℝ) (hA : 0 < A) (hq : ∀ v, 0 ≤ q v ∧ q v < 2 ^ B)
    (hbelow : ∀ v, v < t → q v < 2 ^ (B - 1)) (habove : ∀ v, t < v → 2 ^ (B - 1) ≤ q v) (hreach : |t - D| ≤ A) :
    ∃ u, bitActivity (sineBits q B N b A φ D) = .ok u ∧ |D - (t - A * Real.cos (Real.pi * (u.getD 0 0 / 100)))| ≤ Real.pi * A / N := by
  have hNR : (0 : ℝ) < N := by exact_mod_cast hN
  obtain ⟨u, hu, hl, hv⟩ := activity_codes q B N b hN A φ D
  refine ⟨u, hu, ?_⟩
  rw [hv 0 (by omega)]
  obtain ⟨m, hm⟩ : ∃ m : ℕ, m = 2 ^ (B - 1) := ⟨_, rfl⟩
  have hm0 : 0 < m := hm ▸ Nat.two_pow_pos _
  have hmZ : (2 : ℤ) ^ (B - 1) = m := by rw [hm]; push_cast; rfl
  have h2m : (2 : ℤ) ^ B = 2 * m := by
    rw [← hmZ, ← pow_succ', Nat.sub_add_cancel hB]
  have hmem : ∀ z ∈ sineCodesOf q N b A φ D, 0 ≤ z ∧ z < 2 * m := by
    intro z hz
    obtain ⟨n, _, rfl⟩ := List.mem_map.mp hz
    rw [← h2m]
    exact hq _
  have hlen : (sineCodesOf q N b A φ D).length = N := by simp [sineCodesOf]
  rw [Nat.sub_zero, ← hm, ones_eq _ 1 m hm0 (fun z hz => (hmem z hz).1) (fun z hz => by simpa using (hmem z hz).2)]
  simp only [range_one, sum_singleton, mul_zero, zero_add]
  rw [atMost_top _ _ (fun z hz => by have := (hmem z hz).2; push_cast; omega), hlen]
  have hc := level_close_exact q N b hN hcop A φ D hA (((1 : ℕ) : ℤ) * m - 1) t (fun v h => by
    have := hbelow v h
    rw [hmZ] at this
    push_cast
    omega) (fun v h => by
    have := habove v h
    rw [hmZ] at this
    push_cast
    omega) hreach
  unfold sineLevel at hc
  rw [hlen] at hc
  obtain ⟨M, hM⟩ : ∃ M, M = atMost (sineCodesOf q N b A φ D) (((1 : ℕ) : ℤ) * m - 1) := ⟨_, rfl⟩
  rw [← hM] at hc ⊢
  have e1 : Real.pi * (100 * ((N : ℝ) - M) / N / 100) = Real.pi - Real.pi * M / N := by field_simp
  rw [e1, Real.cos_pi_sub]
  have e2 : D - (t - A * -Real.cos (Real.pi * M / N)) = A * (-Real.cos (Real.pi * M / N) - (t - D) / A) := by field_simp; ring
  rw [e2, abs_mul, abs_of_pos hA]
  calc A * |-Real.cos (Real.pi * M / N) - (t - D) / A| ≤ A * (Real.pi / N) := mul_le_mul_of_nonneg_left hc hA.le
    _ = Real.pi * A / N := by ring

/-- The code of the ideal SAR for a voltage. -/
private noncomputable def sarCode (B : ℕ) (vmin vmax v : ℝ) : ℤ := max 0 (min ⌊(v - vmin) / (vmax - vmin) * 2 ^ B⌋ (2 ^ B - 1))

private theorem sarCode_range (B : ℕ) (vmin vmax v : ℝ) : 0 ≤ sarCode B vmin vmax v ∧ sarCode B vmin vmax v < 2 ^ B := by
  unfold sarCode
  have : (0 : ℤ) < 2 ^ B := by positivity
  omega

private theorem sarCode_transfer (B : ℕ) (vmin vmax : ℝ) (h : vmin < vmax) :
    Transfer (sarCode B vmin vmax) (fun c => vmin + (c + 1) * ((vmax - vmin) / 2 ^ B)) 0 (2 ^ B - 1) := by
  have hd : 0 < vmax - vmin := by linarith
  have hp : (0 : ℝ) < 2 ^ B := by positivity
  have e : ∀ (c : ℤ), vmin + ((c : ℝ) + 1) * ((vmax - vmin) / 2 ^ B) - vmin = (c + 1) * (vmax - vmin) / 2 ^ B := fun c => by ring
  refine ⟨fun c h0 h1 v hv => ?_, fun c h0 h1 v hv => ?_⟩
  · have hlt : (v - vmin) / (vmax - vmin) * 2 ^ B < (c : ℝ) + 1 := by
      have : v - vmin < (c + 1) * (vmax - vmin) / 2 ^ B := by rw [← e]; linarith
      rw [lt_div_iff₀ hp] at this
      rw [div_mul_eq_mul_div, div_lt_iff₀ hd]
      exact this
    have : ⌊(v - vmin) / (vmax - vmin) * 2 ^ B⌋ < c + 1 := Int.floor_lt.mpr (by push_cast; exact hlt)
    unfold sarCode
    omega
  · have hle : (c : ℝ) + 1 ≤ (v - vmin) / (vmax - vmin) * 2 ^ B := by
      have : (c + 1) * (vmax - vmin) / 2 ^ B < v - vmin := by rw [← e]; linarith
      rw [div_lt_iff₀ hp] at this
      rw [div_mul_eq_mul_div, le_div_iff₀ hd]
      exact this.le
    have : c + 1 ≤ ⌊(v - vmin) / (vmax - vmin) * 2 ^ B⌋ := Int.le_floor.mpr (by push_cast; exact hle)
    unfold sarCode
    omega

private theorem codeBits_ideal (B k : ℕ) : (bitsMSB B k).map bitVal = codeBits B (k : ℤ) := by
  unfold bitsMSB codeBits
  rw [List.map_map]
  apply List.map_congr_left
  intro j _
  simp only [Function.comp, Nat.testBit_eq_decide_div_mod_eq, bitVal]
  have e : ((k : ℤ) / 2 ^ (B - 1 - j) % 2 : ℤ) = ((k / 2 ^ (B - 1 - j) % 2 : ℕ) : ℤ) := by push_cast; rfl
  rw [e]
  rcases Nat.mod_two_eq_zero_or_one (k / 2 ^ (B - 1 - j)) with h | h <;> rw [h] <;> simp

/-- **C151 (SAR).** The bits that `sar_convert` returns with ideal weights for a sine in the middle of the range: 50% activity in every bit up to `2^(j+1) - 1` samples,
whatever the amplitude. A sine that clips at both ends of the range does not show. -/
theorem C151_sar (B : ℕ) (hB : B ≠ 0) (vmin vmax : ℝ) (h : vmin < vmax) (N b : ℕ) (hN : 0 < N) (hcop : Nat.Coprime b N) (A φ : ℝ) (hA : 0 < A) (rows : List (List ℝ))
    (hlen : rows.length = N) (hrows : ∀ n < N, ∃ bits, (do let ws ← sarIdealWeights B none; sarConvertIdeal (sineAt A ((b : ℝ) / N) φ ((vmin + vmax) / 2) n) ws [vmin, vmax]) = .ok bits ∧
      rows.getD n [] = bits.map bitVal) :
    ∃ u, bitActivity rows = .ok u ∧ u.length = B ∧ ∀ j < B, |u.getD j 0 - 50| ≤ 100 * (2 ^ (j + 1) - 1) / N := by
  have hrow : rows = sineBits (sarCode B vmin vmax) B N b A φ ((vmin + vmax) / 2) := by
    apply List.ext_getElem
    · rw [hlen]
      simp [sineBits, sineCodesOf]
    · intro n h1 h2
      obtain ⟨bits, hb1, hb2⟩ := hrows n (hlen ▸ h1)
      rw [C10_sar_is_floor_quantizer B hB _ vmin vmax h] at hb1
      rw [List.getD_eq_getElem _ _ h1, ← Except.ok.inj hb1, codeBits_ideal] at hb2
      rw [hb2]
      simp only [sineBits, sineCodesOf, List.map_map, List.getElem_map, List.getElem_range, Function.comp]
      congr 1
      unfold idealCode
      rw [Int.toNat_of_nonneg (le_max_left _ _)]
      rfl
  rw [hrow]
  refine C151_symmetric _ _ B N b hN hcop A φ _ hA (sarCode_range B vmin vmax) (sarCode_transfer B vmin vmax h) fun c _ _ => ?_
  have hp : (2 : ℝ) ^ B ≠ 0 := by positivity
  push_cast
  field_simp
  ring

/-! ## Concrete cases -/

/-- A sine twenty times the range of an 8-bit converter in 4001 samples: the MSB activity is 50% up to 0.03%. -/
example (φ : ℝ) : ∃ (rows : List (List ℝ)) (u : List ℝ), bitActivity rows = .ok u ∧ u.length = 8 ∧ |u.getD 0 0 - 50| ≤ 3 / 100 ∧ ∀ n < 4001, ∃ bits,
    (do let ws ← sarIdealWeights 8 none; sarConvertIdeal (sineAt 10 (((3 : ℕ) : ℝ) / (4001 : ℕ)) φ ((0 + 1) / 2) n) ws [0, 1]) = .ok bits ∧ rows.getD n [] = bits.map bitVal := by
  have hr : ∀ n < 4001, ∃ bits, (do let ws ← sarIdealWeights 8 none; sarConvertIdeal (sineAt 10 (((3 : ℕ) : ℝ) / (4001 : ℕ)) φ ((0 + 1) / 2) n) ws [0, 1]) = .ok bits ∧
      ((List.range 4001).map fun n => (bitsMSB 8 (idealCode 8 ((sineAt 10 (((3 : ℕ) : ℝ) / (4001 : ℕ)) φ ((0 + 1) / 2) n - 0) / (1 - 0)))).map (bitVal (K := ℝ))).getD n [] = bits.map bitVal := by
    intro n hn
    refine ⟨_, C10_sar_is_floor_quantizer 8 (by norm_num) _ 0 1 one_pos, ?_⟩
    rw [List.getD_eq_getElem _ _ (by simpa using hn)]
    simp
  obtain ⟨u, h1, h2, h3⟩ := C151_sar 8 (by norm_num) 0 1 one_pos 4001 3 (by norm_num) (by norm_num) 10 φ (by norm_num) _ (by simp) hr
  refine ⟨_, u, h1, h2, (h3 0 (by norm_num)).trans ?_, hr⟩
  norm_num

end Verif
