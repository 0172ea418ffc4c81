import Verif.Model.DoutGen
import Mathlib.Tactic.Linarith
import Mathlib.Tactic.Ring
import Mathlib.Tactic.FieldSimp
import Mathlib.Tactic.NormNum
import Mathlib.Tactic.Positivity

/-! # The bit-level data generators of the MATLAB library are ideal converters

Properties C164 and C165. -/

namespace Verif

open Finset Model

namespace Spec

/-- `c` is the level at or just below `v` on a scale with unit steps that starts anywhere. -/
def WithinLsb (v c : ℝ) : Prop := c ≤ v ∧ v < c + 1

/-- No capacitor but the last is larger than all later ones together. -/
def RestCovers (cdac : List ℝ) : Prop := ∀ (l : List ℝ) (c : ℝ) (rest : List ℝ), cdac = l ++ c :: rest → rest ≠ [] → c ≤ rest.sum

/-- Place values of the bits of `m` equal stages of `n` bits with gain `g` in front of a last stage of `nl` bits, in steps of the last bit: the least significant bit of the
stage with `m` stages after it is worth `2 ^ nl · g ^ m / 2 ^ n`. -/
noncomputable def frontPlaces (n nl : ℕ) (g : ℝ) : ℕ → List ℝ
  | 0 => []
  | m + 1 => ((List.range n).map fun (j : ℕ) => 2 ^ nl * g ^ (m + 1) / 2 ^ n * 2 ^ (n - 1 - j)) ++ frontPlaces n nl g m

/-- Place values of the last stage. -/
noncomputable def lastPlaces (nl : ℕ) : List ℝ := (List.range nl).map fun (j : ℕ) => (2 : ℝ) ^ (nl - 1 - j)

end Spec

open Spec

/-! ## Bits and weights -/

private theorem sum_map_range' (f : ℕ → ℝ) (n : ℕ) : ((List.range n).map f).sum = ∑ i ∈ range n, f i := by
  induction n with
  | zero => simp
  | succ n ih => rw [List.range_succ, List.map_append, List.sum_append, sum_range_succ, ih]; simp

private theorem digits_sum (c n : ℕ) : ∑ j ∈ range n, (c / 2 ^ j % 2) * 2 ^ j = c % 2 ^ n := by
  induction n with
  | zero => simp [Nat.mod_one]
  | succ n ih => rw [sum_range_succ, ih, Nat.mod_pow_succ]; ring

private theorem rpow_split (lo : ℝ) (n i : ℕ) (hi : i < n) : (2 : ℝ) ^ (lo + n - 1 - i) = 2 ^ lo * 2 ^ (n - 1 - i) := by
  have : lo + n - 1 - i = lo + ((n - 1 - i : ℕ) : ℝ) := by
    rw [Nat.cast_sub (by omega), Nat.cast_sub (by omega)]
    push_cast
    ring
  rw [this, Real.rpow_add (by norm_num), Real.rpow_natCast]

private theorem bits_value (x : ℝ) (n : ℕ) (lo : ℝ) : rowTimes (binSaturate x n) (pow2Down lo n) = ((min (max ⌊x⌋ 0) (2 ^ n - 1) : ℤ) : ℝ) * 2 ^ lo := by
  have h2 : (1 : ℤ) ≤ 2 ^ n := one_le_pow₀ (by norm_num)
  obtain ⟨c, hc⟩ : ∃ c : ℕ, (min (max ⌊x⌋ 0) (2 ^ n - 1) : ℤ) = c := Int.eq_ofNat_of_zero_le (by omega)
  have hlt : c < 2 ^ n := by
    have : (c : ℤ) < 2 ^ n := by omega
    exact_mod_cast this
  unfold rowTimes binSaturate pow2Down
  simp only [hc, Int.toNat_natCast]
  rw [List.zipWith_map, List.zipWith_self, sum_map_range', sum_congr rfl fun i hi => by rw [rpow_split lo n i (mem_range.mp hi)]]
  have e := digits_sum c n
  rw [Nat.mod_eq_of_lt hlt, ← sum_range_reflect] at e
  have e' : (c : ℝ) = ∑ j ∈ range n, ((c / 2 ^ (n - 1 - j) % 2 : ℕ) : ℝ) * 2 ^ (n - 1 - j) := by
    conv_lhs => rw [← e]
    push_cast
    rfl
  rw [Int.cast_natCast, e', sum_mul]
  refine sum_congr rfl fun i _ => ?_
  ring

private theorem bits_length (x : ℝ) (n : ℕ) : (binSaturate x n).length = n := by simp [binSaturate]

private theorem pow_length (lo : ℝ) (n : ℕ) : (pow2Down lo n).length = n := by simp [pow2Down]

private theorem pow_sum (lo : ℝ) (n : ℕ) : (pow2Down lo n).sum = 2 ^ lo * (2 ^ n - 1) := by
  unfold pow2Down
  rw [sum_map_range', sum_congr rfl fun i hi => rpow_split lo n i (mem_range.mp hi), ← mul_sum]
  congr 1
  rw [sum_range_reflect (fun j => (2 : ℝ) ^ j) n]
  have := geom_sum_mul (2 : ℝ) n
  linarith

private theorem rowTimes_append (a b u v : List ℝ) (h : a.length = u.length) : rowTimes (a ++ b) (u ++ v) = rowTimes a u + rowTimes b v := by
  unfold rowTimes
  rw [List.zipWith_append h, List.sum_append]

private theorem rowTimes_scaled (a u : List ℝ) (s : ℝ) : rowTimes a (u.map (· / s)) = rowTimes a u / s := by
  unfold rowTimes
  induction a generalizing u with
  | nil => simp
  | cons x a ih =>
    cases u with
    | nil => simp
    | cons y u => simp only [List.map_cons, List.zipWith_cons_cons, List.sum_cons, ih]; ring

private theorem redundancy_pow (n : ℕ) (g : ℝ) (hg : 0 < g) (e : ℝ) : (2 : ℝ) ^ (e - stageRedundancy n g) = 2 ^ e * (g / 2 ^ n) := by
  have h2 : (0 : ℝ) < 2 ^ n := by positivity
  unfold stageRedundancy
  rw [Real.rpow_sub (by norm_num), Real.rpow_logb (by norm_num) (by norm_num) (by positivity)]
  field_simp

/-! ## One stage -/

private theorem stage (n : ℕ) (sig : ℝ) (h0 : 0 ≤ sig) (h1 : sig < 1) :
    ∃ c : ℤ, ⌊sig * 2 ^ n⌋ = c ∧ stageOut sig n * 2 ^ n = c ∧ 0 ≤ c ∧ c ≤ 2 ^ n - 1 ∧ (c : ℝ) ≤ sig * 2 ^ n ∧ sig * 2 ^ n < c + 1 ∧ stageOut sig n = c / 2 ^ n := by
  have h2 : (0 : ℝ) < 2 ^ n := by positivity
  refine ⟨⌊sig * 2 ^ n⌋, rfl, ?_, Int.floor_nonneg.mpr (by positivity), ?_, Int.floor_le _, Int.lt_floor_add_one _, rfl⟩
  · unfold stageOut
    field_simp
  · have : ⌊sig * 2 ^ n⌋ < 2 ^ n := by
      rw [Int.floor_lt]
      push_cast
      nlinarith
    omega

private theorem saturated (n : ℕ) (c : ℤ) (h0 : 0 ≤ c) (h1 : c ≤ 2 ^ n - 1) : (min (max ⌊((c : ℤ) : ℝ)⌋ 0) (2 ^ n - 1) : ℤ) = c := by
  rw [Int.floor_intCast]
  omega

private theorem residue_range (n : ℕ) (g sig : ℝ) (hg : 0 < g) (hgn : g ≤ 2 ^ n) (h0 : 0 ≤ sig) (h1 : sig < 1) :
    0 ≤ g * (sig - stageOut sig n) + stageOffset g n ∧ g * (sig - stageOut sig n) + stageOffset g n < 1 := by
  obtain ⟨c, -, -, -, -, h5, h6, h7⟩ := stage n sig h0 h1
  have h2 : (0 : ℝ) < 2 ^ n := by positivity
  have a1 : 0 ≤ sig - stageOut sig n := by
    rw [h7, sub_nonneg, div_le_iff₀ h2]
    exact h5
  have a2 : sig - stageOut sig n < 1 / 2 ^ n := by
    rw [h7, lt_div_iff₀ h2, sub_mul, div_mul_cancel₀ _ h2.ne']
    linarith
  have a3 : g / 2 ^ n ≤ 1 := by rw [div_le_one h2]; exact hgn
  have a4 : g * (sig - stageOut sig n) < g / 2 ^ n := by
    rw [div_eq_mul_one_div]
    exact mul_lt_mul_of_pos_left a2 hg
  unfold stageOffset
  rw [mul_one]
  constructor
  · have := mul_nonneg hg.le a1
    linarith
  · linarith

/-! ## Two stages -/

private theorem two_value (n1 n2 : ℕ) (hn : 0 < n1 + n2) (g1 : ℝ) (hg : 0 < g1) (sig : ℝ) :
    rowTimes (pipeline2Dout n1 n2 g1 sig) (unitSum (pipeline2Raw n1 n2 g1)) * ((2 ^ n1 - 1) * (2 ^ n2 * g1 / 2 ^ n1) + (2 ^ n2 - 1)) =
      ((min (max ⌊stageOut sig n1 * 2 ^ n1⌋ 0) (2 ^ n1 - 1) : ℤ) : ℝ) * (2 ^ n2 * g1 / 2 ^ n1) +
      ((min (max ⌊stageOut (g1 * (sig - stageOut sig n1) + stageOffset g1 n1) n2 * 2 ^ n2⌋ 0) (2 ^ n2 - 1) : ℤ) : ℝ) := by
  have hs : (pipeline2Raw n1 n2 g1).sum = (2 ^ n1 - 1) * (2 ^ n2 * g1 / 2 ^ n1) + (2 ^ n2 - 1) := by
    unfold pipeline2Raw
    simp only
    rw [List.sum_append, pow_sum, pow_sum, redundancy_pow n1 g1 hg, Real.rpow_zero, Real.rpow_natCast]
    ring
  have hpos : (0 : ℝ) < (2 ^ n1 - 1) * (2 ^ n2 * g1 / 2 ^ n1) + (2 ^ n2 - 1) := by
    have a1 : (0 : ℝ) ≤ 2 ^ n1 - 1 := sub_nonneg.mpr (one_le_pow₀ (by norm_num))
    have a2 : (0 : ℝ) ≤ 2 ^ n2 - 1 := sub_nonneg.mpr (one_le_pow₀ (by norm_num))
    have a3 : (0 : ℝ) < 2 ^ n2 * g1 / 2 ^ n1 := by positivity
    rcases Nat.eq_zero_or_pos n2 with h | h
    · have : (0 : ℝ) < 2 ^ n1 - 1 := sub_pos.mpr (one_lt_pow₀ (by norm_num) (by omega))
      have := mul_pos this a3
      linarith
    · have : (0 : ℝ) < 2 ^ n2 - 1 := sub_pos.mpr (one_lt_pow₀ (by norm_num) (by omega))
      have := mul_nonneg a1 a3.le
      linarith
  rw [unitSum, rowTimes_scaled, hs, div_mul_cancel₀ _ hpos.ne']
  unfold pipeline2Dout pipeline2Raw
  simp only
  rw [rowTimes_append _ _ _ _ (by rw [bits_length, pow_length]), bits_value, bits_value, redundancy_pow n1 g1 hg, Real.rpow_zero, Real.rpow_natCast]
  ring

/-- **C164 (two stages).** The weighted sum of the bits of the two-stage generator, on the scale of its last bit, is within one step of the input for every input in range
exactly if the interstage gain is at most `2 ^ N1`. -/
theorem C164_two_stage (n1 n2 : ℕ) (hn : 0 < n1 + n2) (g1 : ℝ) (hg : 0 < g1) :
    (∀ sig : ℝ, 0 ≤ sig → sig < 1 → WithinLsb (2 ^ n2 * (g1 * sig + (1 - g1 / 2 ^ n1) / 2))
      (rowTimes (pipeline2Dout n1 n2 g1 sig) (unitSum (pipeline2Raw n1 n2 g1)) * ((2 ^ n1 - 1) * (2 ^ n2 * g1 / 2 ^ n1) + (2 ^ n2 - 1)))) ↔ g1 ≤ 2 ^ n1 := by
  have h2 : (0 : ℝ) < 2 ^ n1 := by positivity
  have h3 : (0 : ℝ) < 2 ^ n2 := by positivity
  constructor
  · intro h
    by_contra hc
    push Not at hc
    have hx := (h 0 le_rfl one_pos).1
    rw [two_value n1 n2 hn g1 hg, show stageOut 0 n1 * 2 ^ n1 = 0 by simp [stageOut]] at hx
    have h1 : (1 : ℤ) ≤ 2 ^ n1 := one_le_pow₀ (by norm_num)
    have h1' : (1 : ℤ) ≤ 2 ^ n2 := one_le_pow₀ (by norm_num)
    have e1 : (min (max ⌊(0 : ℝ)⌋ 0) (2 ^ n1 - 1) : ℤ) = 0 := by
      rw [Int.floor_zero]
      omega
    have e2 : ∀ z : ℤ, (0 : ℝ) ≤ ((min (max z 0) (2 ^ n2 - 1) : ℤ) : ℝ) := by
      intro z
      have : (0 : ℤ) ≤ min (max z 0) (2 ^ n2 - 1) := by omega
      exact_mod_cast this
    have := e2 ⌊stageOut (g1 * (0 - stageOut 0 n1) + stageOffset g1 n1) n2 * 2 ^ n2⌋
    have h4 : 1 < g1 / 2 ^ n1 := by rw [one_lt_div h2]; exact hc
    have h5 : 2 ^ n2 * (g1 * 0 + (1 - g1 / 2 ^ n1) / 2) < 0 := mul_neg_of_pos_of_neg h3 (by linarith)
    rw [e1, Int.cast_zero, zero_mul] at hx
    linarith
  · intro hgn sig h0 h1
    obtain ⟨c, -, hc2, hc3, hc4, hc5, hc6, hc7⟩ := stage n1 sig h0 h1
    obtain ⟨r0, r1⟩ := residue_range n1 g1 sig hg hgn h0 h1
    obtain ⟨d, -, hd2, hd3, hd4, hd5, hd6, -⟩ := stage n2 _ r0 r1
    rw [two_value n1 n2 hn g1 hg, hc2, hd2, saturated n1 c hc3 hc4, saturated n2 d hd3 hd4]
    rw [hc7] at hd5 hd6
    unfold stageOffset at hd5 hd6
    rw [mul_one] at hd5 hd6
    have e : 2 ^ n2 * (g1 * sig + (1 - g1 / 2 ^ n1) / 2) = (g1 * (sig - c / 2 ^ n1) + (1 - g1 / 2 ^ n1) / 2) * 2 ^ n2 + c * (2 ^ n2 * g1 / 2 ^ n1) := by ring
    unfold WithinLsb
    rw [e]
    constructor <;> linarith

/-- **C164 (two stages, exact).** With a gain of `2 ^ a`, `a ≤ N1 ≤ N2 + a`, the bits are those of one ideal quantizer of `N2 + a` bits shifted by the half-unused range. -/
theorem C164_two_stage_exact (n1 n2 a : ℕ) (hn : 0 < n1 + n2) (ha : a ≤ n1) (hb : n1 ≤ n2 + a) (sig : ℝ) (h0 : 0 ≤ sig) (h1 : sig < 1) :
    rowTimes (pipeline2Dout n1 n2 (2 ^ a) sig) (unitSum (pipeline2Raw n1 n2 (2 ^ a))) * ((2 ^ n1 - 1) * 2 ^ (n2 + a - n1) + (2 ^ n2 - 1)) =
      ⌊(2 : ℝ) ^ (n2 + a) * sig + (2 ^ n2 - 2 ^ (n2 + a - n1)) / 2⌋ := by
  have hg : (0 : ℝ) < 2 ^ a := by positivity
  have e : (2 : ℝ) ^ n2 * 2 ^ a / 2 ^ n1 = 2 ^ (n2 + a - n1) := by
    rw [← pow_add, div_eq_iff (by positivity), ← pow_add]
    congr 1
    omega
  have h := (C164_two_stage n1 n2 hn (2 ^ a) hg).mpr (pow_le_pow_right₀ (by norm_num) ha) sig h0 h1
  have hv := two_value n1 n2 hn (2 ^ a) hg sig
  rw [e] at h hv
  rw [hv] at h ⊢
  generalize (min (max ⌊stageOut sig n1 * 2 ^ n1⌋ 0) (2 ^ n1 - 1) : ℤ) = c at *
  generalize (min (max ⌊stageOut (2 ^ a * (sig - stageOut sig n1) + stageOffset (2 ^ a) n1) n2 * 2 ^ n2⌋ 0) (2 ^ n2 - 1) : ℤ) = d at *
  have e2 : (2 : ℝ) ^ n2 * (2 ^ a * sig + (1 - 2 ^ a / 2 ^ n1) / 2) = 2 ^ (n2 + a) * sig + (2 ^ n2 - 2 ^ (n2 + a - n1)) / 2 := by
    rw [← e, pow_add]
    ring
  rw [e2] at h
  have : ⌊(2 : ℝ) ^ (n2 + a) * sig + (2 ^ n2 - 2 ^ (n2 + a - n1)) / 2⌋ = c * 2 ^ (n2 + a - n1) + d := by
    rw [Int.floor_eq_iff]
    push_cast
    exact h
  rw [this]
  push_cast
  ring

/-! ## Three stages -/

private theorem three_value (n1 n2 n3 : ℕ) (hn : 0 < n3) (g1 g2 : ℝ) (hg1 : 0 < g1) (hg2 : 0 < g2) (sig : ℝ) :
    rowTimes (pipeline3Dout n1 n2 n3 g1 g2 sig) (unitSum (pipeline3Raw n1 n2 n3 g1 g2)) *
        ((2 ^ n1 - 1) * (2 ^ n3 * g2 * g1 / 2 ^ n1) + (2 ^ n2 - 1) * (2 ^ n3 * g2 / 2 ^ n2) + (2 ^ n3 - 1)) =
      rowTimes (pipeline3Dout n1 n2 n3 g1 g2 sig) (pipeline3Raw n1 n2 n3 g1 g2) := by
  have hw : (2 : ℝ) ^ ((n2 : ℝ) + n3 - stageRedundancy n2 g2 - stageRedundancy n1 g1) = 2 ^ n3 * g2 * g1 / 2 ^ n1 := by
    rw [redundancy_pow n1 g1 hg1, redundancy_pow n2 g2 hg2, Real.rpow_add (by norm_num), Real.rpow_natCast, Real.rpow_natCast]
    have : (0 : ℝ) < 2 ^ n2 := by positivity
    field_simp
  have hs : (pipeline3Raw n1 n2 n3 g1 g2).sum = (2 ^ n1 - 1) * (2 ^ n3 * g2 * g1 / 2 ^ n1) + (2 ^ n2 - 1) * (2 ^ n3 * g2 / 2 ^ n2) + (2 ^ n3 - 1) := by
    unfold pipeline3Raw
    simp only
    rw [List.sum_append, List.sum_append, pow_sum, pow_sum, pow_sum, hw, redundancy_pow n2 g2 hg2, Real.rpow_zero, Real.rpow_natCast]
    ring
  have hpos : (0 : ℝ) < (2 ^ n1 - 1) * (2 ^ n3 * g2 * g1 / 2 ^ n1) + (2 ^ n2 - 1) * (2 ^ n3 * g2 / 2 ^ n2) + (2 ^ n3 - 1) := by
    have a1 : (0 : ℝ) ≤ 2 ^ n1 - 1 := sub_nonneg.mpr (one_le_pow₀ (by norm_num))
    have a2 : (0 : ℝ) ≤ 2 ^ n2 - 1 := sub_nonneg.mpr (one_le_pow₀ (by norm_num))
    have a3 : (0 : ℝ) < 2 ^ n3 - 1 := sub_pos.mpr (one_lt_pow₀ (by norm_num) (by omega))
    positivity
  rw [unitSum, rowTimes_scaled, hs, div_mul_cancel₀ _ hpos.ne']

private theorem three_raw (n1 n2 n3 : ℕ) (g1 g2 : ℝ) (hg1 : 0 < g1) (hg2 : 0 < g2) (h1n : g1 ≤ 2 ^ n1) (h2n : g2 ≤ 2 ^ n2) (sig : ℝ) (h0 : 0 ≤ sig) (h1 : sig < 1) :
    ∃ c d e : ℤ, rowTimes (pipeline3Dout n1 n2 n3 g1 g2 sig) (pipeline3Raw n1 n2 n3 g1 g2) = c * (2 ^ n3 * g2 * g1 / 2 ^ n1) + d * (2 ^ n3 * g2 / 2 ^ n2) + e ∧
      WithinLsb (2 ^ n3 * (g2 * (g1 * sig + (1 - g1 / 2 ^ n1) / 2) + (1 - g2 / 2 ^ n2) / 2)) (c * (2 ^ n3 * g2 * g1 / 2 ^ n1) + d * (2 ^ n3 * g2 / 2 ^ n2) + e) := by
  have hw : (2 : ℝ) ^ ((n2 : ℝ) + n3 - stageRedundancy n2 g2 - stageRedundancy n1 g1) = 2 ^ n3 * g2 * g1 / 2 ^ n1 := by
    rw [redundancy_pow n1 g1 hg1, redundancy_pow n2 g2 hg2, Real.rpow_add (by norm_num), Real.rpow_natCast, Real.rpow_natCast]
    have : (0 : ℝ) < 2 ^ n2 := by positivity
    field_simp
  obtain ⟨c, -, hc2, hc3, hc4, -, -, hc7⟩ := stage n1 sig h0 h1
  obtain ⟨r0, r1⟩ := residue_range n1 g1 sig hg1 h1n h0 h1
  obtain ⟨d, -, hd2, hd3, hd4, -, -, hd7⟩ := stage n2 _ r0 r1
  obtain ⟨s0, s1⟩ := residue_range n2 g2 _ hg2 h2n r0 r1
  obtain ⟨e, -, he2, he3, he4, he5, he6, -⟩ := stage n3 _ s0 s1
  refine ⟨c, d, e, ?_, ?_⟩
  · unfold pipeline3Dout pipeline3Raw
    simp only
    rw [rowTimes_append _ _ _ _ (by rw [bits_length, pow_length]), rowTimes_append _ _ _ _ (by rw [bits_length, pow_length]), bits_value, bits_value, bits_value, hw,
      redundancy_pow n2 g2 hg2, Real.rpow_zero, Real.rpow_natCast, hc2, hd2, he2, saturated n1 c hc3 hc4, saturated n2 d hd3 hd4, saturated n3 e he3 he4]
    ring
  · rw [hd7, hc7] at he5 he6
    unfold stageOffset at he5 he6
    simp only [mul_one] at he5 he6
    have e1 : 2 ^ n3 * (g2 * (g1 * sig + (1 - g1 / 2 ^ n1) / 2) + (1 - g2 / 2 ^ n2) / 2) =
        (g2 * (g1 * (sig - c / 2 ^ n1) + (1 - g1 / 2 ^ n1) / 2 - d / 2 ^ n2) + (1 - g2 / 2 ^ n2) / 2) * 2 ^ n3 +
          (c * (2 ^ n3 * g2 * g1 / 2 ^ n1) + d * (2 ^ n3 * g2 / 2 ^ n2)) := by ring
    unfold WithinLsb
    rw [e1]
    constructor <;> linarith

/-- **C164 (three stages).** The same for the three-stage generator with gains of at most `2 ^ N1` and `2 ^ N2`. -/
theorem C164_three_stage (n1 n2 n3 : ℕ) (hn : 0 < n3) (g1 g2 : ℝ) (hg1 : 0 < g1) (hg2 : 0 < g2) (h1n : g1 ≤ 2 ^ n1) (h2n : g2 ≤ 2 ^ n2) (sig : ℝ) (h0 : 0 ≤ sig) (h1 : sig < 1) :
    WithinLsb (2 ^ n3 * (g2 * (g1 * sig + (1 - g1 / 2 ^ n1) / 2) + (1 - g2 / 2 ^ n2) / 2))
      (rowTimes (pipeline3Dout n1 n2 n3 g1 g2 sig) (unitSum (pipeline3Raw n1 n2 n3 g1 g2)) *
        ((2 ^ n1 - 1) * (2 ^ n3 * g2 * g1 / 2 ^ n1) + (2 ^ n2 - 1) * (2 ^ n3 * g2 / 2 ^ n2) + (2 ^ n3 - 1))) := by
  rw [three_value n1 n2 n3 hn g1 g2 hg1 hg2]
  obtain ⟨c, d, e, h, hb⟩ := three_raw n1 n2 n3 g1 g2 hg1 hg2 h1n h2n sig h0 h1
  rw [h]
  exact hb

/-! ## Many stages -/

private theorem pow2Down_places (lo : ℝ) (n : ℕ) : pow2Down lo n = (List.range n).map fun (j : ℕ) => (2 : ℝ) ^ lo * 2 ^ (n - 1 - j) := by
  unfold pow2Down
  refine List.map_congr_left fun i hi => ?_
  rw [rpow_split lo n i (List.mem_range.mp hi)]

private theorem last_places (nl : ℕ) : lastPlaces nl = pow2Down 0 nl := by
  rw [pow2Down_places, Real.rpow_zero]
  simp [lastPlaces]

private theorem front_head (n nl : ℕ) (g : ℝ) (hg : 0 < g) (m : ℕ) :
    ((List.range n).map fun (j : ℕ) => 2 ^ nl * g ^ (m + 1) / 2 ^ n * (2 : ℝ) ^ (n - 1 - j)) = pow2Down (Real.logb 2 (2 ^ nl * g ^ (m + 1) / 2 ^ n)) n := by
  rw [pow2Down_places, Real.rpow_logb (by norm_num) (by norm_num) (by positivity)]

/-- **C165 (bits).** The bits of the many-stage generator, read with the place values of their stages, are within one step of the amplified input, for gains of at most `2 ^ N`. -/
theorem C165_bits (n nl m : ℕ) (g : ℝ) (hg : 0 < g) (hgn : g ≤ 2 ^ n) (sig : ℝ) (h0 : 0 ≤ sig) (h1 : sig < 1) :
    WithinLsb (2 ^ nl * (g ^ m * sig + (1 - g / 2 ^ n) / 2 * ∑ k ∈ range m, g ^ k)) (rowTimes (pipelineNDout n nl g m sig) (frontPlaces n nl g m ++ lastPlaces nl)) := by
  induction m generalizing sig with
  | zero =>
    obtain ⟨c, -, hc2, hc3, hc4, hc5, hc6, -⟩ := stage nl sig h0 h1
    rw [frontPlaces, List.nil_append, last_places, pipelineNDout, bits_value, hc2, saturated nl c hc3 hc4, Real.rpow_zero, mul_one, pow_zero, one_mul, sum_range_zero, mul_zero,
      add_zero, mul_comm]
    exact ⟨hc5, hc6⟩
  | succ m ih =>
    obtain ⟨c, -, hc2, hc3, hc4, -, -, hc7⟩ := stage n sig h0 h1
    obtain ⟨r0, r1⟩ := residue_range n g sig hg hgn h0 h1
    have h := ih _ r0 r1
    rw [pipelineNDout, frontPlaces, List.append_assoc, front_head n nl g hg, rowTimes_append _ _ _ _ (by rw [bits_length, pow_length]), bits_value, hc2, saturated n c hc3 hc4,
      Real.rpow_logb (by norm_num) (by norm_num) (by positivity)]
    generalize rowTimes (pipelineNDout n nl g m (g * (sig - stageOut sig n) + stageOffset g n)) (frontPlaces n nl g m ++ lastPlaces nl) = T at h
    have e : 2 ^ nl * (g ^ (m + 1) * sig + (1 - g / 2 ^ n) / 2 * ∑ k ∈ range (m + 1), g ^ k) =
        c * (2 ^ nl * g ^ (m + 1) / 2 ^ n) + 2 ^ nl * (g ^ m * (g * (sig - stageOut sig n) + stageOffset g n) + (1 - g / 2 ^ n) / 2 * ∑ k ∈ range m, g ^ k) := by
      rw [hc7, sum_range_succ, stageOffset]
      ring
    rw [e]
    exact ⟨by linarith [h.1], by linarith [h.2]⟩

/-- **C165 (weights).** The weights of the script are the place values divided by the gain for every stage but the last, and the place values for the last: for a gain other
than 1 the two do not fit together. -/
theorem C165_weights (n nl m : ℕ) (g : ℝ) (hg : 0 < g) : pipelineNRaw n nl g m = (frontPlaces n nl g m).map (· / g) ++ lastPlaces nl := by
  induction m with
  | zero => rw [pipelineNRaw, frontPlaces, List.map_nil, List.nil_append, last_places]
  | succ m ih =>
    rw [pipelineNRaw, frontPlaces, List.map_append, List.append_assoc, ih, pow2Down_places, List.map_map]
    congr 1
    refine List.map_congr_left fun j _ => ?_
    have e : bitsRemaining n nl g (m + 1) - n = ((nl : ℝ) - n) + ((n : ℝ) - stageRedundancy n g) * m := by
      unfold bitsRemaining
      push_cast
      ring
    have e2 : (2 : ℝ) ^ (((n : ℝ) - stageRedundancy n g) * m) = g ^ m := by
      have h2 : (0 : ℝ) < 2 ^ n := by positivity
      rw [Real.rpow_mul (by norm_num), redundancy_pow n g hg, Real.rpow_natCast, Real.rpow_natCast]
      congr 1
      field_simp
    rw [e, Real.rpow_add (by norm_num), e2, Real.rpow_sub (by norm_num), Real.rpow_natCast, Real.rpow_natCast]
    simp only [Function.comp]
    rw [pow_succ]
    field_simp

private theorem stage_code (cur : ℝ) (n : ℕ) (c : ℤ) (h1 : (c : ℝ) ≤ cur * 2 ^ n) (h2 : cur * 2 ^ n < c + 1) : stageOut cur n = c / 2 ^ n := by
  unfold stageOut
  rw [Int.floor_eq_iff.mpr ⟨h1, h2⟩]

private theorem script_step (m : ℕ) (cur : ℝ) (c : ℤ) (h0 : 0 ≤ c) (h7 : c ≤ 7) (h1 : (c : ℝ) ≤ cur * 8) (h2 : cur * 8 < c + 1) :
    rowTimes (pipelineNDout 3 4 4 (m + 1) cur) (pipelineNRaw 3 4 4 (m + 1)) = c * 2 ^ (bitsRemaining 3 4 4 (m + 1) - (3 : ℕ)) +
      rowTimes (pipelineNDout 3 4 4 m (4 * (cur - c / 8) + 1 / 4)) (pipelineNRaw 3 4 4 m) := by
  have hs := stage_code cur 3 c (by norm_num; exact h1) (by norm_num; exact h2)
  rw [pipelineNDout, pipelineNRaw, rowTimes_append _ _ _ _ (by rw [bits_length, pow_length]), bits_value, hs, div_mul_cancel₀ _ (by norm_num), saturated 3 c h0 (by norm_num; exact h7)]
  norm_num [stageOffset]

private theorem script_last (cur : ℝ) (c : ℤ) (h0 : 0 ≤ c) (h7 : c ≤ 15) (h1 : (c : ℝ) ≤ cur * 16) (h2 : cur * 16 < c + 1) :
    rowTimes (pipelineNDout 3 4 4 0 cur) (pipelineNRaw 3 4 4 0) = c := by
  have hs := stage_code cur 4 c (by norm_num; exact h1) (by norm_num; exact h2)
  rw [pipelineNDout, pipelineNRaw, bits_value, hs, div_mul_cancel₀ _ (by norm_num), saturated 4 c h0 (by norm_num; exact h7)]
  norm_num

private theorem script_drop (m : ℕ) : rowTimes (pipelineNDout 3 4 4 (m + 1) (1 / 4 + 7 / 64 / 4 ^ m)) (pipelineNRaw 3 4 4 (m + 1)) =
    rowTimes (pipelineNDout 3 4 4 (m + 1) (1 / 4 + 1 / 8 / 4 ^ m)) (pipelineNRaw 3 4 4 (m + 1)) + 5 := by
  induction m with
  | zero =>
    have hb : bitsRemaining 3 4 4 (0 + 1) - (3 : ℕ) = 1 := by
      unfold bitsRemaining
      norm_num
    rw [script_step 0 _ 2 (by norm_num) (by norm_num) (by norm_num) (by norm_num), script_step 0 _ 3 (by norm_num) (by norm_num) (by norm_num) (by norm_num),
      script_last _ 11 (by norm_num) (by norm_num) (by norm_num) (by norm_num), script_last _ 4 (by norm_num) (by norm_num) (by norm_num) (by norm_num), hb]
    norm_num
  | succ m ih =>
    have h4 : (1 : ℝ) ≤ 4 ^ m := one_le_pow₀ (by norm_num)
    have hx : ∀ y : ℝ, 0 ≤ y → y ≤ 1 / 8 → 0 ≤ y / 4 ^ (m + 1) ∧ y / 4 ^ (m + 1) < 1 / 8 := by
      intro y hy0 hy1
      refine ⟨by positivity, ?_⟩
      rw [div_lt_iff₀ (by positivity), pow_succ]
      linarith
    have hc : ∀ y : ℝ, 4 * (1 / 4 + y / 4 ^ (m + 1) - ((2 : ℤ) : ℝ) / 8) + 1 / 4 = 1 / 4 + y / 4 ^ m := by
      intro y
      rw [pow_succ]
      push_cast
      field_simp
      ring
    obtain ⟨a1, a2⟩ := hx (7 / 64) (by norm_num) (by norm_num)
    obtain ⟨b1, b2⟩ := hx (1 / 8) (by norm_num) (by norm_num)
    rw [script_step (m + 1) _ 2 (by norm_num) (by norm_num) (by push_cast; linarith) (by push_cast; linarith), hc,
      script_step (m + 1) _ 2 (by norm_num) (by norm_num) (by push_cast; linarith) (by push_cast; linarith), hc, ih]
    ring

/-- **C165 (not monotone).** With 3 bits and gain 4 per stage and 4 bits at the end, as in the script, and any number of stages, the output with the weights of the script
falls for some rise of the input. -/
theorem C165_not_monotone (m : ℕ) : ∃ s t : ℝ, 0 ≤ s ∧ s < t ∧ t < 1 ∧
    rowTimes (pipelineNDout 3 4 4 (m + 1) t) (unitSum (pipelineNRaw 3 4 4 (m + 1))) < rowTimes (pipelineNDout 3 4 4 (m + 1) s) (unitSum (pipelineNRaw 3 4 4 (m + 1))) := by
  have h4 : (1 : ℝ) ≤ 4 ^ m := one_le_pow₀ (by norm_num)
  refine ⟨1 / 4 + 7 / 64 / 4 ^ m, 1 / 4 + 1 / 8 / 4 ^ m, by positivity, ?_, ?_, ?_⟩
  · have : (7 / 64 : ℝ) / 4 ^ m < 1 / 8 / 4 ^ m := div_lt_div_of_pos_right (by norm_num) (by positivity)
    linarith
  · have : (1 / 8 : ℝ) / 4 ^ m ≤ 1 / 8 := div_le_self (by norm_num) h4
    linarith
  · have hpos : ∀ k, 0 < (pipelineNRaw 3 4 4 k).sum := by
      intro k
      induction k with
      | zero => rw [pipelineNRaw, pow_sum]; norm_num
      | succ k ih =>
        rw [pipelineNRaw, List.sum_append, pow_sum]
        have : (0 : ℝ) < 2 ^ (bitsRemaining 3 4 4 (k + 1) - (3 : ℕ)) * (2 ^ 3 - 1) := mul_pos (Real.rpow_pos_of_pos (by norm_num) _) (by norm_num)
        linarith
    rw [unitSum, rowTimes_scaled, rowTimes_scaled, script_drop]
    exact div_lt_div_of_pos_right (by linarith) (hpos _)

/-! ## SAR -/

private theorem sar_bound (vs : List ℝ) (hcov : RestCovers vs) (v : ℝ) (hlast : vs.getLast? = some v) : ∀ r : ℝ, |r| ≤ vs.sum → ∀ nom : List ℝ, nom = vs.dropLast ++ [v / 2] →
    ∃ q, 2 * rowTimes (sarGenLoop r vs) nom = r + vs.sum - v + q ∧ 0 ≤ q ∧ q ≤ v ∧ (-vs.sum < r → q < v) := by
  induction vs with
  | nil => simp at hlast
  | cons a vs ih =>
    intro r hr nom hnom
    rw [List.sum_cons, abs_le] at hr
    cases vs with
    | nil =>
      simp only [List.getLast?_singleton, Option.some.injEq] at hlast
      subst hlast
      simp only [List.sum_nil, add_zero] at hr
      subst hnom
      have hrow : rowTimes (sarGenLoop r [a]) ([a].dropLast ++ [a / 2]) = (if 0 < r then 1 else 0) * (a / 2) := by
        simp [rowTimes, sarGenLoop]
      rw [hrow]
      simp only [List.sum_cons, List.sum_nil, add_zero]
      by_cases h : 0 < r
      · rw [if_pos h]
        exact ⟨a - r, by ring, by linarith, by linarith, fun _ => by linarith⟩
      · rw [if_neg h]
        push Not at h
        exact ⟨-r, by ring, by linarith, by linarith, fun h' => by linarith⟩
    | cons b vs =>
      have hc := hcov [] a (b :: vs) rfl (by simp)
      have hcov' : RestCovers (b :: vs) := fun l c rest he hr => hcov (a :: l) c rest (by rw [he]; rfl) hr
      have hl' : (b :: vs).getLast? = some v := by simpa [List.getLast?_cons_cons] using hlast
      have hnom' : nom = a :: ((b :: vs).dropLast ++ [v / 2]) := by rw [hnom]; simp [List.dropLast]
      have hrow : ∀ t, rowTimes (sarGenLoop r (a :: b :: vs)) (a :: t) = (if 0 < r then 1 else 0) * a +
          rowTimes (sarGenLoop (r - (2 * (if 0 < r then 1 else 0) - 1) * a) (b :: vs)) t := by
        intro t
        rw [sarGenLoop]
        simp [rowTimes]
      rw [hnom', hrow]
      generalize hS : (b :: vs).sum = S at *
      by_cases h : 0 < r
      · simp only [if_pos h]
        obtain ⟨q, h1, h2, h3, h4⟩ := ih hcov' hl' (r - (2 * 1 - 1) * a) (by rw [abs_le]; constructor <;> linarith) _ rfl
        refine ⟨q, ?_, h2, h3, fun _ => h4 (by linarith)⟩
        rw [List.sum_cons, hS, mul_add, h1]
        ring
      · simp only [if_neg h]
        push Not at h
        obtain ⟨q, h1, h2, h3, h4⟩ := ih hcov' hl' (r - (2 * 0 - 1) * a) (by rw [abs_le]; constructor <;> linarith) _ rfl
        refine ⟨q, ?_, h2, h3, fun h' => h4 (by rw [List.sum_cons, hS] at h'; linarith)⟩
        rw [List.sum_cons, hS, mul_add, h1]
        ring

private theorem loop_scaled : ∀ (l : List ℝ) (s r : ℝ), 0 < s → sarGenLoop r (l.map fun c => c / s * 1) = sarGenLoop (s * r) l := by
  intro l s r hs
  induction l generalizing r with
  | nil => rfl
  | cons a l ih =>
    rw [List.map_cons, sarGenLoop, sarGenLoop]
    have e : (0 < r) = (0 < s * r) := by simp [hs]
    simp only [e, List.isEmpty_map]
    congr 1
    rw [ih]
    congr 1
    split_ifs
    all_goals first | rfl | (field_simp)

private theorem sar_covered (cdac : List ℝ) (c : ℝ) (hlast : cdac.getLast? = some c) (hpos : ∀ x ∈ cdac, 0 < x) (hcov : RestCovers cdac) (sig : ℝ) (hs0 : -1 < sig) (hs1 : sig ≤ 1) :
    ∃ nom, sarGenNominal cdac = some nom ∧
      (cdac.sum * sig + cdac.sum - c) / 2 ≤ rowTimes (sarGenDout cdac sig) nom ∧ rowTimes (sarGenDout cdac sig) nom < (cdac.sum * sig + cdac.sum) / 2 := by
  have hne : cdac ≠ [] := by rintro rfl; simp at hlast
  have hS : 0 < cdac.sum := List.sum_pos _ hpos hne
  refine ⟨cdac.dropLast ++ [c / 2], by simp [sarGenNominal, hlast], ?_⟩
  obtain ⟨q, h1, h2, -, h4⟩ := sar_bound cdac hcov c hlast (cdac.sum * sig) (by rw [abs_le]; constructor <;> nlinarith) _ rfl
  have h5 := h4 (by nlinarith)
  unfold sarGenDout
  rw [loop_scaled cdac cdac.sum sig hS]
  constructor <;> linarith

private theorem loop_zeros (vs : List ℝ) (v : ℝ) (hlast : vs.getLast? = some v) (hpos : ∀ x ∈ vs, 0 < x) : ∀ r : ℝ, r + vs.sum - v ≤ 0 → ∀ nom, rowTimes (sarGenLoop r vs) nom = 0 := by
  induction vs with
  | nil => simp at hlast
  | cons a vs ih =>
    intro r hr nom
    cases vs with
    | nil =>
      simp only [List.getLast?_singleton, Option.some.injEq] at hlast
      subst hlast
      simp only [List.sum_cons, List.sum_nil] at hr
      have : ¬ 0 < r := by linarith
      cases nom <;> simp [rowTimes, sarGenLoop, this]
    | cons b vs =>
      have hl' : (b :: vs).getLast? = some v := by simpa [List.getLast?_cons_cons] using hlast
      have hv : v ≤ (b :: vs).sum := List.single_le_sum (fun x hx => (hpos x (List.mem_cons_of_mem _ hx)).le) v (List.mem_of_getLast? hl')
      have ha := hpos a List.mem_cons_self
      rw [List.sum_cons] at hr
      have h0 : ¬ 0 < r := by linarith
      have h := ih hl' (fun x hx => hpos x (List.mem_cons_of_mem _ hx)) (r - (2 * 0 - 1) * a) (by linarith)
      rw [sarGenLoop]
      cases nom with
      | nil => simp [rowTimes]
      | cons n nom =>
        have := h nom
        simp only [rowTimes, List.isEmpty_cons, if_neg h0, Bool.false_eq_true, if_false, List.zipWith_cons_cons, List.sum_cons, zero_mul, zero_add] at this ⊢
        exact this

private theorem loop_ones (l : List ℝ) (hpos : ∀ x ∈ l, 0 < x) (rest : List ℝ) (hne : rest ≠ []) (nom : List ℝ) : ∀ r : ℝ, l.sum < r →
    rowTimes (sarGenLoop r (l ++ rest)) (l ++ nom) = l.sum + rowTimes (sarGenLoop (r - l.sum) rest) nom := by
  induction l with
  | nil => intro r _; simp
  | cons a l ih =>
    intro r hr
    have hl : 0 ≤ l.sum := List.sum_nonneg fun x hx => (hpos x (List.mem_cons_of_mem _ hx)).le
    have ha := hpos a List.mem_cons_self
    rw [List.sum_cons] at hr ⊢
    have h0 : 0 < r := by linarith
    have h := ih (fun x hx => hpos x (List.mem_cons_of_mem _ hx)) (r - (2 * 1 - 1) * a) (by linarith)
    have he : (l ++ rest).isEmpty = false := by simp [hne]
    rw [List.cons_append, List.cons_append, sarGenLoop]
    simp only [rowTimes, he, if_pos h0, Bool.false_eq_true, if_false, List.zipWith_cons_cons, List.sum_cons, one_mul] at h ⊢
    rw [h, show r - (2 * 1 - 1) * a - l.sum = r - (a + l.sum) by ring]
    ring

/-- **C164 (SAR).** The weighted sum of the bits with the halved last weight follows every input in range to within half of the last capacitor exactly if no capacitor but the
last is larger than all later ones together. -/
theorem C164_sar (cdac : List ℝ) (c : ℝ) (hlast : cdac.getLast? = some c) (hpos : ∀ x ∈ cdac, 0 < x) :
    (∀ sig : ℝ, -1 < sig → sig ≤ 1 → ∃ nom, sarGenNominal cdac = some nom ∧
      (cdac.sum * sig + cdac.sum - c) / 2 ≤ rowTimes (sarGenDout cdac sig) nom ∧ rowTimes (sarGenDout cdac sig) nom < (cdac.sum * sig + cdac.sum) / 2) ↔ RestCovers cdac := by
  refine ⟨fun h => ?_, fun hcov sig => sar_covered cdac c hlast hpos hcov sig⟩
  intro l a rest he hne
  by_contra hlt
  push Not at hlt
  have hne' : cdac ≠ [] := by rintro rfl; simp at hlast
  have hS : 0 < cdac.sum := List.sum_pos _ hpos hne'
  have hl : ∀ x ∈ l, 0 < x := fun x hx => hpos x (by rw [he]; simp [hx])
  have hr : ∀ x ∈ rest, 0 < x := fun x hx => hpos x (by rw [he]; simp [hx])
  have hl0 : 0 ≤ l.sum := List.sum_nonneg fun x hx => (hl x hx).le
  have hr0 : 0 < rest.sum := List.sum_pos _ hr hne
  have hsum : cdac.sum = l.sum + (a + rest.sum) := by rw [he, List.sum_append, List.sum_cons]
  have hrl : rest.getLast? = some c := by
    rw [he, List.getLast?_append, List.getLast?_cons] at hlast
    obtain ⟨y, hy⟩ : ∃ y, rest.getLast? = some y := ⟨rest.getLast hne, List.getLast?_eq_some_getLast hne⟩
    simp only [hy, Option.getD_some, Option.some_or] at hlast
    rw [hy, hlast]
  have hc : 0 < c := hpos c (List.mem_of_getLast? hlast)
  obtain ⟨nom, hn, -, h2⟩ := h ((l.sum + (a - rest.sum) / 2) / cdac.sum) (by rw [lt_div_iff₀ hS]; linarith) (by rw [div_le_one hS]; linarith)
  have hnom : nom = l ++ (a :: (rest.dropLast ++ [c / 2])) := by
    simp only [sarGenNominal, hlast, Option.map_some, Option.some.injEq] at hn
    rw [← hn, he, List.dropLast_append_of_ne_nil (by simp), List.dropLast_cons_of_ne_nil hne]
    simp
  have h0 : 0 < l.sum + (a - rest.sum) / 2 - l.sum := by linarith
  have hemp : rest.isEmpty = false := by simp [hne]
  unfold sarGenDout at h2
  rw [loop_scaled cdac cdac.sum _ hS, mul_div_cancel₀ _ hS.ne', hnom, hsum] at h2
  conv at h2 => lhs; rw [he]
  rw [loop_ones l hl (a :: rest) (by simp) _ _ (by linarith), sarGenLoop] at h2
  have hz := loop_zeros rest c hrl hr (l.sum + (a - rest.sum) / 2 - l.sum - (2 * 1 - 1) * a) (by linarith) (rest.dropLast ++ [c / 2])
  simp only [rowTimes, hemp, if_pos h0, Bool.false_eq_true, if_false, List.zipWith_cons_cons, List.sum_cons, one_mul] at h2 hz
  rw [hz] at h2
  linarith

/-- **C164 (SAR, exact).** With whole-number capacitors and a last capacitor of 1 the output is one ideal quantizer of `2 · sum` levels, whatever the radix. -/
theorem C164_sar_exact (cdac : List ℕ) (hlast : cdac.getLast? = some 1) (hpos : ∀ x ∈ cdac, 0 < x) (hcov : RestCovers (cdac.map fun x : ℕ => (x : ℝ))) (sig : ℝ) (hs0 : -1 < sig) (hs1 : sig ≤ 1) :
    ∃ nom, sarGenNominal (cdac.map fun x : ℕ => (x : ℝ)) = some nom ∧
      2 * rowTimes (sarGenDout (cdac.map fun x : ℕ => (x : ℝ)) sig) nom = ⌈(cdac.sum : ℝ) * sig + cdac.sum - 1⌉ := by
  have hl : (cdac.map fun x : ℕ => (x : ℝ)).getLast? = some 1 := by rw [List.getLast?_map, hlast]; simp
  obtain ⟨nom, hn, h1, h2⟩ := (C164_sar _ 1 hl (by simpa using hpos)).mpr hcov sig hs0 hs1
  refine ⟨nom, hn, ?_⟩
  have hbits : ∀ (l : List ℝ) (r : ℝ), ∀ d ∈ sarGenLoop r l, d = 0 ∨ d = 1 := by
    intro l
    induction l with
    | nil => intro r d hd; simp [sarGenLoop] at hd
    | cons a l ih =>
      intro r d hd
      rw [sarGenLoop] at hd
      rcases List.mem_cons.mp hd with h | h
      · rw [h]
        split_ifs <;> simp
      · exact ih _ d h
  have hint : ∀ (ds : List ℝ) (l : List ℝ), (∀ d ∈ ds, d = 0 ∨ d = 1) → (∀ x ∈ l, ∃ z : ℤ, 2 * x = z) → ∃ z : ℤ, 2 * rowTimes ds l = z := by
    intro ds
    induction ds with
    | nil => intro l _ _; exact ⟨0, by simp [rowTimes]⟩
    | cons d ds ih =>
      intro l hd hl
      cases l with
      | nil => exact ⟨0, by simp [rowTimes]⟩
      | cons x l =>
        obtain ⟨z, hz⟩ := ih l (fun d' h' => hd d' (List.mem_cons_of_mem _ h')) (fun x' h' => hl x' (List.mem_cons_of_mem _ h'))
        obtain ⟨y, hy⟩ := hl x List.mem_cons_self
        have e : rowTimes (d :: ds) (x :: l) = d * x + rowTimes ds l := by simp [rowTimes]
        rcases hd d List.mem_cons_self with h | h
        · exact ⟨z, by rw [e, h]; linarith⟩
        · exact ⟨y + z, by rw [e, h]; push_cast; linarith⟩
  have hnom : nom = (cdac.map fun x : ℕ => (x : ℝ)).dropLast ++ [1 / 2] := by
    simp only [sarGenNominal, hl, Option.map_some, Option.some.injEq] at hn
    exact hn.symm
  obtain ⟨z, hz⟩ := hint (sarGenDout (cdac.map fun x : ℕ => (x : ℝ)) sig) nom (hbits _ _) (by
    intro x hx
    rw [hnom, List.mem_append] at hx
    rcases hx with hx | hx
    · obtain ⟨y, -, rfl⟩ := List.mem_map.mp (List.mem_of_mem_dropLast hx)
      exact ⟨2 * (y : ℤ), by push_cast; ring⟩
    · rw [List.mem_singleton] at hx
      exact ⟨1, by rw [hx]; norm_num⟩)
  have hsum : (cdac.map fun x : ℕ => (x : ℝ)).sum = cdac.sum := by push_cast; rfl
  rw [hsum] at h1 h2
  rw [hz]
  congr 1
  symm
  rw [Int.ceil_eq_iff, ← hz]
  constructor <;> linarith

/-! ## Examples -/

/-- The script: 3 bits, gain 8, 8 bits. The output is the input in 11 bits. -/
example (sig : ℝ) (h0 : 0 ≤ sig) (h1 : sig < 1) :
    rowTimes (pipeline2Dout 3 8 8 sig) (unitSum (pipeline2Raw 3 8 8)) * 2047 = ⌊2048 * sig⌋ := by
  have := C164_two_stage_exact 3 8 3 (by norm_num) le_rfl (by norm_num) sig h0 h1
  norm_num at this
  exact this

/-- A gain of 16 after 3 bits leaves the range of the second stage: the input 0 is reported one step or more away. -/
example : ¬ ∀ sig : ℝ, 0 ≤ sig → sig < 1 → WithinLsb (2 ^ 8 * (16 * sig + (1 - 16 / 2 ^ 3) / 2))
    (rowTimes (pipeline2Dout 3 8 16 sig) (unitSum (pipeline2Raw 3 8 16)) * ((2 ^ 3 - 1) * (2 ^ 8 * 16 / 2 ^ 3) + (2 ^ 8 - 1))) := by
  rw [C164_two_stage 3 8 (by norm_num) 16 (by norm_num)]
  norm_num

/-- The weights of the last two stages of the script; the place values of the first three bits are 32, 16 and 8. -/
example : pipelineNRaw 3 4 4 1 = [8, 4, 2, 8, 4, 2, 1] := by
  rw [C165_weights 3 4 1 4 (by norm_num)]
  norm_num [frontPlaces, lastPlaces, List.range_succ_eq_map]

/-- The eight-stage script, read with the true place values, for the input 1/3. -/
example : WithinLsb (2 ^ 4 * (4 ^ 7 * (1 / 3) + (1 - 4 / 2 ^ 3) / 2 * ∑ k ∈ range 7, 4 ^ k)) (rowTimes (pipelineNDout 3 4 4 7 (1 / 3)) (frontPlaces 3 4 4 7 ++ lastPlaces 4)) :=
  C165_bits 3 4 7 4 (by norm_num) (by norm_num) (1 / 3) (by norm_num) (by norm_num)

/-- The script: 3 bits, gain 4, 3 bits, gain 4, 8 bits, for the input 1/3. -/
example : WithinLsb (2 ^ 8 * (4 * (4 * (1 / 3) + (1 - 4 / 2 ^ 3) / 2) + (1 - 4 / 2 ^ 3) / 2))
    (rowTimes (pipeline3Dout 3 3 8 4 4 (1 / 3)) (unitSum (pipeline3Raw 3 3 8 4 4)) *
      ((2 ^ 3 - 1) * (2 ^ 8 * 4 * 4 / 2 ^ 3) + (2 ^ 3 - 1) * (2 ^ 8 * 4 / 2 ^ 3) + (2 ^ 8 - 1))) :=
  C164_three_stage 3 3 8 (by norm_num) 4 4 (by norm_num) (by norm_num) (by norm_num) (by norm_num) (1 / 3) (by norm_num) (by norm_num)

private theorem covered_cons (a : ℝ) (l : List ℝ) : RestCovers (a :: l) ↔ (l ≠ [] → a ≤ l.sum) ∧ RestCovers l := by
  constructor
  · intro h
    exact ⟨fun hne => h [] a l rfl hne, fun k c rest he hr => h (a :: k) c rest (by rw [he]; rfl) hr⟩
  · rintro ⟨h1, h2⟩ k c rest he hr
    cases k with
    | nil =>
      simp only [List.nil_append, List.cons.injEq] at he
      obtain ⟨rfl, rfl⟩ := he
      exact h1 hr
    | cons b k =>
      simp only [List.cons_append, List.cons.injEq] at he
      exact h2 k c rest he.2 hr

private theorem covered_nil : RestCovers [] := by
  intro l c rest he
  simp at he

/-- Capacitors 4, 1, 1: too large a step for the rest, so some input is more than half of the last capacitor off. -/
example : ¬ ∀ sig : ℝ, -1 < sig → sig ≤ 1 → ∃ nom, sarGenNominal [4, 1, 1] = some nom ∧
    (([4, 1, 1] : List ℝ).sum * sig + ([4, 1, 1] : List ℝ).sum - 1) / 2 ≤ rowTimes (sarGenDout [4, 1, 1] sig) nom ∧
      rowTimes (sarGenDout [4, 1, 1] sig) nom < (([4, 1, 1] : List ℝ).sum * sig + ([4, 1, 1] : List ℝ).sum) / 2 := by
  rw [C164_sar [4, 1, 1] 1 rfl (by simp)]
  simp only [covered_cons, covered_nil]
  norm_num
  simp

/-- The sub-radix-2 list of the script is an ideal quantizer of 2 · 1719 levels. -/
example (sig : ℝ) (h0 : -1 < sig) (h1 : sig ≤ 1) : ∃ nom, sarGenNominal [800, 440, 230, 122, 63, 32, 16, 8, 4, 2, 1, 1] = some nom ∧
    2 * rowTimes (sarGenDout [800, 440, 230, 122, 63, 32, 16, 8, 4, 2, 1, 1] sig) nom = ⌈1719 * sig + 1719 - 1⌉ := by
  have := C164_sar_exact [800, 440, 230, 122, 63, 32, 16, 8, 4, 2, 1, 1] rfl (by decide) (by simp only [List.map, covered_cons, covered_nil]; norm_num) sig h0 h1
  simpa using this

end Verif
