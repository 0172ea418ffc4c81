import Verif.Theorems.RampInl
import Mathlib.Algebra.Order.Floor.Ring
import Mathlib.Tactic.FieldSimp

/-!
# C67: how close the ramp histogram gets to the true INL and DNL

The record is produced by a converter with arbitrary transition levels `T` driven by a uniform ramp `v0 + j * δ`. The reported DNL and raw
INL are within two samples per code of the true values, and the INL error does not grow along the record.
-/

namespace Verif

open Model

variable {K : Type} [Field K] [LinearOrder K] [IsStrictOrderedRing K] [FloorRing K]

/-! ## Specification -/

/-- Average code width between transitions `a` and `b`. -/
def lsbSize (T : ℤ → K) (a b : ℤ) : K := (T b - T a) / ((b : K) - a)

/-- Width of code `c`, in average code widths, minus one. -/
def trueDnl (T : ℤ → K) (a b c : ℤ) : K := (T (c + 1) - T c) / lsbSize T a b - 1

/-- Distance of transition `c` from the straight line through transitions `a` and `b`, in average code widths. -/
def trueInl (T : ℤ → K) (a b c : ℤ) : K := (T c - T a) / lsbSize T a b - ((c : K) - a)

/-- `z` is the code sequence of a converter with transition levels `T` (code `c` starts at `T c`) for the ramp `v0 + j * δ`. -/
def IsRampRecord (T : ℤ → K) (v0 δ : K) (N : ℕ) (z : ℕ → ℤ) : Prop := ∀ j < N, ∀ c, z j < c ↔ v0 + j * δ < T c

/-! ## Auxiliary facts -/

/-- Samples below code `c`. -/
private def below (z : ℕ → ℤ) (N : ℕ) (c : ℤ) : ℕ := ((List.range N).filter fun j => z j < c).length

omit [LinearOrder K] [IsStrictOrderedRing K] [FloorRing K] in
private theorem count_below [CharZero K] [DecidableEq K] (z : ℕ → ℤ) (N : ℕ) (c : ℤ) :
    ((List.range N).map fun j => (z j : K)).count (c : K) + below z N c = below z N (c + 1) := by
  unfold below
  induction N with
  | zero => simp
  | succ n ih =>
    simp only [List.range_succ, List.map_append, List.count_append, List.filter_append, List.length_append, List.map_cons, List.map_nil]
    rcases lt_trichotomy (z n) c with h | h | h
    · have h1 : z n < c + 1 := by omega
      have h2 : (z n : K) ≠ c := by exact_mod_cast h.ne
      have hA : List.count (c : K) [(z n : K)] = 0 := by simp [h2]
      have hB : (List.filter (fun j => decide (z j < c)) [n]).length = 1 := by simp [h]
      have hC : (List.filter (fun j => decide (z j < c + 1)) [n]).length = 1 := by simp [h.le]
      rw [hA, hB, hC]
      omega
    · have h1 : z n < c + 1 := by omega
      have hA : List.count (c : K) [(z n : K)] = 1 := by simp [h]
      have hB : (List.filter (fun j => decide (z j < c)) [n]).length = 0 := by simp [h]
      have hC : (List.filter (fun j => decide (z j < c + 1)) [n]).length = 1 := by simp [h]
      rw [hA, hB, hC]
      omega
    · have h1 : ¬ z n < c + 1 := by omega
      have h2 : (z n : K) ≠ c := by exact_mod_cast h.ne'
      have hA : List.count (c : K) [(z n : K)] = 0 := by simp [h2]
      have hB : (List.filter (fun j => decide (z j < c)) [n]).length = 0 := by simp [h.le]
      have hC : (List.filter (fun j => decide (z j < c + 1)) [n]).length = 0 := by simp [h]
      rw [hA, hB, hC]
      omega

private theorem below_bounds (T : ℤ → K) (v0 δ : K) (hδ : 0 < δ) (N : ℕ) (z : ℕ → ℤ) (hz : IsRampRecord T v0 δ N z) (c : ℤ)
    (h0 : v0 ≤ T c) (h1 : T c ≤ v0 + N * δ) : (T c - v0) / δ ≤ below z N c ∧ (below z N c : K) < (T c - v0) / δ + 1 := by
  have hq : 0 ≤ (T c - v0) / δ := div_nonneg (by linarith) hδ.le
  have hle : ⌈(T c - v0) / δ⌉₊ ≤ N := by
    rw [Nat.ceil_le, div_le_iff₀ hδ]
    linarith
  have hb : below z N c = ⌈(T c - v0) / δ⌉₊ := by
    have key : ∀ j < N, (z j < c ↔ j < ⌈(T c - v0) / δ⌉₊) := by
      intro j hj
      rw [hz j hj, Nat.lt_ceil, lt_div_iff₀ hδ]
      constructor <;> intro h <;> linarith
    unfold below
    have : (List.range N).filter (fun j => decide (z j < c)) = List.range ⌈(T c - v0) / δ⌉₊ := by
      obtain ⟨d, rfl⟩ := Nat.exists_eq_add_of_le hle
      rw [List.range_add, List.filter_append, List.filter_eq_self.mpr, List.filter_eq_nil_iff.mpr, List.append_nil]
      · intro j hj
        obtain ⟨i, hi, rfl⟩ := List.mem_map.mp hj
        rw [decide_eq_true_eq, key _ (by have := List.mem_range.mp hi; omega)]
        omega
      · intro j hj
        have := List.mem_range.mp hj
        rw [decide_eq_true_eq, key _ (by omega)]
        exact this
    rw [this, List.length_range]
  rw [hb]
  exact ⟨Nat.le_ceil _, Nat.ceil_lt_add_one hq⟩

omit [FloorRing K] in
/-- A count within one of its ideal value, over an average count within `1 / m` of its ideal value. -/
private theorem ratio_close (m : ℕ) (hm : 0 < m) (x X n C : K) (hX : 0 < X) (hx0 : 0 ≤ x) (hxX : x ≤ X) (hC : 0 < C) (h1 : |n - x| < 1)
    (h2 : |C * m - X| < 1) : |n / C - x / (X / m)| < 2 / C := by
  have hmK : (0 : K) < m := by exact_mod_cast hm
  have e : n / C - x / (X / m) = ((n - x) - (C * m - X) * (x / X)) / C := by
    field_simp
    ring
  rw [e, abs_div, abs_of_pos hC, div_lt_div_iff_of_pos_right hC]
  have hr0 : 0 ≤ x / X := div_nonneg hx0 hX.le
  have hr1 : x / X ≤ 1 := (div_le_one hX).mpr hxX
  have h3 : |(C * m - X) * (x / X)| ≤ 1 := by
    rw [abs_mul, abs_of_nonneg hr0]
    exact mul_le_one₀ h2.le hr0 hr1
  have := abs_sub (n - x) ((C * m - X) * (x / X))
  linarith

/-! ## Theorem -/

/-- **C67.** For a uniform ramp through a converter with non-decreasing transition levels that covers the analysed codes, every reported DNL
and every raw INL value is within `2 / ideal_count` of the true value; the ideal count itself is the analysed part of the ramp over the number of analysed codes, to within one sample
over all of them. -/
theorem C67_ramp_accuracy (T : ℤ → K) (v0 δ : K) (hδ : 0 < δ) (N : ℕ) (z : ℕ → ℤ) (hz : IsRampRecord T v0 δ N z)
    (numBits : Option ℤ) (codeMin : ℤ) (codeMax : Option ℤ) (endpoint : Endpoint) (exclude : Bool) (r : RampInl K)
    (h : inlFromRamp ((List.range N).map fun j => (z j : K)) numBits codeMin codeMax endpoint exclude = .ok r)
    (a b : ℤ) (ha : a = firstCode codeMin r.codeMax exclude) (hb : b = lastCode codeMin r.codeMax exclude + 1)
    (hmono : ∀ c d, a ≤ c → c ≤ d → d ≤ b → T c ≤ T d) (hpos : T a < T b) (hlo : v0 ≤ T a) (hhi : T b ≤ v0 + N * δ) :
    (∀ i < r.dnl.length, |r.dnl.getD i 0 - trueDnl T a b (r.code.getD i 0)| < 2 / r.idealCount) ∧
    (∀ k < r.rawInl.length, |r.rawInl.getD k 0 - trueInl T a b (r.transitionCode.getD k 0)| < 2 / r.idealCount) ∧
    |r.idealCount * ((b : K) - a) - (T b - T a) / δ| < 1 := by
  obtain ⟨a', m, hm, _, ha', hb', hcl, _, hdl, hrl, _, htl, hid, hids, hcode, _, _, htr, _⟩ := C46_ramp_bookkeeping _ _ _ _ _ _ _ h
  obtain rfl : a' = a := by rw [ha, ha']
  have hbm : b = a' + m := by omega
  subst hbm
  have hbd : ∀ k ≤ m, (T (a' + k) - v0) / δ ≤ below z N (a' + k) ∧ (below z N (a' + k) : K) < (T (a' + k) - v0) / δ + 1 := by
    intro k hk
    apply below_bounds T v0 δ hδ N z hz
    · exact hlo.trans (hmono _ _ le_rfl (by omega) (by omega))
    · exact (hmono (a' + k) (a' + m) (by omega) (by omega) le_rfl).trans hhi
  have hcnt : ∀ i : ℕ, (((List.range N).map fun j => (z j : K)).count ((a' + i : ℤ) : K) : K) = below z N (a' + (i + 1 : ℕ)) - below z N (a' + i) := by
    intro i
    have := count_below (K := K) z N (a' + i)
    have h2 : a' + (i : ℤ) + 1 = a' + ((i + 1 : ℕ) : ℤ) := by push_cast; ring
    rw [h2] at this
    rw [← this]
    push_cast
    ring
  have hcum : ∀ k : ℕ, ∑ i ∈ Finset.range k, (((List.range N).map fun j => (z j : K)).count ((a' + i : ℤ) : K) : K) = below z N (a' + k) - below z N (a' + (0 : ℕ)) := by
    intro k
    simp only [hcnt]
    exact Finset.sum_range_sub (fun (i : ℕ) => (below z N (a' + (i : ℤ)) : K)) k
  have hX : 0 < (T (a' + m) - T a') / δ := div_pos (by linarith) hδ
  have hCm : |r.idealCount * m - (T (a' + m) - T a') / δ| < 1 := by
    rw [hids, hcum m]
    obtain ⟨h1, h2⟩ := hbd m le_rfl
    obtain ⟨h3, h4⟩ := hbd 0 (by omega)
    have e : (T (a' + m) - T a') / δ = (T (a' + m) - v0) / δ - (T (a' + (0 : ℕ)) - v0) / δ := by
      rw [Nat.cast_zero, add_zero]
      ring
    rw [e, abs_lt]
    constructor <;> linarith
  have hmK : (m : K) ≠ 0 := by exact_mod_cast hm.ne'
  have hlsb : ∀ y : K, y / lsbSize T a' (a' + m) = (y / δ) / ((T (a' + m) - T a') / δ / m) := by
    intro y
    unfold lsbSize
    have hd : T (a' + m) - T a' ≠ 0 := by linarith
    push_cast
    rw [add_sub_cancel_left]
    field_simp
  refine ⟨?_, ?_, ?_⟩
  · intro i hi
    rw [hdl] at hi
    obtain ⟨e1, _, e2, _⟩ := hcode i hi
    rw [e1, e2, hcnt]
    unfold trueDnl
    rw [hlsb, sub_sub_sub_cancel_right]
    obtain ⟨h1, h2⟩ := hbd (i + 1) (by omega)
    obtain ⟨h3, h4⟩ := hbd i (by omega)
    have h5 := hmono a' (a' + i) le_rfl (by omega) (by omega)
    have h6 := hmono (a' + i) (a' + (i + 1 : ℕ)) (by omega) (by omega) (by omega)
    have h7 := hmono (a' + (i + 1 : ℕ)) (a' + m) (by omega) (by omega) le_rfl
    have hidx : a' + (i : ℤ) + 1 = a' + ((i + 1 : ℕ) : ℤ) := by push_cast; ring
    rw [hidx]
    apply ratio_close m hm _ _ _ _ hX _ _ hid _ hCm
    · exact div_nonneg (by linarith) hδ.le
    · exact div_le_div_of_nonneg_right (by linarith) hδ.le
    · have e : (T (a' + (i + 1 : ℕ)) - T (a' + i)) / δ = (T (a' + (i + 1 : ℕ)) - v0) / δ - (T (a' + i) - v0) / δ := by ring
      rw [e, abs_lt]
      constructor <;> linarith
  · intro k hk
    rw [hrl] at hk
    obtain ⟨e1, e2⟩ := htr k (by omega)
    rw [e1, e2]
    have e3 : ∑ i ∈ Finset.range k, r.dnl.getD i 0 = (below z N (a' + k) - below z N (a' + (0 : ℕ)) : K) / r.idealCount - k := by
      rw [← hcum k, Finset.sum_div]
      rw [Finset.sum_congr rfl fun i hi => (hcode i (by have := Finset.mem_range.mp hi; omega)).2.2.1]
      rw [Finset.sum_sub_distrib]
      simp
    rw [e3]
    unfold trueInl
    rw [hlsb]
    push_cast
    rw [add_sub_cancel_left, sub_sub_sub_cancel_right]
    obtain ⟨h1, h2⟩ := hbd k (by omega)
    obtain ⟨h3, h4⟩ := hbd 0 (by omega)
    have h5 := hmono a' (a' + k) le_rfl (by omega) (by omega)
    have h7 := hmono (a' + k) (a' + m) (by omega) (by omega) le_rfl
    have e : (T (a' + k) - T a') / δ = (T (a' + k) - v0) / δ - (T (a' + (0 : ℕ)) - v0) / δ := by
      rw [Nat.cast_zero, add_zero]
      ring
    have hz0 : (a' : ℤ) + ((0 : ℕ) : ℤ) = a' + 0 := by simp
    apply ratio_close m hm _ _ _ _ hX _ _ hid _ hCm
    · exact div_nonneg (by linarith) hδ.le
    · exact div_le_div_of_nonneg_right (by linarith) hδ.le
    · rw [e, abs_lt, ← hz0]
      constructor <;> linarith
  · push_cast
    rw [add_sub_cancel_left]
    exact hCm

/-- A two-bit converter with uneven codes: transitions at 1, 5/2 and 3, samples every 1/4 from 0. -/
example : IsRampRecord (K := ℚ) (fun c => if c ≤ 0 then -1 else if c = 1 then 1 else if c = 2 then 5 / 2 else if c = 3 then 3 else 100) 0 (1 / 4) 16
      (fun j => if j < 4 then 0 else if j < 10 then 1 else if j < 12 then 2 else 3) ∧
    (inlFromRamp ((List.range 16).map fun j => (((if j < 4 then 0 else if j < 10 then 1 else if j < 12 then 2 else 3 : ℤ)) : ℚ)) (some 2) 0 none .endpoints true).toOption.map
      (fun r => (r.dnl, r.rawInl)) = some ([1 / 2, -1 / 2], [0, 1 / 2, 0]) := by
  refine ⟨?_, by decide +kernel⟩
  intro j hj c
  beta_reduce
  have hj' : (j : ℚ) ≤ 15 := by exact_mod_cast Nat.lt_succ_iff.mp hj
  have hj0 : (0 : ℚ) ≤ j := by positivity
  by_cases c0 : c ≤ 0
  · rw [if_pos c0]
    constructor
    · intro h; exfalso; split_ifs at h <;> omega
    · intro h; exfalso; linarith
  rw [if_neg c0]
  by_cases c1 : c = 1
  · subst c1
    rw [if_pos rfl]
    by_cases h4 : j < 4
    · have : (j : ℚ) + 1 ≤ 4 := by exact_mod_cast h4
      simp only [h4, if_true]
      constructor
      · intro _; linarith
      · intro _; omega
    · have : (4 : ℚ) ≤ j := by exact_mod_cast not_lt.mp h4
      simp only [h4, if_false]
      constructor
      · intro h; exfalso; split_ifs at h <;> omega
      · intro h; exfalso; linarith
  rw [if_neg c1]
  by_cases c2 : c = 2
  · subst c2
    rw [if_pos rfl]
    by_cases h10 : j < 10
    · have : (j : ℚ) + 1 ≤ 10 := by exact_mod_cast h10
      constructor
      · intro _; linarith
      · intro _; split_ifs <;> omega
    · have : (10 : ℚ) ≤ j := by exact_mod_cast not_lt.mp h10
      constructor
      · intro h; exfalso; split_ifs at h <;> omega
      · intro h; exfalso; linarith
  rw [if_neg c2]
  by_cases c3 : c = 3
  · subst c3
    rw [if_pos rfl]
    by_cases h12 : j < 12
    · have : (j : ℚ) + 1 ≤ 12 := by exact_mod_cast h12
      constructor
      · intro _; linarith
      · intro _; split_ifs <;> omega
    · have : (12 : ℚ) ≤ j := by exact_mod_cast not_lt.mp h12
      constructor
      · intro h; exfalso; split_ifs at h <;> omega
      · intro h; exfalso; linarith
  rw [if_neg c3]
  constructor
  · intro _; linarith
  · intro _; split_ifs <;> omega

end Verif
