import Verif.Model.Sar
import Verif.Spec.Sar
import Mathlib.Algebra.Order.BigOperators.Group.List
import Mathlib.Algebra.BigOperators.Ring.List
import Mathlib.Data.Nat.Bitwise
import Mathlib.Tactic.NormNum
import Mathlib.Tactic.Positivity

/-! Helper lemmas for the SAR model. -/

namespace Verif

open Model Spec

variable {K : Type} [Field K] [LinearOrder K] [IsStrictOrderedRing K]

/-- Noise-free trial list. -/
def quiet (ws : List K) : List (K × K) := ws.map fun w => (w, 0)

theorem sarLoop_length (x v : K) (l : List (K × K)) : (sarLoop x v l).length = l.length := by
  induction l generalizing v with
  | nil => rfl
  | cons p l ih => simp [sarLoop, ih]

theorem weighted_nonneg (bs : List Bool) (ws : List K) (h : ∀ w ∈ ws, 0 ≤ w) : 0 ≤ weighted bs ws := by
  induction bs generalizing ws with
  | nil => cases ws <;> simp [weighted]
  | cons b bs ih =>
    cases ws with
    | nil => simp [weighted]
    | cons w ws =>
      have h1 := h w (by simp)
      have h2 := ih ws (fun y hy => h y (by simp [hy]))
      unfold weighted; split_ifs <;> linarith

theorem weighted_le_sum (bs : List Bool) (ws : List K) (h : ∀ w ∈ ws, 0 ≤ w) : weighted bs ws ≤ ws.sum := by
  induction bs generalizing ws with
  | nil => cases ws with
    | nil => simp [weighted]
    | cons w ws => simpa [weighted] using List.sum_nonneg h
  | cons b bs ih =>
    cases ws with
    | nil => simp [weighted]
    | cons w ws =>
      have h1 := h w (by simp)
      have h2 := ih ws (fun y hy => h y (by simp [hy]))
      unfold weighted; rw [List.sum_cons]; split_ifs <;> linarith

theorem pyDot_bits (bs : List Bool) (ws : List K) (h : bs.length = ws.length) :
    pyDot (bs.map bitVal) ws = .ok (weighted bs ws) := by
  unfold pyDot
  rw [if_pos (by simpa using h)]
  congr 1
  induction bs generalizing ws with
  | nil => cases ws <;> simp [weighted]
  | cons b bs ih =>
    cases ws with
    | nil => simp at h
    | cons w ws =>
      have := ih ws (by simpa using h)
      simp only [List.map_cons, List.zipWith_cons_cons, List.sum_cons, this, weighted]
      cases b <;> simp [bitVal]

/-- The trial loop depends only on the residue `x - v`. -/
theorem sarLoop_shift (x v : K) (l : List (K × K)) : sarLoop x v l = sarLoop (x - v) 0 l := by
  induction l generalizing x v with
  | nil => rfl
  | cons p l ih =>
    obtain ⟨w, e⟩ := p
    simp only [sarLoop, zero_add]
    have hb : decide (x + e ≥ v + w) = decide (x - v + e ≥ w) := by
      apply decide_eq_decide.mpr; constructor <;> intro h <;> linarith
    rw [hb]
    congr 1
    rw [ih, ih (x - v)]
    congr 1
    split_ifs <;> ring

theorem sarLoop_scale (x c : K) (hc : 0 < c) (l : List (K × K)) :
    sarLoop x 0 l = sarLoop (x * c) 0 (l.map fun p => (p.1 * c, p.2 * c)) := by
  induction l generalizing x with
  | nil => rfl
  | cons p l ih =>
    obtain ⟨w, e⟩ := p
    simp only [sarLoop, zero_add, List.map_cons]
    have hb : decide (x + e ≥ w) = decide (x * c + e * c ≥ w * c) := by
      apply decide_eq_decide.mpr
      rw [← add_mul]
      exact (mul_le_mul_iff_left₀ hc).symm
    rw [hb]
    congr 1
    rw [sarLoop_shift, ih, sarLoop_shift (x * c)]
    congr 1
    split_ifs <;> ring

/-- Value reconstructed by the noise-free loop from residue `r`. -/
def gval (r : K) (ws : List K) : K := weighted (sarLoop r 0 (quiet ws)) ws

theorem gval_nil (r : K) : gval r [] = 0 := rfl

theorem gval_cons (r w : K) (ws : List K) :
    gval r (w :: ws) = if w ≤ r then w + gval (r - w) ws else gval r ws := by
  unfold gval quiet
  simp only [List.map_cons, sarLoop, zero_add, add_zero, weighted]
  split_ifs with h1 h2 h2
  · rw [sarLoop_shift]
  · exact absurd (of_decide_eq_true h1) h2
  · exact absurd (decide_eq_true h2) h1
  · simp [h2]

theorem gval_nonneg (r : K) (ws : List K) (h : ∀ w ∈ ws, 0 ≤ w) : 0 ≤ gval r ws :=
  weighted_nonneg _ _ h

theorem gval_le_max (r : K) (ws : List K) (h : ∀ w ∈ ws, 0 ≤ w) : gval r ws ≤ max r 0 := by
  induction ws generalizing r with
  | nil => rw [gval_nil]; exact le_max_right _ _
  | cons w ws ih =>
    have hw := h w (by simp)
    have ht : ∀ y ∈ ws, 0 ≤ y := fun y hy => h y (by simp [hy])
    rw [gval_cons]
    split_ifs with hr
    · have := ih (r - w) ht
      rw [max_eq_left (by linarith)] at this
      exact le_trans (by linarith) (le_max_left _ _)
    · exact ih r ht

theorem gval_mono (ws : List K) (h : ∀ w ∈ ws, 0 ≤ w) {r s : K} (hrs : r ≤ s) : gval r ws ≤ gval s ws := by
  induction ws generalizing r s with
  | nil => simp [gval_nil]
  | cons w ws ih =>
    have hw := h w (by simp)
    have ht : ∀ y ∈ ws, 0 ≤ y := fun y hy => h y (by simp [hy])
    rw [gval_cons, gval_cons]
    split_ifs with h1 h2 h2
    · have := ih ht (r := r - w) (s := s - w) (by linarith); linarith
    · linarith
    · have h3 := gval_le_max r ws ht
      have h4 := gval_nonneg (s - w) ws ht
      have h5 : max r 0 ≤ w := max_le (by linarith) hw
      linarith
    · exact ih ht hrs

theorem gval_residue (eps : K) (ws : List K) (hc : Covered eps ws) (r : K) (h0 : 0 ≤ r)
    (h1 : r < ws.sum + eps) : 0 ≤ r - gval r ws ∧ r - gval r ws < eps := by
  induction ws generalizing r with
  | nil => rw [gval_nil]; simp at h1; constructor <;> linarith
  | cons w ws ih =>
    rw [List.sum_cons] at h1
    obtain ⟨hw, hcs⟩ := hc
    rw [gval_cons]
    split_ifs with hr
    · have := ih hcs (r - w) (by linarith) (by linarith)
      constructor <;> linarith [this.1, this.2]
    · exact ih hcs r h0 (by linarith)

/-- With noise: lower bound on the residue from the largest upward noise, upper bound from the margins. -/
theorem noisy_residue (eps E : K) (ws es : List K) (hl : es.length = ws.length)
    (hmargin : CoveredNoisy eps ws es) (hup : ∀ e ∈ es, e ≤ E) (r : K) (h0 : -E ≤ r) (h1 : r < ws.sum + eps) :
    -E ≤ r - weighted (sarLoop r 0 (ws.zip es)) ws ∧ r - weighted (sarLoop r 0 (ws.zip es)) ws < eps := by
  induction ws generalizing r es with
  | nil => simp [sarLoop, weighted] at *; constructor <;> linarith
  | cons w ws ih =>
    cases es with
    | nil => simp at hl
    | cons e es =>
      obtain ⟨hm, hrest⟩ := hmargin
      have hu := hup e (by simp)
      rw [List.sum_cons] at h1
      simp only [sarLoop, zero_add, List.zip_cons_cons, weighted]
      have ih' := ih es (by simpa using hl) hrest (fun q hq => hup q (by simp [hq]))
      by_cases hb : r + e ≥ w
      · have := ih' (r - w) (by linarith) (by linarith)
        simp only [hb, decide_true, if_true]
        rw [sarLoop_shift]
        constructor <;> linarith [this.1, this.2]
      · have := ih' r h0 (by linarith)
        simp only [hb, decide_false, Bool.false_eq_true, if_false, zero_add]
        exact this

theorem gval_all (eps : K) (h0 : 0 ≤ eps) (ws : List K) (h : ∀ w ∈ ws, 0 ≤ w) :
    gval (ws.sum + eps) ws = ws.sum := by
  induction ws with
  | nil => simp [gval_nil]
  | cons w ws ih =>
    have hs : 0 ≤ ws.sum := List.sum_nonneg fun y hy => h y (by simp [hy])
    rw [gval_cons, List.sum_cons, if_pos (by linarith), show w + ws.sum + eps - w = ws.sum + eps by ring,
      ih fun y hy => h y (by simp [hy])]

theorem gval_uncovered (eps : K) (h0 : 0 ≤ eps) (ws : List K) (h : ∀ w ∈ ws, 0 ≤ w) (hc : ¬ Covered eps ws) :
    ∃ r, 0 ≤ r ∧ r < ws.sum + eps ∧ eps ≤ r - gval r ws := by
  induction ws with
  | nil => exact absurd trivial hc
  | cons w ws ih =>
    have hw := h w (by simp)
    have ht : ∀ y ∈ ws, 0 ≤ y := fun y hy => h y (by simp [hy])
    have hs : 0 ≤ ws.sum := List.sum_nonneg ht
    by_cases hcw : w ≤ ws.sum + eps
    · obtain ⟨r, hr0, hr1, hr2⟩ := ih ht (fun hh => hc ⟨hcw, hh⟩)
      refine ⟨r + w, by linarith, by rw [List.sum_cons]; linarith, ?_⟩
      rw [gval_cons, if_pos (by linarith), show r + w - w = r by ring]
      linarith
    · refine ⟨ws.sum + eps, by linarith, by rw [List.sum_cons]; linarith [not_le.mp hcw], ?_⟩
      rw [gval_cons, if_neg hcw, gval_all eps h0 ws ht]
      linarith

/-! ### Python indexing -/

theorem pyGet_nat {α : Type} (l : List α) (j : ℕ) (h : j < l.length) : pyGet l (j : ℤ) = .ok l[j] := by
  unfold pyGet
  have hj : ¬ (j : ℤ) < 0 := by omega
  simp only [hj, if_false, Int.toNat_natCast, List.getElem?_eq_getElem h]

theorem pyGet_neg {α : Type} (l : List α) (r : ℤ) (hr : r < 0) (h : -(l.length : ℤ) ≤ r) :
    pyGet l r = pyGet l (r + l.length) := by
  unfold pyGet
  simp only [hr, if_true]
  have hj : ¬ r + (l.length : ℤ) < 0 := by omega
  simp only [hj, if_false]

theorem pyGet_error {α : Type} (l : List α) (r : ℤ) (h : r < -(l.length : ℤ) ∨ (l.length : ℤ) ≤ r) :
    pyGet l r = .error .indexError := by
  unfold pyGet
  rcases h with h | h
  · rw [if_pos (by omega : r < 0)]
    simp only
    rw [if_pos (by omega)]
  · rw [if_neg (by omega : ¬ r < 0)]
    simp only
    rw [if_neg (by omega), List.getElem?_eq_none (by omega)]

/-- `l.insert(r+1, l[r])` for an index other than `-1` duplicates the element in place. -/
theorem pyInsert_dup {α : Type} (l : List α) (r : ℤ) (h1 : -(l.length : ℤ) ≤ r) (h2 : r < l.length) (hne : r ≠ -1) :
    ∃ a x b, l = a ++ x :: b ∧ (a.length : ℤ) = (if r < 0 then r + l.length else r) ∧
      pyGet l r = .ok x ∧ pyInsert l (r + 1) x = a ++ x :: x :: b := by
  obtain ⟨j, hj⟩ : ∃ j : ℕ, (j : ℤ) = if r < 0 then r + l.length else r :=
    ⟨(if r < 0 then r + l.length else r).toNat, by split_ifs <;> omega⟩
  have hjl : j < l.length := by split_ifs at hj <;> omega
  have hsplit : l = l.take j ++ l[j] :: l.drop (j + 1) := by
    rw [← List.drop_eq_getElem_cons hjl, List.take_append_drop]
  refine ⟨l.take j, l[j], l.drop (j + 1), hsplit, ?_, ?_, ?_⟩
  · rw [← hj]; simp; omega
  · split_ifs at hj with hr
    · rw [pyGet_neg l r hr h1, ← hj, pyGet_nat l j hjl]
    · rw [← hj, pyGet_nat l j hjl]
  · unfold pyInsert
    have hk : min (if r + 1 < 0 then r + 1 + (l.length : ℤ) else r + 1).toNat l.length = j + 1 := by
      split_ifs at hj ⊢ <;> omega
    simp only [hk]
    have h1 : l.take (j + 1) = l.take j ++ [l[j]] := List.take_succ_eq_append_getElem hjl
    rw [h1, List.append_assoc]; rfl

theorem pyInsert_neg_one {α : Type} (l : List α) (x : α) : pyInsert l (-1 + 1) x = x :: l := by
  simp [pyInsert]

theorem zip_zero (ws : List K) (fs : K) :
    ws.zip ((ws.map fun _ => (0 : K)).map (· / fs)) = quiet ws := by
  unfold quiet
  induction ws with
  | nil => rfl
  | cons w ws ih => simpa using ih

theorem parseQuantRange_ok (vmin vmax : K) (h : vmin < vmax) :
    parseQuantRange [vmin, vmax] = .ok (vmin, vmax) := by
  show (if vmax ≤ vmin then Except.error PyErr.valueError else Except.ok (vmin, vmax)) = _
  rw [if_neg (not_le.mpr h)]

theorem convertIdeal_eq (vin : K) (ws : List K) (vmin vmax : K) (h : vmin < vmax) :
    sarConvertIdeal vin ws [vmin, vmax] = .ok (sarLoop ((vin - vmin) / (vmax - vmin)) 0 (quiet ws)) := by
  unfold sarConvertIdeal sarConvert
  rw [parseQuantRange_ok vmin vmax h]
  simp only [bind, Except.bind, pure, Except.pure, zip_zero, add_zero]

theorem reconstruct_eq (codes : List Bool) (ws : List K) (vmin vmax : K) (h : vmin < vmax)
    (hl : codes.length = ws.length) :
    sarReconstruct codes ws [vmin, vmax] = .ok (weighted codes ws * (vmax - vmin) + vmin) := by
  unfold sarReconstruct
  rw [parseQuantRange_ok vmin vmax h]
  simp only [bind, Except.bind, pure, Except.pure, pyDot_bits codes ws hl]

/-! ### binary weights -/

/-- `[2^(n-1), …, 2, 1]` built recursively. -/
def pow2List : ℕ → List K
  | 0 => []
  | n + 1 => (2 : K) ^ n :: pow2List n

omit [LinearOrder K] [IsStrictOrderedRing K] in
theorem pow2List_eq (n : ℕ) : (List.range n).map (fun i => (2 : K) ^ (n - 1 - i)) = pow2List n := by
  induction n with
  | zero => rfl
  | succ n ih =>
    rw [List.range_succ_eq_map, List.map_cons, List.map_map, pow2List, ← ih]
    congr 1
    apply List.map_congr_left
    intro i hi
    simp only [Function.comp]
    congr 1
    omega

omit [LinearOrder K] [IsStrictOrderedRing K] in
theorem pow2List_sum (n : ℕ) : (pow2List n : List K).sum = 2 ^ n - 1 := by
  induction n with
  | zero => simp [pow2List]
  | succ n ih => simp [pow2List, ih]; ring

omit [LinearOrder K] [IsStrictOrderedRing K] in
theorem pow2List_length (n : ℕ) : (pow2List n : List K).length = n := by
  induction n with
  | zero => rfl
  | succ n ih => simp [pow2List, ih]

theorem pow2List_pos (n : ℕ) : ∀ w ∈ (pow2List n : List K), 0 < w := by
  induction n with
  | zero => simp [pow2List]
  | succ n ih =>
    intro w hw
    simp only [pow2List, List.mem_cons] at hw
    rcases hw with rfl | hw
    · positivity
    · exact ih w hw

theorem pow2List_le (n : ℕ) : ∀ w ∈ (pow2List n : List K), 2 * w ≤ 2 ^ n := by
  induction n with
  | zero => simp [pow2List]
  | succ n ih =>
    intro w hw
    simp only [pow2List, List.mem_cons] at hw
    have hp : (0 : K) < 2 ^ n := by positivity
    rcases hw with rfl | hw
    · rw [pow_succ]; linarith
    · have := ih w hw; rw [pow_succ]; linarith

theorem pow2List_sorted (n : ℕ) : (pow2List n : List K).Pairwise (· ≥ ·) := by
  induction n with
  | zero => simp [pow2List]
  | succ n ih =>
    rw [pow2List, List.pairwise_cons]
    refine ⟨fun w hw => ?_, ih⟩
    have h1 := pow2List_le n w hw
    have h2 := pow2List_pos n w hw
    linarith

omit [LinearOrder K] [IsStrictOrderedRing K] in
theorem pow2List_last (n : ℕ) (h : n ≠ 0) : ∃ l, (pow2List n : List K) = l ++ [1] := by
  induction n with
  | zero => exact absurd rfl h
  | succ n ih =>
    by_cases hn : n = 0
    · subst hn; exact ⟨[], by simp [pow2List]⟩
    · obtain ⟨l, hl⟩ := ih hn
      exact ⟨2 ^ n :: l, by rw [pow2List, hl]; rfl⟩

variable [FloorRing K]

/-- The greedy loop on `[2^(n-1), …, 1]` yields the binary expansion of the clamped floor. -/
theorem sarLoop_pow2 (n : ℕ) (y : K) :
    sarLoop y 0 (quiet (pow2List n)) = bitsMSB n (max 0 (min ⌊y⌋ (2 ^ n - 1))).toNat := by
  induction n generalizing y with
  | zero => rfl
  | succ n ih =>
    have hbits : ∀ k : ℕ, bitsMSB (n + 1) k = k.testBit n :: bitsMSB n k := by
      intro k
      unfold bitsMSB
      rw [List.range_succ_eq_map, List.map_cons, List.map_map]
      congr 1
      apply List.map_congr_left
      intro i hi
      simp only [Function.comp]
      congr 1
      omega
    have hlow : ∀ k : ℕ, bitsMSB n (2 ^ n + k) = bitsMSB n k := by
      intro k
      unfold bitsMSB
      apply List.map_congr_left
      intro i hi
      rw [List.mem_range] at hi
      exact Nat.testBit_two_pow_add_gt (by omega) k
    have hp : (2 : ℤ) ^ (n + 1) = 2 ^ n + 2 ^ n := by ring
    have hpos : (0 : ℤ) < 2 ^ n := by positivity
    have hN : ((2 ^ n : ℕ) : ℤ) = 2 ^ n := by push_cast; ring
    simp only [pow2List, quiet, List.map_cons, sarLoop, zero_add, add_zero]
    rw [hbits]
    by_cases hb : (2 : K) ^ n ≤ y
    · have hf : (2 : ℤ) ^ n ≤ ⌊y⌋ := by
        apply Int.le_floor.mpr; push_cast; exact hb
      have hfl : ⌊y - 2 ^ n⌋ = ⌊y⌋ - 2 ^ n := by
        have : y - 2 ^ n = y - ((2 ^ n : ℤ) : K) := by push_cast; ring
        rw [this, Int.floor_sub_intCast]
      have hk : (max 0 (min ⌊y⌋ (2 ^ (n + 1) - 1))).toNat
          = 2 ^ n + (max 0 (min ⌊y - 2 ^ n⌋ (2 ^ n - 1))).toNat := by
        rw [hfl]; omega
      have hlt : (max 0 (min ⌊y - 2 ^ n⌋ (2 ^ n - 1))).toNat < 2 ^ n := by omega
      simp only [hb, ge_iff_le, decide_true, if_true]
      rw [sarLoop_shift, show List.map (fun w : K => (w, (0 : K))) (pow2List n) = quiet (pow2List n) from rfl,
        ih, hk, hlow, Nat.testBit_two_pow_add_eq]
      rw [Nat.testBit_lt_two_pow hlt]; rfl
    · have hf : ⌊y⌋ < 2 ^ n := by
        apply Int.floor_lt.mpr; push_cast; exact not_le.mp hb
      have hk : (max 0 (min ⌊y⌋ (2 ^ (n + 1) - 1))).toNat = (max 0 (min ⌊y⌋ (2 ^ n - 1))).toNat := by omega
      have hlt : (max 0 (min ⌊y⌋ (2 ^ n - 1))).toNat < 2 ^ n := by omega
      simp only [hb, ge_iff_le, decide_false, Bool.false_eq_true, if_false]
      rw [show List.map (fun w : K => (w, (0 : K))) (pow2List n) = quiet (pow2List n) from rfl, ih, hk,
        Nat.testBit_lt_two_pow hlt]

omit [LinearOrder K] [IsStrictOrderedRing K] [FloorRing K] in
theorem weighted_bits_pow2 (n k : ℕ) (hk : k < 2 ^ n) : weighted (bitsMSB n k) (pow2List n : List K) = k := by
  induction n generalizing k with
  | zero =>
    have : k = 0 := by simpa using hk
    subst this; simp [bitsMSB, weighted]
  | succ n ih =>
    have hbits : bitsMSB (n + 1) k = k.testBit n :: bitsMSB n k := by
      unfold bitsMSB
      rw [List.range_succ_eq_map, List.map_cons, List.map_map]
      congr 1
      apply List.map_congr_left
      intro i hi
      simp only [Function.comp]
      congr 1
      omega
    rw [hbits, pow2List, weighted]
    by_cases h : k < 2 ^ n
    · rw [Nat.testBit_lt_two_pow h]; simp [ih k h]
    · obtain ⟨m, rfl⟩ := Nat.exists_eq_add_of_le (not_lt.mp h)
      have hm : m < 2 ^ n := by rw [pow_succ] at hk; omega
      have hlow : bitsMSB n (2 ^ n + m) = bitsMSB n m := by
        unfold bitsMSB
        apply List.map_congr_left
        intro i hi
        rw [List.mem_range] at hi
        exact Nat.testBit_two_pow_add_gt (by omega) m
      rw [hlow, ih m hm, Nat.testBit_two_pow_add_eq, Nat.testBit_lt_two_pow hm]
      simp

end Verif
