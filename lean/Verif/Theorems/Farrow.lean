import Verif.Theorems.Interleave
import Mathlib.Data.Rat.Floor

/-!
# C21: Farrow (Lagrange) fractional delay
-/

namespace Verif

open Model Spec Finset

variable {K : Type} [Field K] [LinearOrder K] [IsStrictOrderedRing K]

omit [LinearOrder K] [IsStrictOrderedRing K] in
private theorem tap_eq_prod (n : ℕ) (p : K) (i : ℕ) :
    lagrangeTap n p i = ∏ j ∈ (range n).erase i, ((p - j) / ((i : K) - j)) := by
  have h1 : lagrangeTap n p i = ∏ j ∈ range n, if j ≠ i then (p - j) / ((i : K) - j) else 1 := by
    unfold lagrangeTap
    induction n with
    | zero => simp
    | succ n ih =>
      rw [List.range_succ, List.foldl_append, ih, Finset.prod_range_succ]
      simp only [List.foldl_cons, List.foldl_nil]
      split_ifs <;> simp
  rw [h1, Finset.prod_ite]
  simp only [prod_const_one, mul_one]
  apply prod_congr _ (fun _ _ => rfl)
  ext j; simp [and_comm]

private theorem cast_injOn (n : ℕ) : Set.InjOn (fun j : ℕ => (j : K)) (range n : Set ℕ) := by
  intro a _ b _ h
  exact Nat.cast_injective h

private theorem tap_eq_basis (n : ℕ) (p : K) (i : ℕ) :
    lagrangeTap n p i = (Lagrange.basis (range n) (fun j : ℕ => (j : K)) i).eval p := by
  rw [tap_eq_prod, Lagrange.basis, Polynomial.eval_prod]
  apply prod_congr rfl
  intro j hj
  have hne : (i : K) - j ≠ 0 := by
    rw [sub_ne_zero]
    have := (mem_erase.mp hj).1
    exact_mod_cast this.symm
  rw [Lagrange.basisDivisor]
  simp
  field_simp

/-- **C21 (taps).** The Lagrange taps interpolate every polynomial of degree below the number of taps exactly;
in particular they sum to one. -/
theorem C21_taps_interpolate (n : ℕ) (p : K) (q : Polynomial K) (hq : q.degree < n) :
    ∑ i ∈ range n, lagrangeTap n p i * q.eval (i : K) = q.eval p := by
  have h := Lagrange.eq_interpolate (s := range n) (cast_injOn (K := K) n) (f := q) (by simpa using hq)
  conv_rhs => rw [h]
  rw [Lagrange.interpolate_apply, Polynomial.eval_finsetSum]
  apply sum_congr rfl
  intro i _
  rw [tap_eq_basis]
  simp [mul_comm]

theorem C21_taps_sum_one (n : ℕ) (hn : n ≠ 0) (p : K) : ∑ i ∈ range n, lagrangeTap n p i = 1 := by
  have := C21_taps_interpolate n p 1 (by rw [Polynomial.degree_one]; exact_mod_cast Nat.pos_of_ne_zero hn)
  simpa using this

omit [LinearOrder K] [IsStrictOrderedRing K] in
private theorem convFull_eq (a b : List K) (k : ℕ) :
    convFull a b k = ∑ j ∈ range b.length, b.getD j 0 * at0 a ((k : ℤ) - j) := by
  have h1 : convFull a b k = ∑ i ∈ range (k + 1), a.getD i 0 * b.getD (k - i) 0 := by
    unfold convFull
    induction k + 1 with
    | zero => simp
    | succ n ih =>
      rw [List.range_succ, List.map_append, List.sum_append, ih, Finset.sum_range_succ]
      simp
  rw [h1, ← Finset.sum_range_reflect]
  have h2 : ∀ j ∈ range (k + 1), a.getD (k + 1 - 1 - j) 0 * b.getD (k - (k + 1 - 1 - j)) 0
      = b.getD j 0 * at0 a ((k : ℤ) - j) := by
    intro j hj
    rw [mem_range] at hj
    have e1 : k - (k + 1 - 1 - j) = j := by omega
    rw [e1]
    unfold at0
    rw [if_neg (by omega)]
    have e2 : ((k : ℤ) - j).toNat = k + 1 - 1 - j := by omega
    rw [e2, mul_comm]
  rw [sum_congr rfl h2]
  have hA : ∑ j ∈ range (k + 1), b.getD j 0 * at0 a ((k : ℤ) - j)
      = ∑ j ∈ range (max (k + 1) b.length), b.getD j 0 * at0 a ((k : ℤ) - j) := by
    apply sum_subset
    · intro j; simp only [mem_range]; omega
    · intro j _ hj
      simp only [mem_range] at hj
      unfold at0
      rw [if_pos (by omega), mul_zero]
  have hB : ∑ j ∈ range b.length, b.getD j 0 * at0 a ((k : ℤ) - j)
      = ∑ j ∈ range (max (k + 1) b.length), b.getD j 0 * at0 a ((k : ℤ) - j) := by
    apply sum_subset
    · intro j; simp only [mem_range]; omega
    · intro j _ hj
      simp only [mem_range] at hj
      rw [List.getD_eq_getElem?_getD, List.getElem?_eq_none (by omega), Option.getD_none, zero_mul]
  rw [hA, hB]

omit [LinearOrder K] [IsStrictOrderedRing K] in
private theorem shift_length (x : List K) (D : ℤ) : (integerShift x D).length = x.length := by
  unfold integerShift
  split_ifs <;> simp <;> omega

omit [LinearOrder K] [IsStrictOrderedRing K] in
private theorem shift_at0 (x : List K) (D t : ℤ) (h0 : 0 ≤ t) (h1 : t < x.length) :
    at0 (integerShift x D) t = at0 x (t - D) := by
  obtain ⟨n, rfl⟩ : ∃ n : ℕ, t = n := ⟨t.toNat, by omega⟩
  have hn : n < x.length := by omega
  unfold at0 integerShift
  rw [if_neg (by omega : ¬ (n : ℤ) < 0)]
  simp only [Int.toNat_natCast, List.getD_eq_getElem?_getD]
  by_cases hD : D = 0
  · subst hD
    rw [if_pos rfl, if_neg (by omega)]
    have : ((n : ℤ) - 0).toNat = n := by omega
    rw [this]
  · rw [if_neg hD]
    by_cases hDp : D > 0
    · rw [if_pos hDp]
      by_cases hlt : (n : ℤ) - D < 0
      · rw [if_pos hlt, List.getElem?_append_left (by simp; omega), List.getElem?_replicate]
        split_ifs <;> rfl
      · rw [if_neg hlt, List.getElem?_append_right (by simp; omega)]
        simp only [List.length_replicate]
        rw [List.getElem?_take, if_pos (by omega)]
        congr 2; omega
    · rw [if_neg hDp, if_neg (by omega)]
      by_cases hlt : n < x.length - (-D).toNat
      · rw [List.getElem?_append_left (by simpa using hlt), List.getElem?_drop]
        congr 2; omega
      · rw [List.getElem?_append_right (by simpa using hlt), List.getElem?_replicate]
        rw [List.getElem?_eq_none (by omega)]
        split_ifs <;> rfl

/-- Output sample of the Farrow filter in terms of the zero-extended input, for a record at least as long as the filter. -/
private theorem farrow_eq [FloorRing K] (x : List K) (delay fs : K) (P : ℕ) (hlen : 2 * P + 1 ≤ x.length) :
    ∃ y, farrowDelay 1 x delay fs ((2 * P + 1 : ℕ) : ℤ) = .ok y ∧ y.length = x.length ∧
      ∀ t : ℕ, t < x.length → y.getD t 0 = ∑ i ∈ range (2 * P + 1),
        lagrangeTap (2 * P + 1) (P + (delay * fs - rint (delay * fs))) i *
          at0 (integerShift x (rint (delay * fs))) ((t : ℤ) + P - i) := by
  have hP : (2 * P + 1) / 2 = P := by omega
  unfold farrowDelay
  rw [if_neg (by omega), if_neg (by simp)]
  simp only [Int.toNat_natCast, hP]
  unfold convolveSame
  have hl1 := shift_length x (rint (delay * fs))
  have hl2 : (lagrangeTaps (2 * P + 1) ((P : K) + (delay * fs - rint (delay * fs)))).length = 2 * P + 1 := by
    simp [lagrangeTaps]
  rw [if_neg (by rw [hl1, hl2]; omega), hl1, hl2, max_eq_left hlen, min_eq_right hlen]
  refine ⟨_, rfl, by simp, ?_⟩
  intro t ht
  rw [List.getD_eq_getElem?_getD, List.getElem?_map, List.getElem?_eq_getElem (by simpa using ht)]
  simp only [List.getElem_range, Option.map_some, Option.getD_some]
  rw [convFull_eq, hl2]
  apply sum_congr rfl
  intro i hi
  rw [mem_range] at hi
  have e1 : (lagrangeTaps (2 * P + 1) ((P : K) + (delay * fs - rint (delay * fs)))).getD i 0
      = lagrangeTap (2 * P + 1) ((P : K) + (delay * fs - rint (delay * fs))) i := by
    rw [List.getD_eq_getElem?_getD, List.getElem?_eq_getElem (by rw [hl2]; exact hi)]
    simp [lagrangeTaps]
  rw [e1]
  congr 2
  omega

/-- **C21 (integer delays).** A delay of a whole number of samples is exactly a zero-padded shift, for every record at
least as long as the filter and every odd number of taps. -/
theorem C21_integer_delay_exact [FloorRing K] (x : List K) (delay fs : K) (P : ℕ) (hlen : 2 * P + 1 ≤ x.length)
    (D : ℤ) (hD : delay * fs = D) :
    ∃ y, farrowDelay 1 x delay fs ((2 * P + 1 : ℕ) : ℤ) = .ok y ∧ y.length = x.length ∧
      ∀ t : ℕ, t < x.length → y.getD t 0 = at0 x ((t : ℤ) - D) := by
  obtain ⟨y, hy, hl, hv⟩ := farrow_eq x delay fs P hlen
  refine ⟨y, hy, hl, fun t ht => ?_⟩
  rw [hv t ht, hD, rint_intCast]
  rw [Finset.sum_eq_single P]
  · have h1 : lagrangeTap (2 * P + 1) ((P : K) + (D - D)) P = 1 := by
      rw [tap_eq_prod]
      apply prod_eq_one
      intro j hj
      have hne : (P : K) - j ≠ 0 := by
        rw [sub_ne_zero]
        have := (mem_erase.mp hj).1
        exact_mod_cast this.symm
      rw [sub_self, add_zero, div_self hne]
    rw [h1, one_mul]
    have : (t : ℤ) + P - P = t := by omega
    rw [this, shift_at0 x D t (by omega) (by omega)]
  · intro i hi hne
    have h0 : lagrangeTap (2 * P + 1) ((P : K) + (D - D)) i = 0 := by
      rw [tap_eq_prod]
      apply prod_eq_zero (i := P)
      · rw [mem_erase, mem_range]; exact ⟨Ne.symm hne, by omega⟩
      · simp
    rw [h0, zero_mul]
  · intro h; exact absurd (mem_range.mpr (by omega)) h

/-- **C21 (polynomials).** Away from the edges, a record sampled from any polynomial of degree below the number of taps
is delayed exactly, for every real delay. -/
theorem C21_polynomial_delay_exact [FloorRing K] (x : List K) (delay fs : K) (P : ℕ) (hlen : 2 * P + 1 ≤ x.length)
    (q : Polynomial K) (hq : q.degree < (2 * P + 1 : ℕ)) (hx : ∀ n : ℕ, n < x.length → x.getD n 0 = q.eval (n : K)) :
    ∃ y, farrowDelay 1 x delay fs ((2 * P + 1 : ℕ) : ℤ) = .ok y ∧ y.length = x.length ∧
      ∀ t : ℕ, P ≤ t → t + P < x.length → 0 ≤ (t : ℤ) - P - rint (delay * fs) →
        (t : ℤ) + P - rint (delay * fs) < x.length → y.getD t 0 = q.eval ((t : K) - delay * fs) := by
  obtain ⟨y, hy, hl, hv⟩ := farrow_eq x delay fs P hlen
  refine ⟨y, hy, hl, fun t h1 h2 h3 h4 => ?_⟩
  rw [hv t (by omega)]
  set R := rint (delay * fs) with hR
  -- the reversed, shifted polynomial
  let q' : Polynomial K := q.comp (Polynomial.C ((t : K) + P - R) - Polynomial.X)
  have hev : ∀ z : K, q'.eval z = q.eval ((t : K) + P - R - z) := by intro z; simp [q']
  have hdeg : q'.degree < (2 * P + 1 : ℕ) := by
    by_cases hq0 : q = 0
    · have : q' = 0 := by simp [q', hq0]
      rw [this, Polynomial.degree_zero]
      exact WithBot.bot_lt_coe _
    · have hnd : q'.natDegree ≤ q.natDegree := by
        refine (Polynomial.natDegree_comp_le).trans ?_
        have : (Polynomial.C ((t : K) + P - R) - Polynomial.X : Polynomial K).natDegree ≤ 1 := by
          refine (Polynomial.natDegree_sub_le _ _).trans ?_
          rw [Polynomial.natDegree_C, Polynomial.natDegree_X]; simp
        calc q.natDegree * _ ≤ q.natDegree * 1 := Nat.mul_le_mul_left _ this
          _ = q.natDegree := Nat.mul_one _
      rw [Polynomial.degree_eq_natDegree hq0] at hq
      have hq' : q.natDegree < 2 * P + 1 := by exact_mod_cast hq
      refine lt_of_le_of_lt Polynomial.degree_le_natDegree ?_
      exact_mod_cast lt_of_le_of_lt hnd hq'
  have hterm : ∀ i ∈ range (2 * P + 1),
      lagrangeTap (2 * P + 1) ((P : K) + (delay * fs - R)) i * at0 (integerShift x R) ((t : ℤ) + P - i)
        = lagrangeTap (2 * P + 1) ((P : K) + (delay * fs - R)) i * q'.eval (i : K) := by
    intro i hi
    rw [mem_range] at hi
    congr 1
    rw [shift_at0 x R _ (by omega) (by omega), hev]
    unfold at0
    rw [if_neg (by omega)]
    obtain ⟨n, hn⟩ : ∃ n : ℕ, (t : ℤ) + P - i - R = n := ⟨((t : ℤ) + P - i - R).toNat, by omega⟩
    rw [hn, Int.toNat_natCast, hx n (by omega)]
    congr 1
    have : ((n : ℤ) : K) = ((t : ℤ) + P - i - R : ℤ) := by rw [hn]
    push_cast at this
    rw [this]; ring
  rw [sum_congr rfl hterm, C21_taps_interpolate _ _ q' hdeg, hev]
  congr 1
  ring

/-- **C21 (checks).** `ValueError` exactly for an even or non-positive tap count, a wrong dimension, or an empty record. -/
theorem C21_farrow_error_iff [FloorRing K] (ndim : ℕ) (x : List K) (delay fs : K) (n : ℤ) (e : PyErr) :
    farrowDelay ndim x delay fs n = .error e ↔
      e = .valueError ∧ (Even n ∨ n < 1 ∨ ndim ≠ 1 ∨ x = []) := by
  unfold farrowDelay convolveSame
  by_cases h1 : n % 2 = 0 ∨ n < 1
  · rw [if_pos h1]
    rw [← Int.even_iff] at h1
    constructor
    · intro h; injection h with h; exact ⟨h.symm, by tauto⟩
    · rintro ⟨rfl, _⟩; rfl
  · rw [if_neg h1]
    push Not at h1
    have h1' : ¬ Even n ∧ ¬ n < 1 := ⟨by rw [Int.even_iff]; exact h1.1, by omega⟩
    by_cases h2 : ndim ≠ 1
    · rw [if_pos h2]
      constructor
      · intro h; injection h with h; exact ⟨h.symm, by tauto⟩
      · rintro ⟨rfl, _⟩; rfl
    · rw [if_neg h2]
      simp only [shift_length, lagrangeTaps, List.length_map, List.length_range]
      by_cases h3 : x = []
      · subst h3
        rw [if_pos (by simp)]
        constructor
        · intro h; injection h with h; exact ⟨h.symm, by tauto⟩
        · rintro ⟨rfl, _⟩; rfl
      · have hne : x.length ≠ 0 := by simpa using h3
        rw [if_neg (by omega)]
        constructor
        · intro h; exact absurd h (by simp)
        · rintro ⟨_, h⟩; exact absurd h (by tauto)

/-- **C21 (defects, by witness).** (a) A record shorter than the filter comes back longer than it went in, although the
documentation promises the same length. (b) The fractional remainder can be `-1/2`, which the documentation excludes. -/
theorem C21_documentation_mismatch :
    (∃ (x y : List ℚ), farrowDelay 1 x 0 1 3 = .ok y ∧ y.length ≠ x.length) ∧
    (∃ D : ℚ, D - rint D = -(1 / 2)) :=
  ⟨⟨[1], [0, 1, 0], by decide +kernel, by simp⟩, ⟨3 / 2, by decide +kernel⟩⟩

/-! ### Concrete cases -/

example : deinterleave 1 [1, 2, 3, 4, 5, (6 : ℤ)] 3 = .ok [[1, 4], [2, 5], [3, 6]] := by decide
example : interleave 2 [[1, 4], [2, 5], [3, (6 : ℤ)]] = .ok [1, 2, 3, 4, 5, 6] := by decide
example : deinterleave 1 [1, 2, 3, (4 : ℤ)] 3 = .error .valueError := by decide
example : calibrateForeground (fun x _ _ => .ok x) (fun x _ _ => .ok x) 1 (mismatched [1, 2, 3, (4 : ℚ)] [1, -1] [2, 3] 2) 2
    [1, -1] [2, 3] [0, 0] 100 "fft" = .ok [1, 2, 3, 4] := by decide +kernel
-- C21: shift by 2 samples, and a parabola delayed by 0.3 samples with 3 taps
example : farrowDelay 1 [1, 2, 3, 4, (5 : ℚ)] 2 1 3 = .ok [0, 0, 1, 2, 3] := by decide +kernel
example : (farrowDelay 1 [0, 1, 4, 9, 16, (25 : ℚ)] (3/10) 1 3).toOption.map (fun y => y.getD 3 0)
    = some ((3 - 3/10) ^ 2) := by decide +kernel
example : ((Polynomial.X ^ 2 : Polynomial ℚ)).degree < (2 * 1 + 1 : ℕ) := by
  rw [Polynomial.degree_X_pow]; exact_mod_cast (by norm_num : 2 < 3)

end Verif
