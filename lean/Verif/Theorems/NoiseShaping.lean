import Verif.Model.SigGen
import Verif.Theorems.Sar
import Mathlib.Logic.Function.Iterate
import Mathlib.Tactic.FieldSimp
import Mathlib.Algebra.BigOperators.Intervals
import Mathlib.Algebra.Order.Archimedean.Real.Basic

/-!
# C55: noise shaping
-/

namespace Verif

open Model Finset

/-! ## Specification -/

/-- The record delayed by one sample, with a zero before the first. -/
def delayed (e : ℕ → ℝ) : ℕ → ℝ
  | 0 => 0
  | n + 1 => e n

/-- Backward difference with zero history. -/
def bdiff (e : ℕ → ℝ) (n : ℕ) : ℝ := e n - delayed e n

/-- Running sum. -/
noncomputable def csum (e : ℕ → ℝ) (n : ℕ) : ℝ := ∑ t ∈ range (n + 1), e t

/-- The difference equation `Σ a_j y[n-j] = Σ b_i x[n-i]` with zero history. -/
def FilterEq (b a : List ℝ) (x y : ℕ → ℝ) : Prop :=
  ∀ n, ∑ j ∈ range (n + 1), a.getD j 0 * y (n - j) = ∑ i ∈ range (n + 1), b.getD i 0 * x (n - i)

/-! ## The filter -/

theorem lfilterOut_length (b a : List ℝ) (x : ℕ → ℝ) (n : ℕ) : (lfilterOut b a x n).length = n := by
  induction n with
  | zero => rfl
  | succ n ih => simp [lfilterOut, ih]

theorem lfilterOut_getD (b a : List ℝ) (x : ℕ → ℝ) (n j : ℕ) (hj : j < n) : (lfilterOut b a x n).getD j 0 = lfilter b a x (n - 1 - j) := by
  induction n generalizing j with
  | zero => omega
  | succ n ih =>
    cases j with
    | zero => rfl
    | succ j =>
      have e : (lfilterOut b a x (n + 1)).getD (j + 1) 0 = (lfilterOut b a x n).getD j 0 := by
        simp [lfilterOut]
      rw [e, ih j (by omega)]
      congr 1
      omega

theorem lfilter_eq (b a : List ℝ) (x : ℕ → ℝ) (n : ℕ) : lfilter b a x n =
    ((∑ i ∈ range (n + 1), b.getD i 0 * x (n - i)) - ∑ j ∈ range n, a.getD (j + 1) 0 * lfilter b a x (n - 1 - j)) / a.getD 0 0 := by
  have e : ∑ j ∈ range n, a.getD (j + 1) 0 * lfilter b a x (n - 1 - j) = ∑ j ∈ range n, a.getD (j + 1) 0 * (lfilterOut b a x n).getD j 0 :=
    sum_congr rfl fun j hj => by rw [lfilterOut_getD b a x n j (mem_range.mp hj)]
  rw [e]
  rfl

theorem lfilter_filterEq (b a : List ℝ) (x : ℕ → ℝ) (ha : a.getD 0 0 ≠ 0) : FilterEq b a x (lfilter b a x) := by
  intro n
  rw [sum_range_succ']
  have h := lfilter_eq b a x n
  rw [eq_div_iff ha] at h
  have e : ∑ j ∈ range n, a.getD (j + 1) 0 * lfilter b a x (n - (j + 1)) = ∑ j ∈ range n, a.getD (j + 1) 0 * lfilter b a x (n - 1 - j) :=
    sum_congr rfl fun j _ => by rw [show n - (j + 1) = n - 1 - j by omega]
  rw [e]
  simp only [Nat.sub_zero]
  linarith

theorem filterEq_unique (b a : List ℝ) (x y z : ℕ → ℝ) (ha : a.getD 0 0 ≠ 0) (hy : FilterEq b a x y) (hz : FilterEq b a x z) : ∀ n, y n = z n := by
  intro n
  induction n using Nat.strong_induction_on with
  | _ n ih =>
    have h := (hy n).trans (hz n).symm
    rw [sum_range_succ', sum_range_succ'] at h
    have e : ∑ j ∈ range n, a.getD (j + 1) 0 * y (n - (j + 1)) = ∑ j ∈ range n, a.getD (j + 1) 0 * z (n - (j + 1)) :=
      sum_congr rfl fun j hj => by
        have := mem_range.mp hj
        rw [ih (n - (j + 1)) (by omega)]
    rw [e] at h
    have := add_left_cancel h
    simp only [Nat.sub_zero] at this
    exact mul_left_cancel₀ ha this

/-! ## Differences -/

private theorem delayed_sub (e f : ℕ → ℝ) (n : ℕ) : delayed (fun m => e m - f m) n = delayed e n - delayed f n := by
  cases n with
  | zero => simp [delayed]
  | succ n => rfl

private theorem delayed_iter (e : ℕ → ℝ) (i n : ℕ) : delayed^[i] e n = if i ≤ n then e (n - i) else 0 := by
  induction i generalizing n with
  | zero => simp
  | succ i ih =>
    rw [Function.iterate_succ_apply']
    cases n with
    | zero => simp [delayed]
    | succ n =>
      show delayed^[i] e n = _
      rw [ih n]
      by_cases h : i ≤ n
      · rw [if_pos h, if_pos (by omega), show n + 1 - (i + 1) = n - i by omega]
      · rw [if_neg h, if_neg (by omega)]

private theorem fir_eq (b : List ℝ) (x : ℕ → ℝ) (n : ℕ) : lfilter b [1] x n = ∑ i ∈ range b.length, b.getD i 0 * delayed^[i] x n := by
  rw [lfilter_eq]
  have h0 : ∑ j ∈ range n, [(1 : ℝ)].getD (j + 1) 0 * lfilter b [1] x (n - 1 - j) = 0 := sum_eq_zero fun j _ => by simp
  rw [h0, sub_zero]
  simp only [List.getD_cons_zero, div_one]
  have e1 : ∑ i ∈ range (n + 1), b.getD i 0 * x (n - i) = ∑ i ∈ range (n + 1), b.getD i 0 * delayed^[i] x n :=
    sum_congr rfl fun i hi => by rw [delayed_iter, if_pos (by have := mem_range.mp hi; omega)]
  rw [e1]
  have h1 : ∑ i ∈ range (n + 1), b.getD i 0 * delayed^[i] x n = ∑ i ∈ range (max (n + 1) b.length), b.getD i 0 * delayed^[i] x n := by
    apply sum_subset (range_subset_range.mpr (le_max_left _ _))
    intro i _ hi
    rw [delayed_iter, if_neg (by simp at hi; omega), mul_zero]
  have h2 : ∑ i ∈ range b.length, b.getD i 0 * delayed^[i] x n = ∑ i ∈ range (max (n + 1) b.length), b.getD i 0 * delayed^[i] x n := by
    apply sum_subset (range_subset_range.mpr (le_max_right _ _))
    intro i _ hi
    rw [List.getD_eq_default _ _ (by simpa using hi), zero_mul]
  rw [h1, h2]

private theorem bdiff_iter (e : ℕ → ℝ) (k : ℕ) (n : ℕ) : bdiff^[k + 1] e n = bdiff^[k] e n - delayed (bdiff^[k] e) n := by
  rw [Function.iterate_succ_apply']
  rfl

private theorem table_eq (order : ℤ) (h : order ∈ [(1 : ℤ), 2, 3, 4, 5]) (e : ℕ → ℝ) (n : ℕ) : lfilter (ntfTable order) [1] e n = bdiff^[order.toNat] e n := by
  have hf : ∀ k, bdiff^[k + 1] e = fun n => bdiff^[k] e n - delayed (bdiff^[k] e) n := fun k => funext fun n => bdiff_iter e k n
  have h0 : bdiff^[0] e = e := rfl
  have hd : ∀ f : ℕ → ℝ, (fun m => delayed f m) = delayed f := fun f => rfl
  have hs : ∀ f g : ℕ → ℝ, delayed (fun m => f m - g m) = fun m => delayed f m - delayed g m := fun f g => funext fun n => delayed_sub f g n
  have hb : bdiff e = fun m => e m - delayed e m := rfl
  rw [fir_eq]
  simp only [List.mem_cons, List.not_mem_nil, or_false] at h
  have it : ∀ k, delayed^[k + 1] e = delayed (delayed^[k] e) := fun k => Function.iterate_succ_apply' _ _ _
  have i0 : delayed^[0] e = e := rfl
  rcases h with h | h | h | h | h <;> subst h <;>
    simp [ntfTable, sum_range_succ, hf, hs, it, delayed_sub, hb] <;> ring

private theorem csum_bdiff (e : ℕ → ℝ) : csum (bdiff e) = e := by
  funext n
  unfold csum
  induction n with
  | zero => simp [bdiff, delayed]
  | succ n ih =>
    rw [sum_range_succ, ih]
    simp [bdiff, delayed]

/-! ## Theorems -/

/-- **C55.** For the orders 1 to 5 the method adds exactly the `order`-th backward difference (zero history) of the quantization error. -/
theorem C55_default (g : Gen) (input : Option (ℕ → ℝ)) (nBits : ℕ) (vmin vmax : ℝ) (order : ℤ) (h1 : 1 ≤ order) (h5 : order ≤ 5) :
    ∃ y, g.noiseShaping input nBits vmin vmax order .default = .ok y ∧
      ∀ i, y i - g.resolve input i = bdiff^[order.toNat] (fun j => g.quantization input nBits vmin vmax j - g.resolve input j) i := by
  have hm : order ∈ [(1 : ℤ), 2, 3, 4, 5] := by
    simp only [List.mem_cons, List.not_mem_nil, or_false]
    omega
  have ht : ntfTable order ≠ [] := by
    unfold ntfTable
    split_ifs <;> simp
  refine ⟨fun i => g.resolve input i + lfilter (ntfTable order) [1] (fun j => quantize (g.resolve input j) nBits vmin vmax - g.resolve input j) i, ?_, ?_⟩
  · unfold Gen.noiseShaping
    rw [decide_eq_true hm]
    simp [ntfCoeffs, ht]
  · intro i
    simp only
    rw [table_eq order hm, add_sub_cancel_left]
    rfl

/-- **C55 (error).** Every other order is rejected when no transfer function is given. -/
theorem C55_errors (g : Gen) (input : Option (ℕ → ℝ)) (nBits : ℕ) (vmin vmax : ℝ) (order : ℤ) (h : order < 1 ∨ 5 < order) :
    g.noiseShaping input nBits vmin vmax order .default = .error .valueError := by
  have hm : order ∉ [(1 : ℤ), 2, 3, 4, 5] := by
    simp only [List.mem_cons, List.not_mem_nil, or_false]
    omega
  unfold Gen.noiseShaping
  rw [decide_eq_false hm]

/-- **C55 (custom transfer function).** With numerator `num` and denominator `den` the added record is the unique solution of the difference
equation driven by the quantization error with zero history; `order` plays no role; a bare numerator means denominator 1. -/
theorem C55_custom (g : Gen) (input : Option (ℕ → ℝ)) (nBits : ℕ) (vmin vmax : ℝ) (order : ℤ) (num den : List ℝ) (hn : num ≠ []) (hd : den.getD 0 0 ≠ 0) :
    (∃ y, g.noiseShaping input nBits vmin vmax order (.iir num den) = .ok y ∧
      FilterEq num den (fun j => g.quantization input nBits vmin vmax j - g.resolve input j) (fun i => y i - g.resolve input i) ∧
      ∀ z, FilterEq num den (fun j => g.quantization input nBits vmin vmax j - g.resolve input j) z → ∀ i, y i = g.resolve input i + z i) ∧
    g.noiseShaping input nBits vmin vmax order (.fir num) = g.noiseShaping input nBits vmin vmax order (.iir num [1]) := by
  constructor
  · have hf := lfilter_filterEq num den (fun j => quantize (g.resolve input j) nBits vmin vmax - g.resolve input j) hd
    refine ⟨fun i => g.resolve input i + lfilter num den (fun j => quantize (g.resolve input j) nBits vmin vmax - g.resolve input j) i, ?_, ?_, ?_⟩
    · unfold Gen.noiseShaping
      have hd' : ¬ den[0]?.getD 0 = 0 := by rwa [List.getD_eq_getElem?_getD] at hd
      simp [ntfCoeffs, hn, hd']
    · simp only [add_sub_cancel_left]
      exact hf
    · intro z hz i
      simp only
      rw [filterEq_unique num den _ _ _ hd hf hz i]
  · unfold Gen.noiseShaping
    simp [ntfCoeffs]

/-- **C55 (shaping).** Accumulating the added noise `order` times gives back the plain quantization error. For in-range signals it therefore stays
within one LSB for ever, which is the suppression at low frequency. -/
theorem C55_low_frequency (g : Gen) (input : Option (ℕ → ℝ)) (nBits : ℕ) (vmin vmax : ℝ) (hv : vmin < vmax) (order : ℤ) (h1 : 1 ≤ order) (h5 : order ≤ 5)
    (y : ℕ → ℝ) (hy : g.noiseShaping input nBits vmin vmax order .default = .ok y) (n : ℕ) :
    csum^[order.toNat] (fun i => y i - g.resolve input i) n = g.quantization input nBits vmin vmax n - g.resolve input n ∧
    (vmin ≤ g.resolve input n → g.resolve input n < vmax → -((vmax - vmin) / 2 ^ nBits) < csum^[order.toNat] (fun i => y i - g.resolve input i) n ∧
      csum^[order.toNat] (fun i => y i - g.resolve input i) n ≤ 0) := by
  obtain ⟨y', hy', he⟩ := C55_default g input nBits vmin vmax order h1 h5
  rw [hy] at hy'
  injection hy' with hy'
  subst hy'
  have hfun : (fun i => y i - g.resolve input i) = bdiff^[order.toNat] (fun j => g.quantization input nBits vmin vmax j - g.resolve input j) := funext he
  have hmain : csum^[order.toNat] (fun i => y i - g.resolve input i) n = g.quantization input nBits vmin vmax n - g.resolve input n := by
    rw [hfun, Function.LeftInverse.iterate csum_bdiff]
  refine ⟨hmain, fun ha hb => ?_⟩
  rw [hmain]
  obtain ⟨hq1, hq2⟩ := (C53_quantizer nBits (g.resolve input n) 0 vmin vmax hv).2.2.1 ha hb
  unfold Gen.quantization
  constructor <;> linarith

/-- Second order on a 1-bit quantizer: the hypotheses are met and the call succeeds. -/
example : ∃ y, (Gen.mk 8 1 (1 / 8) (1 / 4) (1 / 2)).noiseShaping none 1 0 1 2 .default = .ok y ∧
    csum^[2] (fun i => y i - (Gen.mk 8 1 (1 / 8) (1 / 4) (1 / 2)).base i) 3 = (Gen.mk 8 1 (1 / 8) (1 / 4) (1 / 2)).quantization none 1 0 1 3 - (Gen.mk 8 1 (1 / 8) (1 / 4) (1 / 2)).base 3 := by
  obtain ⟨y, hy, _⟩ := C55_default (Gen.mk 8 1 (1 / 8) (1 / 4) (1 / 2)) none 1 0 1 2 (by norm_num) (by norm_num)
  exact ⟨y, hy, (C55_low_frequency _ none 1 0 1 (by norm_num) 2 (by norm_num) (by norm_num) y hy 3).1⟩

end Verif
