import Verif.Model.MatlabFit
import Verif.Theorems.ErrorAcf

/-!
# C125: the error autocorrelation and MATLAB's `errac.m`
-/

namespace Verif

open Model Finset

private theorem ml_nat (n : ℕ) (g : ℕ → ℝ) (k : ℕ) : List.zipWith (· * ·) (((List.range n).map g).take (n - k)) (((List.range n).map g).drop k) =
    (List.range (n - k)).map fun t => g t * g (t + k) := by
  apply List.ext_getElem
  · simp
  · intro i h1 h2
    simp [add_comm]

private theorem ml_at (n : ℕ) (g : ℕ → ℝ) (lag : ℤ) :
    mlAcfAt ((List.range n).map g) lag = if lag.natAbs < n then some (autocov n g lag.natAbs) else none := by
  have hp : (if 0 ≤ lag then List.zipWith (· * ·) (((List.range n).map g).take (((List.range n).map g).length - lag.toNat)) (((List.range n).map g).drop lag.toNat)
      else List.zipWith (· * ·) (((List.range n).map g).drop (-lag).toNat) (((List.range n).map g).take (((List.range n).map g).length - (-lag).toNat))) =
      (List.range (n - lag.natAbs)).map fun t => g t * g (t + lag.natAbs) := by
    simp only [List.length_map, List.length_range]
    split_ifs with h
    · rw [show lag.toNat = lag.natAbs by omega, ml_nat]
    · rw [show (-lag).toNat = lag.natAbs by omega, List.zipWith_comm_of_comm (fun x y => mul_comm x y), ml_nat]
  unfold mlAcfAt
  simp only
  rw [hp]
  by_cases hk : lag.natAbs < n
  · rw [if_neg (by simp; omega), if_pos hk]
    congr 1
    unfold autocov
    rw [List.length_map, List.length_range, Nat.cast_sub hk.le, list_sum_eq, List.length_map, List.length_range]
    congr 1
    apply sum_congr rfl
    intro t ht
    have := mem_range.mp ht
    rw [List.getD_eq_getElem _ _ (by simpa using this)]
    simp
  · rw [if_pos (by simp; omega), if_neg hk]

/-- **C125 (same numbers).** For `max_lag` below the record length the lags and autocorrelation returned by Python are those MATLAB's `errac` computes from the returned
`error_signal`, with and without normalization. -/
theorem C125_same (solve : Lstsq) (n : ℕ) (x : ℕ → ℝ) (freq : Option ℝ) (L : ℕ) (hL : L < n) (normalize : Bool) (maxIter : ℤ) (tol : ℝ) (r : ErrorAcf)
    (h : errorAutocorr solve n x freq L normalize maxIter tol = .ok r) : mlErrac n r.err L normalize = (r.lags, r.acf) := by
  obtain ⟨h1, h2, h3⟩ := C52_values solve n x freq L hL normalize maxIter tol r h
  have hlen : (acfLags L).length = 2 * L + 1 := by
    unfold acfLags
    simp
    omega
  have hget : ∀ i < 2 * L + 1, (acfLags L)[i]? = some ((i : ℤ) - L) := by
    intro i hi
    unfold acfLags
    rw [List.getElem?_map, List.getElem?_range (by omega)]
    rfl
  have hcen : (fun t => r.err t - colMean n r.err) = centred n r.err := rfl
  have hlags : acfLags L = r.lags := by
    apply List.ext_getElem?
    intro i
    by_cases hi : i < 2 * L + 1
    · rw [hget i hi, (h3 i hi).1]
    · rw [List.getElem?_eq_none (by omega), List.getElem?_eq_none (by omega)]
  unfold mlErrac
  simp only
  rw [hcen, Prod.mk.injEq]
  refine ⟨hlags, ?_⟩
  apply List.ext_getElem?
  intro i
  by_cases hi : i < 2 * L + 1
  · have h0 : mlAcfAt ((List.range n).map (centred n r.err)) 0 = some (autocov n (centred n r.err) 0) := by
      rw [ml_at, show (0 : ℤ).natAbs = 0 from rfl, if_pos (by omega)]
    have hi' : mlAcfAt ((List.range n).map (centred n r.err)) ((i : ℤ) - L) = some (autocov n (centred n r.err) ((i : ℤ) - L).natAbs) := by
      rw [ml_at, if_pos (by omega)]
    rw [(h3 i hi).2]
    cases normalize with
    | false =>
      simp only [Bool.false_eq_true, if_false]
      rw [List.getElem?_map, hget i hi, Option.map_some, hi']
    | true =>
      simp only [if_true]
      rw [h0, List.getElem?_map, List.getElem?_map, hget i hi, Option.map_some, Option.map_some, hi']
      rfl
  · rw [List.getElem?_eq_none (l := r.acf) (by omega), List.getElem?_eq_none]
    split_ifs <;> simp [hlen] <;> omega

/-- **C125 (lags beyond the record).** MATLAB answers any `MaxLag`: entries at lags of the record length or more are NaN, the others are the usual averages. Python raises
`ValueError` as soon as `max_lag` exceeds the length of a record of three or more samples. -/
theorem C125_long_lags (solve : Lstsq) (n : ℕ) (hn : 3 ≤ n) (x err : ℕ → ℝ) (f : ℝ) (L : ℕ) (hL : n < L) (normalize : Bool) (maxIter : ℤ) (tol : ℝ) :
    errorAutocorr solve n x (some f) L normalize maxIter tol = .error .valueError ∧
    (mlErrac n err L false).2.length = 2 * L + 1 ∧
    ∀ i < 2 * L + 1, (mlErrac n err L false).2[i]? = some (if ((i : ℤ) - L).natAbs < n then some (autocov n (centred n err) ((i : ℤ) - L).natAbs) else none) := by
  have hlen : (acfLags L).length = 2 * L + 1 := by
    unfold acfLags
    simp
    omega
  have hcen : (fun t => err t - colMean n err) = centred n err := rfl
  refine ⟨(C52_errors solve n x f L normalize maxIter tol).2 hL hn, ?_, ?_⟩
  · unfold mlErrac
    simp [hlen]
  · intro i hi
    unfold mlErrac
    simp only [Bool.false_eq_true, if_false]
    rw [hcen, List.getElem?_map]
    have : (acfLags L)[i]? = some ((i : ℤ) - L) := by
      unfold acfLags
      rw [List.getElem?_map, List.getElem?_range (by omega)]
      rfl
    rw [this, Option.map_some, ml_at]

/-- The error `1, -1, 0, 0` has autocorrelation `1/2` at lag 0, `-1/3` at lag 1 and NaN at lag 4. -/
example : mlAcfAt [1, -1, 0, 0] 0 = some (1 / 2) ∧ mlAcfAt [1, -1, 0, 0] 1 = some (-1 / 3) ∧ mlAcfAt [1, -1, 0, 0] (-1) = some (-1 / 3) ∧ mlAcfAt [1, -1, 0, 0] 4 = none := by
  refine ⟨?_, ?_, ?_, ?_⟩ <;> simp [mlAcfAt] <;> norm_num

/-- Hypotheses of `C125_same` met: eight samples, lags up to 7. -/
example (solve : Lstsq) : ∃ r, errorAutocorr solve 8 (fun t => t) (some (1 / 4)) (7 : ℕ) true 1 (1 / 10 ^ 9) = .ok r ∧ mlErrac 8 r.err (7 : ℕ) true = (r.lags, r.acf) := by
  obtain ⟨r, hr⟩ := (C52_errors solve 8 (fun t => t) (1 / 4) 7 true 1 (1 / 10 ^ 9)).1 (by norm_num)
  exact ⟨r, hr, C125_same solve 8 _ _ 7 (by norm_num) true 1 _ r hr⟩

end Verif
