import Verif.Model.ErrorDecomp
import Verif.Proofs.Lstsq
import Mathlib.Algebra.Order.BigOperators.Ring.Finset

/-!
# C52: error autocorrelation
-/

namespace Verif

open Model Finset

/-! ## Specification -/

/-- Average product of samples `k` apart, over the overlapping part. -/
noncomputable def autocov (n : ℕ) (e : ℕ → ℝ) (k : ℕ) : ℝ := (∑ t ∈ range (n - k), e t * e (t + k)) / ((n : ℝ) - k)

/-- The record with its mean removed. -/
noncomputable def centred (n : ℕ) (e : ℕ → ℝ) (t : ℕ) : ℝ := e t - (∑ s ∈ range n, e s) / n

/-! ## Helpers -/

private theorem mapM_ok {α β : Type} (f : α → Py β) (g : α → β) (l : List α) (h : ∀ a ∈ l, f a = .ok (g a)) : l.mapM f = .ok (l.map g) := by
  induction l with
  | nil => rfl
  | cons a l ih =>
    rw [List.mapM_cons, h a List.mem_cons_self, ih fun b hb => h b (List.mem_cons_of_mem _ hb)]
    rfl

private theorem mapM_inv {α β : Type} (f : α → Py β) (l : List α) (r : List β) (h : l.mapM f = .ok r) :
    r.length = l.length ∧ ∀ (i : ℕ) (hi : i < l.length) (hr : i < r.length), f l[i] = .ok r[i] := by
  induction l generalizing r with
  | nil =>
    rw [List.mapM_nil] at h
    injection h with h
    subst h
    exact ⟨rfl, fun i hi => absurd hi (by simp)⟩
  | cons a l ih =>
    rw [List.mapM_cons] at h
    cases h1 : f a with
    | error e => rw [h1] at h; cases h
    | ok b =>
      rw [h1] at h
      cases h2 : l.mapM f with
      | error e => rw [h2] at h; cases h
      | ok r' =>
        rw [h2] at h
        injection h with h
        subst h
        obtain ⟨hl, hg⟩ := ih r' h2
        refine ⟨by simp [hl], ?_⟩
        intro i hi hr
        cases i with
        | zero => exact h1
        | succ i => exact hg i (by simpa using hi) (by simpa using hr)

private theorem mapM_err {α β : Type} (f : α → Py β) (l : List α) (hall : ∀ a ∈ l, ∀ e, f a = .error e → e = .valueError)
    (a : α) (ha : a ∈ l) (hbad : f a = .error .valueError) : l.mapM f = .error .valueError := by
  induction l with
  | nil => cases ha
  | cons b l ih =>
    rw [List.mapM_cons]
    cases hb : f b with
    | error e =>
      have := hall b List.mem_cons_self e hb
      subst this
      rfl
    | ok v =>
      rcases List.mem_cons.mp ha with rfl | ha'
      · rw [hbad] at hb; cases hb
      · have := ih (fun c hc => hall c (List.mem_cons_of_mem _ hc)) ha'
        rw [this]
        rfl

private theorem npMul_comm (a b : List ℝ) : npMul a b = npMul b a := by
  unfold npMul
  by_cases h : a.length = b.length
  · rw [if_pos h, if_pos h.symm]
    congr 1
    exact List.zipWith_comm_of_comm (fun x y => mul_comm x y)
  · rw [if_neg h, if_neg (Ne.symm h)]
    by_cases ha : a.length = 1
    · rw [if_pos ha, if_neg (by omega), if_pos ha]
      congr 1
      exact List.map_congr_left fun v _ => mul_comm _ _
    · rw [if_neg ha]
      by_cases hb : b.length = 1
      · rw [if_pos hb, if_pos hb]
        congr 1
        exact List.map_congr_left fun v _ => mul_comm _ _
      · rw [if_neg hb, if_neg hb, if_neg ha]

private theorem acfAt_neg (e : List ℝ) (lag : ℤ) : acfAt e (-lag) = acfAt e lag := by
  rcases lt_trichotomy lag 0 with h | h | h
  · unfold acfAt
    rw [if_pos (by omega : 0 ≤ -lag), if_pos (by omega : 0 < -lag), if_neg (by omega : ¬ 0 ≤ lag)]
    simp only
    rw [npMul_comm]
  · rw [h, neg_zero]
  · unfold acfAt
    rw [if_neg (by omega : ¬ 0 ≤ -lag), if_pos h.le, if_pos h, neg_neg]
    simp only
    rw [npMul_comm]

private theorem acfAt_nat (n : ℕ) (g : ℕ → ℝ) (k : ℕ) (hk : k < n) : acfAt ((List.range n).map g) (k : ℤ) = .ok (some (autocov n g k)) := by
  have hx : (if 0 ≤ (k : ℤ) then (if 0 < (k : ℤ) then (pyPrefix ((List.range n).map g) (((List.range n).map g).length - (k : ℤ)), ((List.range n).map g).drop (k : ℤ).toNat)
      else ((List.range n).map g, (List.range n).map g)) else (((List.range n).map g).drop (-(k : ℤ)).toNat, pyPrefix ((List.range n).map g) (((List.range n).map g).length - -(k : ℤ)))) =
      (((List.range n).map g).take (n - k), ((List.range n).map g).drop k) := by
    rw [if_pos (by positivity)]
    rcases Nat.eq_zero_or_pos k with h0 | h0
    · subst h0
      rw [if_neg (by simp)]
      simp
    · rw [if_pos (by exact_mod_cast h0)]
      unfold pyPrefix
      simp only [List.length_map, List.length_range, Int.toNat_natCast]
      rw [if_neg (by omega), show ((n : ℤ) - k).toNat = n - k by omega]
  unfold acfAt
  rw [hx]
  unfold npMul
  simp only [List.length_take, List.length_drop, List.length_map, List.length_range]
  rw [if_pos (by omega)]
  simp only
  set p := List.zipWith (· * ·) (((List.range n).map g).take (n - k)) (((List.range n).map g).drop k) with hp
  have hlen : p.length = n - k := by rw [hp]; simp
  have hne : p ≠ [] := by
    intro h0
    rw [h0] at hlen
    simp at hlen
    omega
  rw [if_neg hne]
  have hsum : p.sum = ∑ t ∈ range (n - k), g t * g (t + k) := by
    rw [list_sum_eq, hlen]
    apply sum_congr rfl
    intro t ht
    have ht' := mem_range.mp ht
    rw [List.getD_eq_getElem _ _ (by omega)]
    simp [hp, add_comm]
  rw [hsum, hlen]
  unfold autocov
  rw [Nat.cast_sub hk.le]

private theorem acfAt_int (n : ℕ) (g : ℕ → ℝ) (lag : ℤ) (hk : lag.natAbs < n) : acfAt ((List.range n).map g) lag = .ok (some (autocov n g lag.natAbs)) := by
  rw [← acfAt_nat n g lag.natAbs hk]
  rcases Int.natAbs_eq lag with h | h
  · rw [← h]
  · conv_lhs => rw [h]
    rw [acfAt_neg]

private theorem acf_err (e : List ℝ) (lag : ℤ) (err : PyErr) (h : acfAt e lag = .error err) : err = .valueError := by
  unfold acfAt at h
  simp only at h
  generalize (if 0 ≤ lag then (if 0 < lag then (pyPrefix e (e.length - lag), e.drop lag.toNat) else (e, e)) else (e.drop (-lag).toNat, pyPrefix e (e.length - -lag))) = x at h
  cases hm : npMul x.1 x.2 with
  | ok p => rw [hm] at h; cases h
  | error e' =>
    rw [hm] at h
    injection h with h
    rw [← h]
    unfold npMul at hm
    by_cases h1 : x.1.length = x.2.length
    · rw [if_pos h1] at hm; cases hm
    rw [if_neg h1] at hm
    by_cases h2 : x.1.length = 1
    · rw [if_pos h2] at hm; cases hm
    rw [if_neg h2] at hm
    by_cases h3 : x.2.length = 1
    · rw [if_pos h3] at hm; cases hm
    rw [if_neg h3] at hm
    injection hm with hm
    exact hm.symm

theorem acf_ok (solve : Lstsq) (n : ℕ) (x : ℕ → ℝ) (freq : Option ℝ) (maxLag : ℤ) (normalize : Bool) (maxIter : ℤ) (tol : ℝ) (r : ErrorAcf)
    (h : errorAutocorr solve n x freq maxLag normalize maxIter tol = .ok r) : ∃ raw fit, fitCore solve n x freq maxIter tol = .ok fit ∧
      r.err = (fun t => x t - fit.fitted t) ∧ (acfLags maxLag).mapM (acfAt ((List.range n).map (centred n r.err))) = .ok raw ∧ r.lags = acfLags maxLag ∧
      r.acf = if normalize then raw.map (acfNormalize (raw.getD maxLag.toNat none)) else raw := by
  unfold errorAutocorr at h
  cases hf : fitCore solve n x freq maxIter tol with
  | error e => rw [hf] at h; cases h
  | ok fit =>
    rw [hf] at h
    simp only at h
    cases hm : (acfLags maxLag).mapM (acfAt ((List.range n).map fun t => x t - fit.fitted t - colMean n fun t => x t - fit.fitted t)) with
    | error e => rw [hm] at h; cases h
    | ok raw =>
      rw [hm] at h
      injection h with h
      subst h
      exact ⟨raw, fit, rfl, rfl, hm, rfl, rfl⟩

private theorem lags_get (L : ℕ) (i : ℕ) (hi : i < 2 * L + 1) : (acfLags L).length = 2 * L + 1 ∧ (acfLags L)[i]? = some ((i : ℤ) - L) := by
  unfold acfLags
  have e : (2 * (L : ℤ) + 1).toNat = 2 * L + 1 := by omega
  rw [e]
  refine ⟨by simp, ?_⟩
  rw [List.getElem?_map, List.getElem?_range hi]
  rfl

/-- **C52 (values).** For `max_lag` below the record length, entry `i` belongs to lag `i - max_lag` and is the average product, over the
overlapping part, of the centred fit error with itself shifted by that lag; with normalization it is divided by the lag-0 value (NaN when the
error is constant). -/
theorem C52_values (solve : Lstsq) (n : ℕ) (x : ℕ → ℝ) (freq : Option ℝ) (L : ℕ) (hL : L < n) (normalize : Bool) (maxIter : ℤ) (tol : ℝ) (r : ErrorAcf)
    (h : errorAutocorr solve n x freq L normalize maxIter tol = .ok r) :
    r.lags.length = 2 * L + 1 ∧ r.acf.length = 2 * L + 1 ∧ ∀ i < 2 * L + 1, r.lags[i]? = some ((i : ℤ) - L) ∧
      r.acf[i]? = some (if normalize then (if autocov n (centred n r.err) 0 = 0 then none
        else some (autocov n (centred n r.err) ((i : ℤ) - L).natAbs / autocov n (centred n r.err) 0)) else some (autocov n (centred n r.err) ((i : ℤ) - L).natAbs)) := by
  obtain ⟨raw, fit, _, _, hm, hl, ha⟩ := acf_ok solve n x freq L normalize maxIter tol r h
  have hmem : ∀ lag ∈ acfLags L, lag.natAbs < n := by
    intro lag hlag
    unfold acfLags at hlag
    obtain ⟨k, hk, rfl⟩ := List.mem_map.mp hlag
    have := List.mem_range.mp hk
    omega
  have hraw : raw = (acfLags L).map fun lag => some (autocov n (centred n r.err) lag.natAbs) := by
    have := mapM_ok (acfAt ((List.range n).map (centred n r.err))) (fun lag => some (autocov n (centred n r.err) lag.natAbs)) (acfLags L)
      fun lag hlag => acfAt_int n _ lag (hmem lag hlag)
    rw [hm] at this
    injection this
  have hget : ∀ i < 2 * L + 1, raw[i]? = some (some (autocov n (centred n r.err) ((i : ℤ) - L).natAbs)) := by
    intro i hi
    rw [hraw, List.getElem?_map, (lags_get L i hi).2]
    rfl
  have hzero : raw.getD (L : ℤ).toNat none = some (autocov n (centred n r.err) 0) := by
    rw [List.getD_eq_getElem?_getD, Int.toNat_natCast, hget L (by omega)]
    simp
  have hlen : raw.length = 2 * L + 1 := by rw [hraw, List.length_map, (lags_get L 0 (by omega)).1]
  refine ⟨by rw [hl]; exact (lags_get L 0 (by omega)).1, ?_, ?_⟩
  · rw [ha]
    cases normalize <;> simp [hlen]
  · intro i hi
    refine ⟨by rw [hl]; exact (lags_get L i hi).2, ?_⟩
    rw [ha]
    cases normalize with
    | false => simpa using hget i hi
    | true =>
      rw [if_pos rfl, if_pos rfl, List.getElem?_map, hget i hi, hzero]
      simp only [Option.map_some]
      rfl

/-- **C52 (symmetry).** Whenever the call succeeds, whatever `max_lag` is, the sequence reads the same in both directions. -/
theorem C52_symmetric (solve : Lstsq) (n : ℕ) (x : ℕ → ℝ) (freq : Option ℝ) (maxLag : ℤ) (normalize : Bool) (maxIter : ℤ) (tol : ℝ) (r : ErrorAcf)
    (h : errorAutocorr solve n x freq maxLag normalize maxIter tol = .ok r) : r.acf.reverse = r.acf := by
  obtain ⟨raw, fit, _, _, hm, hl, ha⟩ := acf_ok solve n x freq maxLag normalize maxIter tol r h
  obtain ⟨hlen, hget⟩ := mapM_inv _ _ _ hm
  have hraw : raw.reverse = raw := by
    apply List.ext_getElem
    · simp
    · intro i h1 h2
      rw [List.getElem_reverse]
      have hi : i < (acfLags maxLag).length := by omega
      have hj : raw.length - 1 - i < (acfLags maxLag).length := by omega
      have e1 := hget i hi h2
      have e2 := hget (raw.length - 1 - i) hj (by omega)
      have hneg : (acfLags maxLag)[raw.length - 1 - i] = -((acfLags maxLag)[i]) := by
        have hn : (acfLags maxLag).length = (2 * maxLag + 1).toNat := by unfold acfLags; simp
        have hk : ∀ (k : ℕ) (hk : k < (acfLags maxLag).length), (acfLags maxLag)[k] = (k : ℤ) - maxLag := by
          intro k hk
          simp only [acfLags, List.getElem_map, List.getElem_range]
        rw [hk _ hj, hk _ hi]
        omega
      rw [hneg, acfAt_neg, e1] at e2
      injection e2 with e2
      exact e2.symm
  rw [ha]
  cases normalize with
  | false => simpa using hraw
  | true =>
    rw [if_pos rfl, ← List.map_reverse, hraw]

/-- **C52 (lag zero and bound).** With normalization the middle entry is 1 unless the error is constant; without it, it is the mean square of
the centred error. An entry at lag `k` has magnitude at most `n / (n - k)`. -/
theorem C52_lag_zero (solve : Lstsq) (n : ℕ) (x : ℕ → ℝ) (freq : Option ℝ) (L : ℕ) (hL : L < n) (maxIter : ℤ) (tol : ℝ) (r : ErrorAcf)
    (h : errorAutocorr solve n x freq L true maxIter tol = .ok r) (hne : ∃ t < n, centred n r.err t ≠ 0) :
    r.acf[L]? = some (some 1) ∧ ∀ i < 2 * L + 1, ∃ v, r.acf[i]? = some (some v) ∧ |v| ≤ (n : ℝ) / ((n : ℝ) - ((i : ℤ) - L).natAbs) := by
  obtain ⟨_, _, hv⟩ := C52_values solve n x freq L hL true maxIter tol r h
  set e := centred n r.err with he
  have hnR : (0 : ℝ) < n := by exact_mod_cast (by omega : 0 < n)
  have h0 : autocov n e 0 = (∑ t ∈ range n, e t ^ 2) / n := by
    unfold autocov
    simp only [Nat.sub_zero, add_zero, Nat.cast_zero, sub_zero]
    congr 1
    exact sum_congr rfl fun t _ => by ring
  have hS : 0 < ∑ t ∈ range n, e t ^ 2 := by
    obtain ⟨t, ht, hne⟩ := hne
    exact sum_pos' (fun s _ => sq_nonneg _) ⟨t, mem_range.mpr ht, by positivity⟩
  have hpos : 0 < autocov n e 0 := by rw [h0]; exact div_pos hS hnR
  constructor
  · rw [(hv L (by omega)).2]
    simp only [if_true, sub_self, Int.natAbs_zero]
    rw [if_neg hpos.ne', div_self hpos.ne']
  · intro i hi
    refine ⟨autocov n e ((i : ℤ) - L).natAbs / autocov n e 0, ?_, ?_⟩
    · rw [(hv i hi).2]
      simp only [if_true]
      rw [if_neg hpos.ne']
    · set k := ((i : ℤ) - L).natAbs with hk
      have hkn : k < n := by omega
      have hkR : (0 : ℝ) < (n : ℝ) - k := by
        have : (k : ℝ) < n := by exact_mod_cast hkn
        linarith
      rw [abs_div, abs_of_pos hpos, div_le_div_iff₀ hpos hkR, h0, mul_div_cancel₀ _ hnR.ne']
      unfold autocov
      rw [abs_div, abs_of_pos hkR, div_mul_cancel₀ _ hkR.ne']
      -- |Σ a b| ≤ (Σ a² + Σ b²) / 2
      have hterm : ∀ t, |e t * e (t + k)| ≤ (e t ^ 2 + e (t + k) ^ 2) / 2 := by
        intro t
        rw [abs_le]
        constructor <;> nlinarith [sq_nonneg (e t + e (t + k)), sq_nonneg (e t - e (t + k))]
      have h1 : ∑ t ∈ range (n - k), e t ^ 2 ≤ ∑ t ∈ range n, e t ^ 2 :=
        sum_le_sum_of_subset_of_nonneg (range_subset_range.mpr (by omega)) fun t _ _ => sq_nonneg _
      have h2 : ∑ t ∈ range (n - k), e (t + k) ^ 2 ≤ ∑ t ∈ range n, e t ^ 2 := by
        have : ∑ t ∈ range (n - k), e (t + k) ^ 2 = ∑ t ∈ Ico k n, e t ^ 2 := by
          rw [sum_Ico_eq_sum_range]
          exact sum_congr rfl fun t _ => by rw [add_comm]
        rw [this, range_eq_Ico]
        exact sum_le_sum_of_subset_of_nonneg (Ico_subset_Ico_left (by omega)) fun t _ _ => sq_nonneg _
      calc |∑ t ∈ range (n - k), e t * e (t + k)| ≤ ∑ t ∈ range (n - k), |e t * e (t + k)| := abs_sum_le_sum_abs _ _
        _ ≤ ∑ t ∈ range (n - k), (e t ^ 2 + e (t + k) ^ 2) / 2 := sum_le_sum fun t _ => hterm t
        _ = (∑ t ∈ range (n - k), e t ^ 2 + ∑ t ∈ range (n - k), e (t + k) ^ 2) / 2 := by rw [← sum_div, sum_add_distrib]
        _ ≤ ∑ t ∈ range n, e t ^ 2 := by linarith

/-- **C52 (errors).** With a given frequency the call succeeds for every `max_lag` below the record length, and raises `ValueError` for every
larger one when the record has at least three samples. -/
theorem C52_errors (solve : Lstsq) (n : ℕ) (x : ℕ → ℝ) (f : ℝ) (L : ℕ) (normalize : Bool) (maxIter : ℤ) (tol : ℝ) :
    (L < n → ∃ r, errorAutocorr solve n x (some f) L normalize maxIter tol = .ok r) ∧
    (n < L → 3 ≤ n → errorAutocorr solve n x (some f) L normalize maxIter tol = .error .valueError) := by
  obtain ⟨fit, hf⟩ : ∃ fit, fitCore solve n x (some f) maxIter tol = .ok fit := ⟨_, rfl⟩
  set e := (List.range n).map fun t => x t - fit.fitted t - colMean n fun t => x t - fit.fitted t with he
  refine ⟨fun hL => ?_, fun hL hn => ?_⟩
  · have hm : (acfLags L).mapM (acfAt e) = .ok ((acfLags L).map fun lag => some (autocov n (fun t => x t - fit.fitted t - colMean n fun t => x t - fit.fitted t) lag.natAbs)) := by
      apply mapM_ok
      intro lag hlag
      unfold acfLags at hlag
      obtain ⟨k, hk, rfl⟩ := List.mem_map.mp hlag
      have := List.mem_range.mp hk
      exact acfAt_int n _ _ (by omega)
    unfold errorAutocorr
    rw [hf]
    simp only
    rw [← he, hm]
    exact ⟨_, rfl⟩
  · have hbad : acfAt e ((n : ℤ) + 1) = .error .valueError := by
      have hlen : e.length = n := by rw [he]; simp
      unfold acfAt
      rw [if_pos (by omega), if_pos (by omega)]
      simp only
      have h1 : (e.drop ((n : ℤ) + 1).toNat).length = 0 := by rw [List.length_drop, hlen]; omega
      have h2 : (pyPrefix e (e.length - ((n : ℤ) + 1))).length = n - 1 := by
        unfold pyPrefix
        rw [hlen, if_pos (by omega), List.length_take, hlen]
        omega
      unfold npMul
      rw [if_neg (by omega), if_neg (by omega), if_neg (by omega)]
    have hm : (acfLags L).mapM (acfAt e) = .error .valueError := by
      apply mapM_err _ _ (fun lag _ err herr => acf_err e lag err herr) ((n : ℤ) + 1) _ hbad
      unfold acfLags
      refine List.mem_map.mpr ⟨L + n + 1, List.mem_range.mpr (by omega), by push_cast; ring⟩
    unfold errorAutocorr
    rw [hf]
    simp only
    rw [← he, hm]

private theorem acfAt_total (e : List ℝ) (lag : ℤ) (h : lag.natAbs ≤ e.length ∨ e.length ≤ 2) : ∃ v, acfAt e lag = .ok v := by
  have key : ∀ k : ℕ, (k ≤ e.length ∨ e.length ≤ 2) → ∃ p, npMul (pyPrefix e ((e.length : ℤ) - k)) (e.drop k) = .ok p := by
    intro k hk
    have h1 : (e.drop k).length = e.length - k := List.length_drop
    have h2 : (pyPrefix e ((e.length : ℤ) - k)).length = if k ≤ e.length then e.length - k else 2 * e.length - k := by
      unfold pyPrefix
      rw [List.length_take]
      split_ifs <;> omega
    unfold npMul
    by_cases hle : k ≤ e.length
    · rw [if_pos hle] at h2
      rw [if_pos (by omega)]
      exact ⟨_, rfl⟩
    · rw [if_neg hle] at h2
      by_cases h3 : (pyPrefix e ((e.length : ℤ) - k)).length = (e.drop k).length
      · rw [if_pos h3]; exact ⟨_, rfl⟩
      · rw [if_neg h3, if_pos (by omega)]; exact ⟨_, rfl⟩
  have hnat : ∀ k : ℕ, (k ≤ e.length ∨ e.length ≤ 2) → ∃ v, acfAt e k = .ok v := by
    intro k hk
    unfold acfAt
    rw [if_pos (by omega)]
    by_cases h0 : (0 : ℤ) < k
    · rw [if_pos h0]
      obtain ⟨p, hp⟩ := key k hk
      simp only [Int.toNat_natCast, hp]
      exact ⟨_, rfl⟩
    · rw [if_neg h0]
      simp only [npMul, if_true]
      exact ⟨_, rfl⟩
  obtain ⟨v, hv⟩ := hnat lag.natAbs h
  rcases Int.natAbs_eq lag with h' | h'
  · exact ⟨v, by rw [h']; exact hv⟩
  · exact ⟨v, by rw [h', acfAt_neg]; exact hv⟩

/-- **C52 (when it succeeds).** Once the sine fit has succeeded, the call succeeds exactly when `max_lag` is at most the record length or the record has at most two
samples; otherwise it raises `ValueError`. -/
theorem C52_succeeds_iff (solve : Lstsq) (n : ℕ) (x : ℕ → ℝ) (freq : Option ℝ) (L : ℕ) (normalize : Bool) (maxIter : ℤ) (tol : ℝ) (fit : SineFit)
    (hf : fitCore solve n x freq maxIter tol = .ok fit) :
    ((∃ r, errorAutocorr solve n x freq L normalize maxIter tol = .ok r) ↔ L ≤ n ∨ n ≤ 2) ∧
    (n < L → 3 ≤ n → errorAutocorr solve n x freq L normalize maxIter tol = .error .valueError) := by
  have hbad : n < L → 3 ≤ n → errorAutocorr solve n x freq L normalize maxIter tol = .error .valueError := by
    intro h1 h2
    have := (C52_errors solve n x fit.initialFrequency L normalize maxIter tol).2 h1 h2
    have he : fitCore solve n x (some fit.initialFrequency) maxIter tol = .ok fit := by
      cases freq with
      | some f =>
        have : fit.initialFrequency = f := by
          unfold fitCore at hf
          injection hf with hf
          rw [← hf]; rfl
        rw [this]
        exact hf
      | none =>
        unfold fitCore at hf
        cases hq : estimateFreq n x with
        | error e => rw [hq] at hf; cases hf
        | ok f =>
          rw [hq] at hf
          have : fit.initialFrequency = f := by
            injection hf with hf
            rw [← hf]; rfl
          rw [this]
          exact hf
    unfold errorAutocorr at this ⊢
    rw [he] at this
    rw [hf]
    exact this
  refine ⟨⟨fun ⟨r, hr⟩ => ?_, fun h => ?_⟩, hbad⟩
  · by_contra hc
    push Not at hc
    rw [hbad hc.1 (by omega)] at hr
    cases hr
  · unfold errorAutocorr
    rw [hf]
    simp only
    generalize he : (List.range n).map (fun t => x t - fit.fitted t - colMean n fun t => x t - fit.fitted t) = e
    have hlen : e.length = n := by rw [← he]; simp
    have hall : ∀ lag ∈ acfLags L, ∃ v, acfAt e lag = .ok v := by
      intro lag hlag
      unfold acfLags at hlag
      obtain ⟨k, hk, rfl⟩ := List.mem_map.mp hlag
      have := List.mem_range.mp hk
      apply acfAt_total
      rw [hlen]
      rcases h with h | h
      · exact Or.inl (by omega)
      · exact Or.inr h
    classical
    have hm := mapM_ok (acfAt e) (fun lag => if hl : lag ∈ acfLags L then (hall lag hl).choose else none) (acfLags L) (by
      intro lag hl
      simp only [dif_pos hl]
      exact (hall lag hl).choose_spec)
    rw [hm]
    exact ⟨_, rfl⟩

/-- Normalized values are not correlation coefficients: the averages over short overlaps can exceed the lag-0 value. This eight-sample record
gives -2 at lag 7. -/
theorem C52_magnitude_exceeds_one (solve : Lstsq) (hs : IsLstsq solve) : ∃ (x : ℕ → ℝ) (r : ErrorAcf),
    errorAutocorr solve 8 x (some (1 / 4)) 7 true 0 (1 / 10 ^ 9) = .ok r ∧ r.acf[14]? = some (some (-2 : ℝ)) := by
  set x : ℕ → ℝ := fun t => if t = 0 ∨ t = 2 then 1 else if t = 5 ∨ t = 7 then -1 else 0 with hx
  obtain ⟨r, hr⟩ := (C52_errors solve 8 x (1 / 4) 7 true 0 (1 / 10 ^ 9)).1 (by norm_num)
  refine ⟨x, r, hr, ?_⟩
  obtain ⟨raw, fit, hfit, herr, _⟩ := acf_ok solve 8 x (some (1 / 4)) 7 true 0 (1 / 10 ^ 9) r hr
  -- the fit is zero: the record is orthogonal to every column
  set cols : List (ℕ → ℝ) := [fitCos (1 / 4), fitSin (1 / 4), fun _ => 1] with hcols
  set z := solve 8 cols x with hz
  have hfitted : ∀ t, fit.fitted t = matVec cols z t := by
    intro t
    unfold fitCore at hfit
    injection hfit with hfit
    rw [← hfit]
    unfold matVec
    rw [hcols]
    simp only [List.length_cons, List.length_nil, sum_range_succ, sum_range_zero, List.getD_cons_zero, List.getD_cons_succ, zero_add, mul_one]
    rfl
  have hcs : ∀ t < 8, fitCos (1 / 4) t = (if t % 4 = 0 then 1 else if t % 4 = 2 then -1 else 0) ∧ fitSin (1 / 4) t = (if t % 4 = 1 then 1 else if t % 4 = 3 then -1 else 0) := by
    intro t ht
    unfold fitCos fitSin
    have e : 2 * Real.pi * (1 / 4) * (t : ℝ) = t * (Real.pi / 2) := by ring
    rw [e]
    interval_cases t
    · norm_num
    · norm_num
    · rw [show ((2 : ℕ) : ℝ) * (Real.pi / 2) = Real.pi by push_cast; ring]; norm_num
    · rw [show ((3 : ℕ) : ℝ) * (Real.pi / 2) = Real.pi / 2 + Real.pi by push_cast; ring, Real.cos_add_pi, Real.sin_add_pi]; norm_num
    · rw [show ((4 : ℕ) : ℝ) * (Real.pi / 2) = 2 * Real.pi by push_cast; ring]; norm_num
    · rw [show ((5 : ℕ) : ℝ) * (Real.pi / 2) = Real.pi / 2 + 2 * Real.pi by push_cast; ring, Real.cos_add_two_pi, Real.sin_add_two_pi]; norm_num
    · rw [show ((6 : ℕ) : ℝ) * (Real.pi / 2) = Real.pi + 2 * Real.pi by push_cast; ring, Real.cos_add_two_pi, Real.sin_add_two_pi]; norm_num
    · rw [show ((7 : ℕ) : ℝ) * (Real.pi / 2) = Real.pi / 2 + Real.pi + 2 * Real.pi by push_cast; ring, Real.cos_add_two_pi, Real.sin_add_two_pi, Real.cos_add_pi, Real.sin_add_pi]; norm_num
  have hmv : ∀ (w : List ℝ) (t : ℕ), matVec cols w t = w.getD 0 0 * fitCos (1 / 4) t + w.getD 1 0 * fitSin (1 / 4) t + w.getD 2 0 := by
    intro w t
    unfold matVec
    rw [hcols]
    simp [sum_range_succ]
  have horth : ∑ t ∈ range 8, x t * matVec cols z t = 0 := by
    simp only [sum_range_succ, sum_range_zero, hmv, zero_add, (hcs 0 (by norm_num)).1, (hcs 0 (by norm_num)).2, (hcs 1 (by norm_num)).1, (hcs 1 (by norm_num)).2, (hcs 2 (by norm_num)).1, (hcs 2 (by norm_num)).2,
      (hcs 3 (by norm_num)).1, (hcs 3 (by norm_num)).2, (hcs 4 (by norm_num)).1, (hcs 4 (by norm_num)).2, (hcs 5 (by norm_num)).1, (hcs 5 (by norm_num)).2, (hcs 6 (by norm_num)).1, (hcs 6 (by norm_num)).2,
      (hcs 7 (by norm_num)).1, (hcs 7 (by norm_num)).2]
    rw [hx]
    norm_num
    ring
  have hself := lstsq_orthogonal solve hs 8 cols x z (by rw [hz]; exact hs.len _ _ _)
  rw [← hz] at hself
  have hsq : ∑ t ∈ range 8, matVec cols z t ^ 2 = 0 := by
    have : ∑ t ∈ range 8, matVec cols z t ^ 2 = ∑ t ∈ range 8, x t * matVec cols z t - ∑ t ∈ range 8, (x t - matVec cols z t) * matVec cols z t := by
      rw [← sum_sub_distrib]
      exact sum_congr rfl fun t _ => by ring
    rw [this, horth, hself, sub_zero]
  have hzero : ∀ t < 8, fit.fitted t = 0 := by
    intro t ht
    rw [hfitted]
    have := (sum_eq_zero_iff_of_nonneg fun t _ => sq_nonneg _).mp hsq t (mem_range.mpr ht)
    exact pow_eq_zero_iff (by norm_num) |>.mp this
  have hre : ∀ t < 8, r.err t = x t := by
    intro t ht
    rw [herr]
    simp only
    rw [hzero t ht, sub_zero]
  have hmean : ∑ s ∈ range 8, r.err s = 0 := by
    rw [sum_congr rfl fun t ht => hre t (mem_range.mp ht), hx]
    simp [sum_range_succ]
  have hce : ∀ t < 8, centred 8 r.err t = x t := by
    intro t ht
    unfold centred
    rw [hmean, hre t ht]
    simp
  obtain ⟨_, _, hv⟩ := C52_values solve 8 x (some (1 / 4)) 7 (by norm_num) true 0 (1 / 10 ^ 9) r hr
  have h0 : autocov 8 (centred 8 r.err) 0 = 1 / 2 := by
    unfold autocov
    rw [sum_congr rfl fun t ht => by rw [add_zero, hce t (mem_range.mp ht)], hx]
    simp [sum_range_succ]
    norm_num
  have h7 : autocov 8 (centred 8 r.err) 7 = -1 := by
    unfold autocov
    rw [show 8 - 7 = 1 by norm_num, sum_range_one, hce 0 (by norm_num), zero_add, hce 7 (by norm_num), hx]
    norm_num
  refine ((hv 14 (by norm_num)).2).trans ?_
  simp only [if_true]
  rw [h0, if_neg (by norm_num), show (((14 : ℕ) : ℤ) - ((7 : ℕ) : ℤ)).natAbs = 7 by norm_num, h7]
  norm_num

/-- A call that succeeds, with its symmetry. -/
example (solve : Lstsq) (x : ℕ → ℝ) : ∃ r, errorAutocorr solve 100 x (some (1 / 10)) (50 : ℕ) true 1 (1 / 10 ^ 9) = .ok r ∧ r.acf.length = 101 ∧ r.acf.reverse = r.acf := by
  obtain ⟨r, hr⟩ := (C52_errors solve 100 x (1 / 10) 50 true 1 (1 / 10 ^ 9)).1 (by norm_num)
  exact ⟨r, hr, (C52_values solve 100 x _ 50 (by norm_num) true 1 _ r hr).2.1, C52_symmetric solve 100 x _ _ true 1 _ r hr⟩

/-- Fifty lags need fifty samples: the default call accepts 50 samples and refuses 49. -/
example (solve : Lstsq) (x : ℕ → ℝ) : (∃ r, errorAutocorr solve 50 x (some (1 / 10)) (50 : ℕ) true 1 (1 / 10 ^ 9) = .ok r) ∧
    errorAutocorr solve 49 x (some (1 / 10)) (50 : ℕ) true 1 (1 / 10 ^ 9) = .error .valueError :=
  ⟨(C52_succeeds_iff solve 50 x _ 50 true 1 _ _ rfl).1.mpr (Or.inl le_rfl), (C52_succeeds_iff solve 49 x _ 50 true 1 _ _ rfl).2 (by norm_num) (by norm_num)⟩

end Verif
