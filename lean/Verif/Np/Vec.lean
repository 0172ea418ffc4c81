import Verif.Np.Basic
import Mathlib.Algebra.BigOperators.Intervals
import Mathlib.Algebra.BigOperators.Group.List.Basic
import Mathlib.Algebra.Order.BigOperators.Group.Finset
import Mathlib.Algebra.Order.BigOperators.Group.List
import Mathlib.Data.List.Sort

/-!
# Numpy vector helpers: slices, zeroed ranges, argmax, max/min, sort, median
-/

namespace Verif

open Finset

/-- `a[lo:hi]` for non-negative bounds. -/
def slice {α : Type} (l : List α) (lo hi : ℕ) : List α := (l.take hi).drop lo

/-- `a[lo:hi] = 0` for non-negative bounds. -/
def zeroRange {α : Type} [Zero α] (l : List α) (lo hi : ℕ) : List α :=
  l.mapIdx fun i v => if lo ≤ i ∧ i < hi then 0 else v

/-- `np.argmax(a)`: first index of a maximum (numpy raises on an empty vector, callers guard). -/
def argmax {α : Type} [LinearOrder α] : List α → ℕ
  | [] => 0
  | a :: l =>
    match l[argmax l]? with
    | none => 0
    | some m => if m ≤ a then 0 else argmax l + 1

/-- `np.max(a)` of a non-empty vector (first argument: head). -/
def maxOf {α : Type} [LinearOrder α] (a : α) (l : List α) : α := l.foldl max a

/-- `np.min(a)` of a non-empty vector. -/
def minOf {α : Type} [LinearOrder α] (a : α) (l : List α) : α := l.foldl min a

/-- `np.sort(a)`. -/
def sortAsc {α : Type} [LinearOrder α] (l : List α) : List α := l.insertionSort (· ≤ ·)

/-- `np.median(a)` of a non-empty vector: the middle element, or the mean of the two middle elements. -/
def median {K : Type} [Field K] [LinearOrder K] (l : List K) : K :=
  let s := sortAsc l
  let n := l.length
  if n % 2 = 1 then s.getD (n / 2) 0 else (s.getD (n / 2 - 1) 0 + s.getD (n / 2) 0) / 2

/-! ### Sums -/

theorem list_sum_eq {M : Type} [AddCommMonoid M] (l : List M) : l.sum = ∑ i ∈ range l.length, l.getD i 0 := by
  induction l with
  | nil => simp
  | cons a l ih => rw [List.sum_cons, List.length_cons, sum_range_succ', ih, add_comm]; simp

theorem list_sum_map_range {M : Type} [AddCommMonoid M] (f : ℕ → M) (n : ℕ) :
    ((List.range n).map f).sum = ∑ i ∈ range n, f i := by
  induction n with
  | zero => simp
  | succ n ih => rw [List.range_succ, List.map_append, List.sum_append, ih, sum_range_succ]; simp

theorem slice_length {α : Type} (l : List α) (lo hi : ℕ) : (slice l lo hi).length = min hi l.length - lo := by
  simp [slice]

theorem slice_getD {α : Type} [Zero α] (l : List α) (lo hi i : ℕ) (h : i < (slice l lo hi).length) :
    (slice l lo hi).getD i 0 = l.getD (lo + i) 0 := by
  have hl := slice_length l lo hi
  rw [List.getD_eq_getElem?_getD, List.getElem?_eq_getElem h]
  have h2 : lo + i < l.length := by omega
  rw [List.getD_eq_getElem?_getD, List.getElem?_eq_getElem h2]
  simp [slice]

theorem slice_sum {M : Type} [AddCommMonoid M] (l : List M) (lo hi : ℕ) :
    (slice l lo hi).sum = ∑ i ∈ Ico lo (min hi l.length), l.getD i 0 := by
  rw [list_sum_eq, sum_Ico_eq_sum_range, slice_length]
  apply sum_congr rfl
  intro i hi'
  rw [mem_range] at hi'
  exact slice_getD l lo hi i (by rw [slice_length]; exact hi')

theorem zeroRange_length {α : Type} [Zero α] (l : List α) (lo hi : ℕ) : (zeroRange l lo hi).length = l.length := by
  simp [zeroRange]

theorem zeroRange_getD {α : Type} [Zero α] (l : List α) (lo hi i : ℕ) :
    (zeroRange l lo hi).getD i 0 = if lo ≤ i ∧ i < hi then 0 else l.getD i 0 := by
  rw [List.getD_eq_getElem?_getD, zeroRange, List.getElem?_mapIdx, List.getD_eq_getElem?_getD]
  cases l[i]? <;> simp

theorem getD_nonneg {K : Type} [Zero K] [Preorder K] (l : List K) (h : ∀ v ∈ l, 0 ≤ v) (i : ℕ) : 0 ≤ l.getD i 0 := by
  rw [List.getD_eq_getElem?_getD]
  cases hl : l[i]? with
  | none => simp
  | some v => exact h v (List.mem_of_getElem? hl)

theorem zeroRange_mem {α : Type} [Zero α] (l : List α) (lo hi : ℕ) (v : α) (h : v ∈ zeroRange l lo hi) : v = 0 ∨ v ∈ l := by
  rw [List.mem_iff_getElem?] at h
  obtain ⟨i, hi⟩ := h
  rw [zeroRange, List.getElem?_mapIdx] at hi
  cases hl : l[i]? with
  | none => rw [hl] at hi; simp at hi
  | some w =>
    rw [hl] at hi
    simp only [Option.map_some, Option.some.injEq] at hi
    split_ifs at hi
    · left; exact hi.symm
    · right; rw [← hi]; exact List.mem_of_getElem? hl

/-! ### argmax -/

theorem argmax_lt {α : Type} [LinearOrder α] (l : List α) (h : l ≠ []) : argmax l < l.length := by
  induction l with
  | nil => exact absurd rfl h
  | cons a l ih =>
    unfold argmax
    cases hm : l[argmax l]? with
    | none => simp
    | some m =>
      simp only
      split_ifs
      · simp
      · obtain ⟨h1, _⟩ := List.getElem?_eq_some_iff.mp hm
        simpa using h1

/-- The value at `argmax` is a maximum. -/
theorem argmax_max {α : Type} [LinearOrder α] (l : List α) (m : α) (hm : l[argmax l]? = some m) :
    ∀ v ∈ l, v ≤ m := by
  induction l generalizing m with
  | nil => intro v hv; simp at hv
  | cons a l ih =>
    unfold argmax at hm
    cases hl : l[argmax l]? with
    | none =>
      rw [hl] at hm
      have hnil : l = [] := by
        by_contra hne
        have := argmax_lt l hne
        rw [List.getElem?_eq_getElem this] at hl
        simp at hl
      subst hnil
      simp at hm
      intro v hv
      simp at hv
      rw [hv, hm]
    | some w =>
      rw [hl] at hm
      simp only at hm
      intro v hv
      split_ifs at hm with hwa
      · simp at hm
        subst hm
        rcases List.mem_cons.mp hv with rfl | hv
        · exact le_refl _
        · exact le_trans (ih w hl v hv) hwa
      · simp at hm
        rw [hl] at hm
        injection hm with hm
        subst hm
        rcases List.mem_cons.mp hv with rfl | hv
        · exact (not_le.mp hwa).le
        · exact ih w hl v hv

/-- Nothing before `argmax` reaches the maximum. -/
theorem argmax_first {α : Type} [LinearOrder α] (l : List α) (m : α) (hm : l[argmax l]? = some m) :
    ∀ i v, i < argmax l → l[i]? = some v → v < m := by
  induction l generalizing m with
  | nil => intro i v hi hv; simp at hv
  | cons a l ih =>
    unfold argmax at hm
    intro i v hi hv
    unfold argmax at hi
    cases hl : l[argmax l]? with
    | none => rw [hl] at hi; simp at hi
    | some w =>
      rw [hl] at hm hi
      simp only at hm hi
      split_ifs at hm hi with hwa
      · omega
      · simp at hm
        rw [hl] at hm
        injection hm with hm
        subst hm
        cases i with
        | zero => simp at hv; subst hv; exact not_le.mp hwa
        | succ i => exact ih w hl i v (by omega) (by simpa using hv)

/-! ### max / min -/

theorem le_maxOf {α : Type} [LinearOrder α] (a : α) (l : List α) : ∀ v ∈ a :: l, v ≤ maxOf a l := by
  unfold maxOf
  induction l generalizing a with
  | nil => intro v hv; simp at hv; simp [hv]
  | cons b l ih =>
    intro v hv
    rw [List.foldl_cons]
    rcases List.mem_cons.mp hv with rfl | hv
    · exact le_trans (le_max_left _ _) (ih (max v b) (max v b) (by simp))
    · rcases List.mem_cons.mp hv with rfl | hv
      · exact le_trans (le_max_right _ _) (ih (max a v) (max a v) (by simp))
      · exact ih (max a b) v (by simp [hv])

theorem maxOf_mem {α : Type} [LinearOrder α] (a : α) (l : List α) : maxOf a l ∈ a :: l := by
  unfold maxOf
  induction l generalizing a with
  | nil => simp
  | cons b l ih =>
    rw [List.foldl_cons]
    rcases List.mem_cons.mp (ih (max a b)) with h | h
    · rw [h]; rcases max_choice a b with h' | h' <;> rw [h'] <;> simp
    · simp [h]

theorem minOf_le {α : Type} [LinearOrder α] (a : α) (l : List α) : ∀ v ∈ a :: l, minOf a l ≤ v := by
  unfold minOf
  induction l generalizing a with
  | nil => intro v hv; simp at hv; simp [hv]
  | cons b l ih =>
    intro v hv
    rw [List.foldl_cons]
    rcases List.mem_cons.mp hv with rfl | hv
    · exact le_trans (ih (min v b) (min v b) (by simp)) (min_le_left _ _)
    · rcases List.mem_cons.mp hv with rfl | hv
      · exact le_trans (ih (min a v) (min a v) (by simp)) (min_le_right _ _)
      · exact ih (min a b) v (by simp [hv])

theorem minOf_mem {α : Type} [LinearOrder α] (a : α) (l : List α) : minOf a l ∈ a :: l := by
  unfold minOf
  induction l generalizing a with
  | nil => simp
  | cons b l ih =>
    rw [List.foldl_cons]
    rcases List.mem_cons.mp (ih (min a b)) with h | h
    · rw [h]; rcases min_choice a b with h' | h' <;> rw [h'] <;> simp
    · simp [h]

theorem maxOf_eq {α : Type} [LinearOrder α] (a : α) (l : List α) (m : α) (h1 : m ∈ a :: l) (h2 : ∀ v ∈ a :: l, v ≤ m) :
    maxOf a l = m := le_antisymm (h2 _ (maxOf_mem a l)) (le_maxOf a l m h1)

theorem minOf_eq {α : Type} [LinearOrder α] (a : α) (l : List α) (m : α) (h1 : m ∈ a :: l) (h2 : ∀ v ∈ a :: l, m ≤ v) :
    minOf a l = m := le_antisymm (minOf_le a l m h1) (h2 _ (minOf_mem a l))

/-! ### sort, median -/

theorem sortAsc_perm {α : Type} [LinearOrder α] (l : List α) : (sortAsc l).Perm l := List.perm_insertionSort _ _

theorem sortAsc_length {α : Type} [LinearOrder α] (l : List α) : (sortAsc l).length = l.length :=
  (sortAsc_perm l).length_eq

theorem sortAsc_sorted {α : Type} [LinearOrder α] (l : List α) : (sortAsc l).Pairwise (· ≤ ·) :=
  List.pairwise_insertionSort _ _

theorem sortAsc_mem {α : Type} [LinearOrder α] (l : List α) (v : α) : v ∈ sortAsc l ↔ v ∈ l :=
  (sortAsc_perm l).mem_iff

variable {K : Type} [Field K] [LinearOrder K] [IsStrictOrderedRing K]

/-- The median lies between any lower and upper bound of the data. -/
theorem median_bounds (l : List K) (hl : l ≠ []) (lo hi : K) (h1 : ∀ v ∈ l, lo ≤ v) (h2 : ∀ v ∈ l, v ≤ hi) :
    lo ≤ median l ∧ median l ≤ hi := by
  have hlen : 0 < l.length := List.length_pos_iff.mpr hl
  have hget : ∀ i, i < l.length → lo ≤ (sortAsc l).getD i 0 ∧ (sortAsc l).getD i 0 ≤ hi := by
    intro i hi'
    have : i < (sortAsc l).length := by rw [sortAsc_length]; exact hi'
    rw [List.getD_eq_getElem?_getD, List.getElem?_eq_getElem this]
    have hm : (sortAsc l)[i] ∈ l := (sortAsc_mem l _).mp (List.getElem_mem this)
    exact ⟨h1 _ hm, h2 _ hm⟩
  unfold median
  simp only
  split_ifs with h
  · exact hget _ (by omega)
  · have a := hget (l.length / 2 - 1) (by omega)
    have b := hget (l.length / 2) (by omega)
    constructor <;> linarith [a.1, a.2, b.1, b.2]

/-- The median does not depend on the order of the data. -/
theorem median_perm (l l' : List K) (h : l.Perm l') : median l = median l' := by
  have hs : sortAsc l = sortAsc l' :=
    List.Perm.eq_of_pairwise (le := (· ≤ ·)) (fun a b _ _ h1 h2 => le_antisymm h1 h2) (sortAsc_sorted l) (sortAsc_sorted l')
      ((sortAsc_perm l).trans (h.trans (sortAsc_perm l').symm))
  unfold median
  rw [hs, h.length_eq]

end Verif
