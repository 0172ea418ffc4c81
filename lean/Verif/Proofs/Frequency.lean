import Verif.Model.Frequency
import Verif.Spec.Frequency
import Mathlib.RingTheory.Int.Basic

/-! Helper lemmas for coherent sampling and aliasing. -/

namespace Verif

open Model Spec

variable {K : Type} [Field K] [LinearOrder K] [IsStrictOrderedRing K] [FloorRing K]

theorem rint_nearestEven (x : K) : NearestEven x (rint x) := by
  refine ⟨fun y => rint_closest x y, ?_⟩
  intro y hy hxy
  have h0 := Int.floor_le x
  have h1 := Int.lt_floor_add_one x
  -- if two integers are equally near then x is a half integer
  have hb := abs_sub_rint_le x
  have hby : |x - y| ≤ 1 / 2 := hxy ▸ hb
  have hlt : ¬ |x - rint x| < 1 / 2 := by
    intro h
    exact hy (rint_unique (x := x) (z := y) (hxy ▸ h)).symm
  have heq : |x - rint x| = 1 / 2 := le_antisymm hb (not_lt.mp hlt)
  revert heq
  unfold rint; simp only
  split_ifs with h2 h3 h4
  · intro heq; rw [abs_of_nonneg (by linarith)] at heq; linarith
  · intro heq; push_cast at heq
    rw [abs_of_nonpos (by linarith)] at heq; linarith
  · intro _; exact Int.even_iff.mpr h4
  · intro _
    have : ⌊x⌋ % 2 = 1 := by omega
    exact Int.even_iff.mpr (by omega)

theorem nearestEven_unique {x : K} {a b : ℤ} (ha : NearestEven x a) (hb : NearestEven x b) :
    a = b := by
  by_contra hne
  have hab : |x - a| = |x - b| := le_antisymm (ha.1 b) (hb.1 a)
  have h1 : Even a := ha.2 b (fun h => hne h.symm) hab
  have h2 : Even b := hb.2 a hne hab.symm
  -- both are within one half, so they differ by at most one
  have h3 : |x - a| ≤ 1 / 2 := le_trans (ha.1 (rint x)) (abs_sub_rint_le x)
  have h4 : |x - b| ≤ 1 / 2 := le_trans (hb.1 (rint x)) (abs_sub_rint_le x)
  have h5 : |(a : K) - b| ≤ 1 := by
    calc |(a : K) - b| = |(x - b) - (x - a)| := by ring_nf
      _ ≤ |x - b| + |x - a| := abs_sub _ _
      _ ≤ 1 := by linarith
  have h6 : |a - b| ≤ 1 := by exact_mod_cast h5
  rw [abs_le] at h6
  obtain ⟨m, hm⟩ := h1
  obtain ⟨n, hn⟩ := h2
  omega

theorem coherentOk_iff (n : ℤ) (odd : Bool) (b : ℤ) : coherentOk n odd b = true ↔ Eligible n odd b := by
  unfold coherentOk Eligible
  split_ifs with h1 h2
  · simp; intro h; omega
  · simp only [Bool.and_eq_true, beq_iff_eq] at h2
    simp only [Bool.false_eq_true, false_iff, not_and]
    intro _ ho
    exfalso
    have := Int.odd_iff.mp (ho h2.1)
    omega
  · simp only [beq_iff_eq]
    constructor
    · intro h
      refine ⟨by omega, ?_, Int.isCoprime_iff_gcd_eq_one.mpr h⟩
      intro ho
      simp [ho] at h2
      exact Int.odd_iff.mpr (by omega)
    · rintro ⟨_, _, h⟩
      exact Int.isCoprime_iff_gcd_eq_one.mp h

theorem mem_pyRange {a b x : ℤ} : x ∈ pyRange a b ↔ a ≤ x ∧ x < b := by
  unfold pyRange
  simp only [List.mem_map, List.mem_range]
  constructor
  · rintro ⟨i, hi, rfl⟩; omega
  · rintro ⟨h1, h2⟩
    exact ⟨(x - a).toNat, by omega, by omega⟩

theorem pyRange_pairwise (a b : ℤ) : (pyRange a b).Pairwise (· < ·) := by
  unfold pyRange
  rw [List.pairwise_map]
  exact (List.pairwise_lt_range).imp (by intro x y h; omega)

theorem mem_candidates {t : K} {n : ℤ} {odd : Bool} {r : ℤ} {d : K} {b : ℤ} :
    (d, b) ∈ coherentCandidates t n odd r ↔
      d = |(b : K) - t| ∧ rint t - r ≤ b ∧ b ≤ rint t + r ∧ Eligible n odd b := by
  unfold coherentCandidates
  simp only [List.mem_map, List.mem_filter, mem_pyRange, coherentOk_iff, Prod.mk.injEq]
  constructor
  · rintro ⟨c, ⟨⟨i, ⟨h1, h2⟩, rfl⟩, h3⟩, rfl, rfl⟩
    exact ⟨rfl, by omega, by omega, h3⟩
  · rintro ⟨rfl, h1, h2, h3⟩
    exact ⟨b, ⟨⟨b - rint t, ⟨by omega, by omega⟩, by omega⟩, h3⟩, rfl, rfl⟩

theorem candidates_pairwise (t : K) (n : ℤ) (odd : Bool) (r : ℤ) :
    (coherentCandidates t n odd r).Pairwise (fun a b => a.2 < b.2) := by
  unfold coherentCandidates
  rw [List.pairwise_map]
  apply List.Pairwise.filter
  rw [List.pairwise_map]
  exact (pyRange_pairwise _ _).imp (by intro x y h; simp only; omega)

/-- Head of a stable sort: minimal key, and first among equal keys. -/
theorem head_insertionSort_stable {l : List (K × ℤ)} (hl : l.Pairwise (fun a b => a.2 < b.2))
    {d : K} {b : ℤ} {tl : List (K × ℤ)}
    (h : l.insertionSort (fun a b => a.1 ≤ b.1) = (d, b) :: tl) :
    (d, b) ∈ l ∧ ∀ x ∈ l, d < x.1 ∨ (d = x.1 ∧ b ≤ x.2) := by
  set r : K × ℤ → K × ℤ → Prop := fun a b => a.1 ≤ b.1 with hr
  haveI : Std.Total r := ⟨fun a b => le_total a.1 b.1⟩
  haveI : IsTrans (K × ℤ) r := ⟨fun a b c h1 h2 => le_trans h1 h2⟩
  have hmem : (d, b) ∈ l := (List.mem_insertionSort r).mp (h ▸ List.mem_cons_self)
  refine ⟨hmem, ?_⟩
  intro x hx
  have hs := List.pairwise_insertionSort r l
  rw [h] at hs
  have hx' : x ∈ (d, b) :: tl := h ▸ (List.mem_insertionSort r).mpr hx
  rcases List.mem_cons.mp hx' with rfl | hxt
  · right; exact ⟨rfl, le_refl _⟩
  · have hle : d ≤ x.1 := (List.pairwise_cons.mp hs).1 x hxt
    rcases lt_or_eq_of_le hle with hlt | heq
    · left; exact hlt
    · right
      refine ⟨heq, ?_⟩
      by_contra hlt
      push Not at hlt
      -- x precedes (d,b) in l, so it must precede it after a stable sort
      have hsub : [x, (d, b)].Sublist l := by
        clear h hs hx' hxt
        induction l with
        | nil => simp at hx
        | cons y l ih =>
          rw [List.pairwise_cons] at hl
          rcases List.mem_cons.mp hx with rfl | hx
          · rcases List.mem_cons.mp hmem with h | h
            · rw [← h] at hlt; exact absurd hlt (lt_irrefl _)
            · exact List.Sublist.cons_cons _ (List.singleton_sublist.mpr h)
          · rcases List.mem_cons.mp hmem with h | h
            · have := hl.1 x hx
              rw [← h] at this
              exact absurd (lt_trans hlt this) (lt_irrefl _)
            · exact List.Sublist.cons _ (ih hl.2 h hx)
      have hsub2 := List.pair_sublist_insertionSort (r := r) (le_of_eq heq.symm) hsub
      rw [h] at hsub2
      have hnd : ((d, b) :: tl).Nodup := by
        rw [← h]
        refine (List.Perm.nodup_iff (List.perm_insertionSort r l)).mpr ?_
        exact hl.imp (by intro a c hac he; rw [he] at hac; exact lt_irrefl _ hac)
      cases hsub2 with
      | cons _ h2 =>
        have : (d, b) ∈ tl := h2.subset (by simp)
        exact (List.nodup_cons.mp hnd).1 this
      | cons_cons _ h2 => exact lt_irrefl _ hlt

end Verif
