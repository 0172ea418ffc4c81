import Verif.Model.MatlabInl
import Verif.Theorems.MatlabFilter
import Verif.Theorems.SineInl

/-!
# C118: `compute_inl_from_sine` against MATLAB `inlsin.m`
-/

namespace Verif

open Model

private theorem hist_eq (data : List ℤ) (lo : ℤ) (n : ℕ) : mlHistcounts data lo n = histogram data lo n := by
  unfold mlHistcounts histogram
  apply List.map_congr_left
  intro i _
  rw [List.count_eq_countP]
  apply List.countP_congr
  intro d _
  have key : ∀ a b : ℤ, ((a : ℝ) - 1 / 2 ≤ b ↔ a ≤ b) ∧ ((b : ℝ) ≤ a + 1 / 2 ↔ b ≤ a) ∧ ((b : ℝ) < a + 1 / 2 ↔ b ≤ a) := by
    intro a b
    refine ⟨⟨fun h => ?_, fun h => ?_⟩, ⟨fun h => ?_, fun h => ?_⟩, ⟨fun h => ?_, fun h => ?_⟩⟩
    · by_contra hc
      have : ((b + 1 : ℤ) : ℝ) ≤ a := by exact_mod_cast (by omega : b + 1 ≤ a)
      push_cast at this; linarith
    · have : (a : ℝ) ≤ b := by exact_mod_cast h
      linarith
    · by_contra hc
      have : ((a + 1 : ℤ) : ℝ) ≤ b := by exact_mod_cast (by omega : a + 1 ≤ b)
      push_cast at this; linarith
    · have : (b : ℝ) ≤ a := by exact_mod_cast h
      linarith
    · by_contra hc
      have : ((a + 1 : ℤ) : ℝ) ≤ b := by exact_mod_cast (by omega : a + 1 ≤ b)
      push_cast at this; linarith
    · have : (b : ℝ) ≤ a := by exact_mod_cast h
      linarith
  simp only [(key _ _).1, (key _ _).2.1, (key _ _).2.2, ite_self, Bool.and_eq_true, decide_eq_true_eq, beq_iff_eq]
  constructor
  · intro h; omega
  · intro h; omega

private theorem dnl_eq (counts : List ℕ) : inlsinDnl counts (counts.length : ℝ) = sineDnl counts := by
  unfold inlsinDnl sineDnl
  have hd : ((List.range (counts.length - 2)).map fun i =>
      ((List.range counts.length).map fun (i : ℕ) => -Real.cos (Real.pi * ((counts.take (i + 1)).sum : ℕ) / (counts.sum : ℕ))).getD (i + 1) 0 -
      ((List.range counts.length).map fun (i : ℕ) => -Real.cos (Real.pi * ((counts.take (i + 1)).sum : ℕ) / (counts.sum : ℕ))).getD i 0)
      = diffs (cosTransform counts).dropLast := by
    apply List.ext_getElem
    · simp [diffs, cosTransform, cumsum]
      omega
    · intro i h1 h2
      simp only [List.length_map, List.length_range] at h1
      simp only [List.getElem_map, List.getElem_range, diffs, List.getElem_zipWith, List.getElem_tail, List.getElem_dropLast]
      rw [List.getD_eq_getElem _ _ (by simp; omega), List.getD_eq_getElem _ _ (by simp; omega)]
      simp [cosTransform, cumsum]
  simp only [hd]
  simp only [List.map_map, Function.comp_def]
  have hm : ∀ l : List ℝ, l.sum / (l.length : ℝ) = meanOf l := fun l => rfl
  simp only [hm]

/-- The record can be rounded without ambiguity: no entry is half-way between two codes. -/
def Spec.NoHalf (data : List ℝ) : Prop := ∀ d ∈ data, ∀ y : ℤ, d ≠ y + 1 / 2

private theorem round_map (data : List ℝ) (h : Spec.NoHalf data) : data.map mlRound = data.map rint := by
  apply List.map_congr_left
  intro d hd
  exact (C117_round d 0 le_rfl).1 (h d hd)

private theorem int_min (l : List ℤ) (h : l ≠ []) : l.min? = some (intMin l) := by
  cases l with
  | nil => exact absurd rfl h
  | cons a t => simp [List.min?, intMin]

private theorem int_max (l : List ℤ) (h : l ≠ []) : l.max? = some (intMax l) := by
  cases l with
  | nil => exact absurd rfl h
  | cons a t => simp [List.max?, intMax]

private theorem foldMin_le_mem (a : ℝ) (l : List ℝ) (y : ℝ) (hy : y ∈ l) : foldMin a l ≤ y := by
  have key : ∀ (l : List ℝ) (a : ℝ), foldMin a l ≤ a ∧ ∀ y ∈ l, foldMin a l ≤ y := by
    intro l
    induction l with
    | nil => intro a; exact ⟨le_rfl, by simp⟩
    | cons b t ih =>
      intro a
      have h := ih (min a b)
      refine ⟨h.1.trans (min_le_left _ _), ?_⟩
      intro y hy
      rcases List.mem_cons.mp hy with rfl | hy
      · exact h.1.trans (min_le_right _ _)
      · exact h.2 y hy
  exact (key l a).2 y hy

private theorem mem_le_foldMax (a : ℝ) (l : List ℝ) (y : ℝ) (hy : y ∈ l) : y ≤ foldMax a l := by
  have key : ∀ (l : List ℝ) (a : ℝ), a ≤ foldMax a l ∧ ∀ y ∈ l, y ≤ foldMax a l := by
    intro l
    induction l with
    | nil => intro a; exact ⟨le_rfl, by simp⟩
    | cons b t ih =>
      intro a
      have h := ih (max a b)
      refine ⟨(le_max_left _ _).trans h.1, ?_⟩
      intro y hy
      rcases List.mem_cons.mp hy with rfl | hy
      · exact (le_max_right _ _).trans h.1
      · exact h.2 y hy
  exact (key l a).2 y hy

/-- **C118.** For every code record (integer type, or floating point spanning more than 2), every exclusion ratio that `inlsin.m` accepts and every record in which
neither a sample nor the exclusion amount is half-way between two integers, `compute_inl_from_sine` returns the INL, DNL and code vectors of `inlsin.m`. -/
theorem C118_same (data : List ℝ) (isFloat : Bool) (numBits : Option ℕ) (fullScale : Option ℝ) (clip : ℝ) (hne : data ≠ []) (h0 : 0 ≤ clip)
    (h1 : clip < 1 / 2) (hcode : isFloat = false ∨ ∃ x ∈ data, ∃ y ∈ data, 2 < x - y) (hh : Spec.NoHalf data)
    (hex : ∀ lo hi : ℤ, (∀ d ∈ data, lo ≤ rint d ∧ rint d ≤ hi) → (∃ d ∈ data, rint d = lo) → (∃ d ∈ data, rint d = hi) →
      ∀ y : ℤ, clip * ((hi - lo : ℤ) : ℝ) ≠ y + 1 / 2) :
    ∃ r, inlFromSine data isFloat numBits fullScale clip = .ok r ∧ inlsin data clip = some r := by
  have hcodes : sineCodes data isFloat numBits fullScale = data.map rint := by
    unfold sineCodes
    simp only
    rw [if_neg]
    rintro ⟨hf, hs⟩
    rcases hcode with h | ⟨x, hx, y, hy, hxy⟩
    · rw [hf] at h; exact absurd h (by simp)
    · have hmin := foldMin_le_mem (data.headD 0) data y hy
      have hmax := mem_le_foldMax (data.headD 0) data x hx
      linarith
  have hz : data.map rint ≠ [] := by simpa using hne
  obtain ⟨hmi, hml⟩ := intMin_spec (data.map rint) hz
  obtain ⟨hma, hmu⟩ := intMax_spec (data.map rint) hz
  have hround : mlRound (clip * ((intMax (data.map rint) - intMin (data.map rint) : ℤ) : ℝ))
      = rint (clip * ((intMax (data.map rint) - intMin (data.map rint) : ℤ) : ℝ)) := by
    apply (C117_round _ 0 le_rfl).1
    apply hex
    · intro d hd
      exact ⟨hml _ (List.mem_map_of_mem hd), hmu _ (List.mem_map_of_mem hd)⟩
    · simpa using hmi
    · simpa using hma
  unfold inlFromSine inlsin
  rw [if_neg hne, if_neg (by simp only [not_not]; exact ⟨h0, h1⟩)]
  simp only [hcodes, round_map data hh, int_min _ hz, int_max _ hz]
  refine ⟨_, rfl, ?_⟩
  simp only [Option.some.injEq, keptRange, hround, hist_eq]
  set lo := intMin (data.map rint)
  set hi := intMax (data.map rint)
  set ex := rint (clip * ((hi - lo : ℤ) : ℝ))
  have hn : ((hi - ex + 1 - min (lo + ex) (hi - ex)).toNat : ℤ) = hi - ex - min (lo + ex) (hi - ex) + 1 := by omega
  have hlen : ∀ l : List ℤ, (histogram l (min (lo + ex) (hi - ex)) (hi - ex + 1 - min (lo + ex) (hi - ex)).toNat).length =
      (hi - ex + 1 - min (lo + ex) (hi - ex)).toNat := by intro l; simp [histogram]
  have hD : ∀ l : List ℤ, inlsinDnl (histogram l (min (lo + ex) (hi - ex)) (hi - ex + 1 - min (lo + ex) (hi - ex)).toNat)
      ((hi - ex - min (lo + ex) (hi - ex) + 1 : ℤ) : ℝ) =
      sineDnl (histogram l (min (lo + ex) (hi - ex)) (hi - ex + 1 - min (lo + ex) (hi - ex)).toNat) := by
    intro l
    rw [← dnl_eq, hlen, ← hn, Int.cast_natCast]
  rw [hD]
  congr 1
  rw [List.dropLast_eq_take, List.dropLast_eq_take, List.take_take, ← List.map_take, List.take_range]
  simp only [List.length_take, List.length_map, List.length_range]
  congr 2
  omega

example : Spec.NoHalf [0, 3, 7, 10] ∧ ∀ y : ℤ, (1 / 5 : ℝ) * ((10 - 0 : ℤ) : ℝ) ≠ y + 1 / 2 := by
  have key : ∀ z y : ℤ, (z : ℝ) ≠ y + 1 / 2 := by
    intro z y h
    have : ((2 * z - 2 * y - 1 : ℤ) : ℝ) = 0 := by push_cast; linarith
    have : 2 * z - 2 * y - 1 = 0 := by exact_mod_cast this
    omega
  constructor
  · intro d hd y
    simp only [List.mem_cons, List.not_mem_nil, or_false] at hd
    rcases hd with rfl | rfl | rfl | rfl
    · exact_mod_cast key 0 y
    · exact_mod_cast key 3 y
    · exact_mod_cast key 7 y
    · exact_mod_cast key 10 y
  · intro y h
    apply key 2 y
    push_cast at h ⊢
    linarith

/-- **C118 (refuted for some spans at the default exclusion).** At the default ratio 0.01 and a code span of `50 (4 m + 1)` (50, 250, 450, ...) the exclusion amount is
half-way: `inlsin.m` drops one more code on each side, so it reports two codes fewer than `compute_inl_from_sine` on the same record. -/
theorem C118_tie_differs (zs : List ℤ) (lo hi : ℤ) (m : ℕ) (hspan : hi - lo = 50 * (4 * m + 1)) (hlo : lo ∈ zs) (hhi : hi ∈ zs)
    (hall : ∀ z ∈ zs, lo ≤ z ∧ z ≤ hi) (numBits : Option ℕ) (fullScale : Option ℝ) :
    ∃ r r', inlFromSine (zs.map fun (z : ℤ) => (z : ℝ)) false numBits fullScale (1 / 100) = .ok r ∧
      inlsin (zs.map fun (z : ℤ) => (z : ℝ)) (1 / 100) = some r' ∧ r.code.length = 196 * m + 49 ∧ r'.code.length = 196 * m + 47 := by
  have hne : zs ≠ [] := List.ne_nil_of_mem hlo
  have hR : (zs.map fun (z : ℤ) => (z : ℝ)).map rint = zs := by
    rw [List.map_map]
    conv_rhs => rw [← List.map_id zs]
    apply List.map_congr_left
    intro z _
    simp [rint_intCast]
  have hM : (zs.map fun (z : ℤ) => (z : ℝ)).map mlRound = zs := by
    rw [List.map_map]
    conv_rhs => rw [← List.map_id zs]
    apply List.map_congr_left
    intro z _
    simp only [Function.comp_apply, id]
    rw [(C117_round ((z : ℤ) : ℝ) 0 le_rfl).1, rint_intCast]
    intro y h
    have : ((2 * z - 2 * y - 1 : ℤ) : ℝ) = 0 := by push_cast; linarith
    have : 2 * z - 2 * y - 1 = 0 := by exact_mod_cast this
    omega
  have hmin : intMin zs = lo := le_antisymm ((intMin_spec zs hne).2 lo hlo) (hall _ (intMin_spec zs hne).1).1
  have hmax : intMax zs = hi := le_antisymm (hall _ (intMax_spec zs hne).1).2 ((intMax_spec zs hne).2 hi hhi)
  have hx : (1 / 100 : ℝ) * ((hi - lo : ℤ) : ℝ) = ((2 * m : ℤ) : ℝ) + 1 / 2 := by
    rw [hspan]
    push_cast
    ring
  have hr := C117_round (K := ℝ) 0 (2 * m : ℤ) (by omega)
  have hrint : rint ((1 / 100 : ℝ) * ((hi - lo : ℤ) : ℝ)) = 2 * m := by
    rw [hx]
    have := rint_eq_floor_or (((2 * m : ℤ) : ℝ) + 1 / 2)
    have hf : ⌊((2 * m : ℤ) : ℝ) + 1 / 2⌋ = (2 * m : ℤ) := by rw [Int.floor_eq_iff]; constructor <;> linarith
    rw [hf] at this
    rcases this with h | h
    · exact h
    · have := hr.2.2.mp h; omega
  have hml : mlRound ((1 / 100 : ℝ) * ((hi - lo : ℤ) : ℝ)) = 2 * m + 1 := by rw [hx, hr.2.1]
  unfold inlFromSine inlsin
  rw [if_neg (by simpa using hne), if_neg (by norm_num)]
  have hc : sineCodes (zs.map fun (z : ℤ) => (z : ℝ)) false numBits fullScale = zs := by
    unfold sineCodes
    simp only
    rw [if_neg (by simp), hR]
  simp only [hc, hM, int_min _ hne, int_max _ hne, keptRange, hmin, hmax, hrint, hml]
  refine ⟨_, _, rfl, rfl, ?_, ?_⟩
  · simp only [List.length_dropLast, List.length_map, List.length_range]
    omega
  · simp only [List.length_map, List.length_range]
    omega

example : (50 : ℤ) - 0 = 50 * (4 * (0 : ℕ) + 1) ∧ (0 : ℤ) ∈ [0, 20, 50] ∧ (50 : ℤ) ∈ [0, 20, 50] := by decide

/-- **C118 (refuted for narrow floating-point codes).** Codes stored as floating point that span at most 2 are taken for volts by `compute_inl_from_sine`: the record
`0, 1, 2` has one reported code in `inlsin.m` and 1022 in Python. -/
theorem C118_narrow_float_differs :
    ∃ r r', inlFromSine [0, 1, 2] true none none 0 = .ok r ∧ inlsin [0, 1, 2] 0 = some r' ∧ r.code.length = 1022 ∧ r'.code = [0] := by
  have c0 : rint ((0 : ℝ) * ((2 ^ 10 : ℤ) : ℝ)) = 0 := by rw [zero_mul]; exact_mod_cast rint_intCast (K := ℝ) 0
  have c1 : rint ((1 : ℝ) * ((2 ^ 10 : ℤ) : ℝ)) = 1024 := by rw [one_mul, rint_intCast]; norm_num
  have c2 : rint ((2 : ℝ) * ((2 ^ 10 : ℤ) : ℝ)) = 2048 := by
    rw [show (2 : ℝ) * ((2 ^ 10 : ℤ) : ℝ) = ((2048 : ℤ) : ℝ) by norm_num, rint_intCast]
  have hc : sineCodes [0, 1, 2] true none none = [0, 1023, 1023] := by
    unfold sineCodes
    simp only [Option.getD_none, List.map_cons, List.map_nil, foldMin, foldMax, List.headD_cons, List.foldl_cons, List.foldl_nil]
    rw [if_pos (by norm_num), if_neg (by norm_num)]
    simp only [c0, c1, c2, List.map_cons, List.map_nil, clip]
    norm_num
  have m0 : ∀ z : ℤ, 0 ≤ z → mlRound (z : ℝ) = z := by
    intro z hz
    unfold mlRound
    rw [if_pos (by exact_mod_cast hz), Int.floor_eq_iff]
    constructor <;> linarith
  have e0 : mlRound (0 : ℝ) = 0 := by exact_mod_cast m0 0 (by norm_num)
  have e1 : mlRound (1 : ℝ) = 1 := by exact_mod_cast m0 1 (by norm_num)
  have e2 : mlRound (2 : ℝ) = 2 := by exact_mod_cast m0 2 (by norm_num)
  have r0 : rint (0 : ℝ) = 0 := by exact_mod_cast rint_intCast (K := ℝ) 0
  unfold inlFromSine inlsin
  rw [if_neg (by simp), if_neg (by norm_num)]
  simp only [hc, List.map_cons, List.map_nil, e0, e1, e2, keptRange, zero_mul, r0, int_min [(0 : ℤ), 1, 2] (by simp), int_max [(0 : ℤ), 1, 2] (by simp)]
  refine ⟨_, _, rfl, rfl, ?_, ?_⟩
  · simp only [List.length_dropLast, List.length_map, List.length_range]
    decide
  · decide

end Verif
