import Verif.Model.Validate
import Mathlib.Data.List.GetD
import Mathlib.Algebra.Order.BigOperators.Group.List
import Mathlib.Algebra.Order.Field.Basic
import Mathlib.Tactic.Linarith
import Mathlib.Tactic.Positivity

/-!
# C57: data validation
-/

namespace Verif

open Model

variable {K : Type} [Field K] [LinearOrder K] [IsStrictOrderedRing K]

/-! ## Specification -/

/-- Non-empty, integer or floating point, and every element finite. -/
structure Usable (a : NdArr K) : Prop where
  nonempty : a.data ≠ []
  dtype : a.dtype = .int ∨ a.dtype = .float
  finite : ∀ e ∈ a.data, ∃ v, e = .fin v

/-- The element at row `r`, column `c` of a two-dimensional array is the number `v`. -/
def EntryIs (a : NdArr K) (cols r c : ℕ) (v : K) : Prop := a.data[r * cols + c]? = some (.fin v)

/-! ## Basic integrity -/

omit [IsStrictOrderedRing K] in
private theorem basic_iff (a : NdArr K) : (validateBasic a = .ok () ↔ Usable a) ∧ (validateBasic a = .ok () ∨ validateBasic a = .error .valueError) := by
  have hall : a.data.all Elem.isFinite = true ↔ ∀ e ∈ a.data, ∃ v, e = Elem.fin v := by
    rw [List.all_eq_true]
    constructor
    · intro h e he
      have := h e he
      cases e with
      | fin v => exact ⟨v, rfl⟩
      | nan => cases this
      | inf => cases this
    · intro h e he
      obtain ⟨v, rfl⟩ := h e he
      rfl
  unfold validateBasic
  by_cases h1 : a.data.length = 0
  · rw [if_pos h1]
    refine ⟨⟨fun h => (by cases h), fun h => absurd (List.length_eq_zero_iff.mp h1) h.nonempty⟩, .inr rfl⟩
  rw [if_neg h1]
  by_cases h2 : a.dtype.isNumber = false
  · rw [if_pos h2]
    refine ⟨⟨fun h => (by cases h), fun h => ?_⟩, .inr rfl⟩
    rcases h.dtype with h' | h' <;> rw [h'] at h2 <;> cases h2
  rw [if_neg h2]
  by_cases h3 : a.dtype = .complex
  · rw [if_pos h3]
    refine ⟨⟨fun h => (by cases h), fun h => ?_⟩, .inr rfl⟩
    rcases h.dtype with h' | h' <;> rw [h'] at h3 <;> cases h3
  rw [if_neg h3]
  by_cases h4 : a.data.all Elem.isFinite = true
  · rw [if_neg (by rw [h4]; simp)]
    refine ⟨⟨fun _ => ⟨fun h => h1 (by rw [h]; rfl), ?_, hall.mp h4⟩, fun _ => rfl⟩, .inl rfl⟩
    cases hd : a.dtype with
    | bool => rw [hd] at h2; exact absurd rfl h2
    | int => exact .inl rfl
    | float => exact .inr rfl
    | complex => exact absurd hd h3
    | other => rw [hd] at h2; exact absurd rfl h2
  · rw [if_pos (by simpa using h4)]
    have hbad : ∃ e ∈ a.data, e = Elem.nan ∨ e = Elem.inf := by
      by_contra hno
      push Not at hno
      apply h4
      rw [hall]
      intro e he
      cases e with
      | fin v => exact ⟨v, rfl⟩
      | nan => exact absurd rfl (hno _ he).1
      | inf => exact absurd rfl (hno _ he).2
    have hneg : ¬ Usable a := fun h => h4 (hall.mpr h.finite)
    by_cases h5 : a.data.any Elem.isNan = true
    · rw [if_pos h5]
      exact ⟨⟨fun h => (by cases h), fun h => absurd h hneg⟩, .inr rfl⟩
    · rw [if_neg h5]
      have h6 : a.data.any Elem.isInf = true := by
        rw [List.any_eq_true]
        obtain ⟨e, he, h | h⟩ := hbad
        · exfalso
          apply h5
          rw [List.any_eq_true]
          exact ⟨e, he, by rw [h]; rfl⟩
        · exact ⟨e, he, by rw [h]; rfl⟩
      rw [if_pos h6]
      exact ⟨⟨fun h => (by cases h), fun h => absurd h hneg⟩, .inr rfl⟩

omit [IsStrictOrderedRing K] in
private theorem ptp_spec [IsStrictOrderedRing K] (l : List K) (hl : l ≠ []) : (∃ u ∈ l, ∃ v ∈ l, ptp l = u - v) ∧ ∀ u ∈ l, ∀ v ∈ l, u - v ≤ ptp l := by
  cases l with
  | nil => exact absurd rfl hl
  | cons a l =>
    refine ⟨⟨maxOf a l, maxOf_mem a l, minOf a l, minOf_mem a l, rfl⟩, fun u hu v hv => ?_⟩
    show u - v ≤ maxOf a l - minOf a l
    have h1 := le_maxOf a l u hu
    have h2 := minOf_le a l v hv
    linarith

/-! ## Analog data -/

/-- **C57 (analog).** `validate_aout_data` accepts exactly the non-empty finite integer or float arrays of one or two dimensions whose longest
dimension reaches `min_samples` and whose values are not all equal; everything else raises `ValueError`. -/
theorem C57_aout (a : NdArr K) (m : ℤ) : ((validateAout a m).err = none ↔ Usable a ∧ (a.shape.length = 1 ∨ a.shape.length = 2) ∧ (∃ d ∈ a.shape, m ≤ (d : ℤ)) ∧
      ∃ u v, u ≠ v ∧ Elem.fin u ∈ a.data ∧ Elem.fin v ∈ a.data) ∧
    ((validateAout a m).err = none ∨ (validateAout a m).err = some .valueError) := by
  obtain ⟨hb1, hb2⟩ := basic_iff a
  unfold validateAout
  rcases hb2 with hb | hb
  swap
  · rw [hb]
    refine ⟨⟨fun h => (by cases h), fun h => ?_⟩, .inr rfl⟩
    have := hb1.mpr h.1
    rw [hb] at this
    cases this
  rw [hb]
  have hu := hb1.mp hb
  simp only
  by_cases h2 : 2 < a.shape.length
  · rw [if_pos h2]
    exact ⟨⟨fun h => (by cases h), fun h => by omega⟩, .inr rfl⟩
  rw [if_neg h2]
  cases hs : a.shape with
  | nil => exact ⟨⟨fun h => (by cases h), fun h => by simp at h⟩, .inr rfl⟩
  | cons d ds =>
    simp only
    have hlen : (d :: ds).length = 1 ∨ (d :: ds).length = 2 := by
      rw [hs] at h2
      simp only [List.length_cons] at h2 ⊢
      omega
    have hn : ((if (d :: ds).length = 1 then d else maxOf d ds : ℕ) : ℤ) < m ↔ ¬ ∃ e ∈ d :: ds, m ≤ (e : ℤ) := by
      have hmax : (if (d :: ds).length = 1 then d else maxOf d ds) = maxOf d ds := by
        by_cases h1 : (d :: ds).length = 1
        · rw [if_pos h1]
          have : ds = [] := by simpa using h1
          rw [this]
          rfl
        · rw [if_neg h1]
      rw [hmax]
      constructor
      · rintro h ⟨e, he, hme⟩
        have := le_maxOf d ds e he
        omega
      · intro h
        by_contra hge
        exact h ⟨maxOf d ds, maxOf_mem d ds, by omega⟩
    by_cases h3 : ((if (d :: ds).length = 1 then d else maxOf d ds : ℕ) : ℤ) < m
    · rw [if_pos h3]
      refine ⟨⟨fun h => (by cases h), fun h => absurd h.2.2.1 (hn.mp h3)⟩, .inr rfl⟩
    rw [if_neg h3]
    have h3' : ∃ e ∈ d :: ds, m ≤ (e : ℤ) := by
      by_contra h
      exact h3 (hn.mpr h)
    have hne : a.data.map Elem.val ≠ [] := by simpa using hu.nonempty
    obtain ⟨⟨u, hu1, v, hv1, he⟩, hmax⟩ := ptp_spec _ hne
    have hfin : ∀ w ∈ a.data.map Elem.val, Elem.fin w ∈ a.data := by
      intro w hw
      obtain ⟨e, he, rfl⟩ := List.mem_map.mp hw
      obtain ⟨z, rfl⟩ := hu.finite e he
      exact he
    have hdiff : ptp (a.data.map Elem.val) = 0 ↔ ¬ ∃ u v, u ≠ v ∧ Elem.fin u ∈ a.data ∧ Elem.fin v ∈ a.data := by
      constructor
      · rintro h ⟨p, q, hpq, hp, hq⟩
        have m1 := hmax p (List.mem_map.mpr ⟨_, hp, rfl⟩) q (List.mem_map.mpr ⟨_, hq, rfl⟩)
        have m2 := hmax q (List.mem_map.mpr ⟨_, hq, rfl⟩) p (List.mem_map.mpr ⟨_, hp, rfl⟩)
        rw [h] at m1 m2
        exact hpq (le_antisymm (by linarith) (by linarith))
      · intro h
        by_contra h0
        apply h
        refine ⟨u, v, fun huv => h0 (by rw [he, huv, sub_self]), hfin u hu1, hfin v hv1⟩
    by_cases h4 : ptp (a.data.map Elem.val) = 0
    · rw [if_pos h4]
      exact ⟨⟨fun h => (by cases h), fun h => absurd h.2.2.2 (hdiff.mp h4)⟩, .inr rfl⟩
    rw [if_neg h4]
    have h4' : ∃ u v, u ≠ v ∧ Elem.fin u ∈ a.data ∧ Elem.fin v ∈ a.data := by
      by_contra h
      exact h4 (hdiff.mpr h)
    by_cases h5 : ptp (a.data.map Elem.val) < 1 / 10 ^ 10
    · rw [if_pos h5]
      exact ⟨⟨fun _ => ⟨hu, hlen, h3', h4'⟩, fun _ => rfl⟩, .inl rfl⟩
    · rw [if_neg h5]
      exact ⟨⟨fun _ => ⟨hu, hlen, h3', h4'⟩, fun _ => rfl⟩, .inl rfl⟩

/-- **C57 (analog warning).** The only warning is the low-amplitude one; it is emitted, without raising, exactly for accepted arrays whose values all lie
within `1e-10` of each other. -/
theorem C57_aout_warning (a : NdArr K) (m : ℤ) : ((validateAout a m).warns = [] ∨ (validateAout a m).warns = [.lowAmplitude]) ∧
    ((validateAout a m).warns = [.lowAmplitude] ↔ (validateAout a m).err = none ∧ ∀ u v, Elem.fin u ∈ a.data → Elem.fin v ∈ a.data → u - v < 1 / 10 ^ 10) := by
  obtain ⟨hb1, hb2⟩ := basic_iff a
  unfold validateAout
  rcases hb2 with hb | hb
  swap
  · rw [hb]
    exact ⟨.inl rfl, fun h => (by cases h), fun h => (by cases h.1)⟩
  rw [hb]
  have hu := hb1.mp hb
  simp only
  by_cases h2 : 2 < a.shape.length
  · rw [if_pos h2]
    exact ⟨.inl rfl, fun h => (by cases h), fun h => (by cases h.1)⟩
  rw [if_neg h2]
  cases hs : a.shape with
  | nil => exact ⟨.inl rfl, fun h => (by cases h), fun h => (by cases h.1)⟩
  | cons d ds =>
    simp only
    by_cases h3 : ((if (d :: ds).length = 1 then d else maxOf d ds : ℕ) : ℤ) < m
    · rw [if_pos h3]
      exact ⟨.inl rfl, fun h => (by cases h), fun h => (by cases h.1)⟩
    rw [if_neg h3]
    by_cases h4 : ptp (a.data.map Elem.val) = 0
    · rw [if_pos h4]
      exact ⟨.inl rfl, fun h => (by cases h), fun h => (by cases h.1)⟩
    rw [if_neg h4]
    have hne : a.data.map Elem.val ≠ [] := by simpa using hu.nonempty
    obtain ⟨⟨u, hu1, v, hv1, he⟩, hmax⟩ := ptp_spec _ hne
    have hfin : ∀ w ∈ a.data.map Elem.val, Elem.fin w ∈ a.data := by
      intro w hw
      obtain ⟨e, he, rfl⟩ := List.mem_map.mp hw
      obtain ⟨z, rfl⟩ := hu.finite e he
      exact he
    by_cases h5 : ptp (a.data.map Elem.val) < 1 / 10 ^ 10
    · rw [if_pos h5]
      refine ⟨.inr rfl, fun _ => ⟨rfl, fun p q hp hq => ?_⟩, fun _ => rfl⟩
      exact lt_of_le_of_lt (hmax p (List.mem_map.mpr ⟨_, hp, rfl⟩) q (List.mem_map.mpr ⟨_, hq, rfl⟩)) h5
    · rw [if_neg h5]
      refine ⟨.inl rfl, fun h => (by cases h), fun h => absurd ?_ h5⟩
      rw [he]
      exact h.2 u v (hfin u hu1) (hfin v hv1)

/-! ## Digital data -/

private theorem dout_ok (a : NdArr K) (m : ℤ) (h : (validateDout a m).err = none) : ∃ rows cols, a.shape = [rows, cols] ∧ Usable a ∧ m ≤ (rows : ℤ) ∧ 1 ≤ cols ∧
    (∀ e ∈ a.data, e = .fin 0 ∨ e = .fin 1) ∧ (validateDout a m).warns = (if rows < cols then [.moreBitsThanSamples] else []) ++ stuckWarnings a rows cols := by
  obtain ⟨hb1, hb2⟩ := basic_iff a
  unfold validateDout at h ⊢
  rcases hb2 with hb | hb
  swap
  · rw [hb] at h; cases h
  rw [hb] at h ⊢
  have hu := hb1.mp hb
  simp only at h ⊢
  match hs : a.shape with
  | [] => rw [hs] at h; cases h
  | [_] => rw [hs] at h; cases h
  | _ :: _ :: _ :: _ => rw [hs] at h; cases h
  | [rows, cols] =>
    rw [hs] at h
    simp only at h ⊢
    by_cases h1 : (rows : ℤ) < m
    · rw [if_pos h1] at h; cases h
    rw [if_neg h1] at h ⊢
    by_cases h2 : cols < 1
    · rw [if_pos h2] at h; cases h
    rw [if_neg h2] at h ⊢
    by_cases h3 : (a.data.map Elem.val).all (fun v => decide (v = 0) || decide (v = 1)) = true
    · rw [if_neg (by rw [h3]; simp)] at h ⊢
      refine ⟨rows, cols, rfl, hu, by omega, by omega, ?_, rfl⟩
      intro e he
      obtain ⟨v, rfl⟩ := hu.finite e he
      have := List.all_eq_true.mp h3 v (List.mem_map.mpr ⟨_, he, rfl⟩)
      simp only [Bool.or_eq_true, decide_eq_true_eq] at this
      rcases this with h | h
      · exact .inl (by rw [h])
      · exact .inr (by rw [h])
    · rw [if_pos (by simpa using h3)] at h; cases h

/-- **C57 (digital).** `validate_dout_data` accepts exactly the non-empty finite integer or float matrices with at least `min_samples` rows and one
column that hold only 0 and 1; everything else raises `ValueError`. -/
theorem C57_dout (a : NdArr K) (m : ℤ) : ((validateDout a m).err = none ↔ Usable a ∧ ∃ rows cols, a.shape = [rows, cols] ∧ m ≤ (rows : ℤ) ∧ 1 ≤ cols ∧
      ∀ e ∈ a.data, e = .fin 0 ∨ e = .fin 1) ∧ ((validateDout a m).err = none ∨ (validateDout a m).err = some .valueError) := by
  constructor
  · constructor
    · intro h
      obtain ⟨rows, cols, h1, h2, h3, h4, h5, _⟩ := dout_ok a m h
      exact ⟨h2, rows, cols, h1, h3, h4, h5⟩
    · rintro ⟨hu, rows, cols, hs, hm, hc, hd⟩
      unfold validateDout
      rw [(basic_iff a).1.mpr hu, hs]
      simp only
      rw [if_neg (by omega), if_neg (by omega), if_neg]
      rw [not_not, List.all_eq_true]
      intro v hv
      obtain ⟨e, he, rfl⟩ := List.mem_map.mp hv
      rcases hd e he with rfl | rfl <;> simp [Elem.val]
  · unfold validateDout
    rcases (basic_iff a).2 with hb | hb
    swap
    · rw [hb]; exact .inr rfl
    rw [hb]
    simp only
    match a.shape with
    | [] => exact .inr rfl
    | [_] => exact .inr rfl
    | _ :: _ :: _ :: _ => exact .inr rfl
    | [rows, cols] =>
      simp only
      by_cases h1 : (rows : ℤ) < m
      · rw [if_pos h1]; exact .inr rfl
      rw [if_neg h1]
      by_cases h2 : cols < 1
      · rw [if_pos h2]; exact .inr rfl
      rw [if_neg h2]
      by_cases h3 : ¬ (a.data.map Elem.val).all (fun v => decide (v = 0) || decide (v = 1)) = true
      · rw [if_pos h3]; exact .inr rfl
      · rw [if_neg h3]; exact .inl rfl

private theorem sum_zero_one (l : List K) (h : ∀ v ∈ l, v = 0 ∨ v = 1) : (l.sum = 0 ↔ ∀ v ∈ l, v = 0) ∧ (l.sum = l.length ↔ ∀ v ∈ l, v = 1) ∧ 0 ≤ l.sum ∧ l.sum ≤ l.length := by
  induction l with
  | nil => simp
  | cons a l ih =>
    obtain ⟨i1, i2, i3, i4⟩ := ih fun v hv => h v (List.mem_cons_of_mem _ hv)
    simp only [List.sum_cons, List.length_cons, Nat.cast_add, Nat.cast_one, List.forall_mem_cons]
    rcases h a List.mem_cons_self with h0 | h0 <;> rw [h0]
    · refine ⟨⟨fun hs => ⟨rfl, i1.mp (by linarith)⟩, fun hs => by rw [i1.mpr hs.2, add_zero]⟩, ⟨fun hs => ?_, fun hs => absurd hs.1 (by norm_num)⟩, by linarith, by linarith⟩
      linarith
    · refine ⟨⟨fun hs => ?_, fun hs => absurd hs.1 (by norm_num)⟩, ⟨fun hs => ⟨rfl, i2.mp (by linarith)⟩, fun hs => by rw [i2.mpr hs.2]; ring⟩, by linarith, by linarith⟩
      linarith

/-- **C57 (stuck bits).** An accepted matrix never raises for stuck bits. Its warnings name exactly the columns that are 0 in every row, exactly
those that are 1 in every row, and the transposition warning appears exactly when there are more columns than rows. -/
theorem C57_dout_warnings (a : NdArr K) (hwf : a.WF) (m : ℤ) (h : (validateDout a m).err = none) : ∃ rows cols, a.shape = [rows, cols] ∧
    (Warn.moreBitsThanSamples ∈ (validateDout a m).warns ↔ rows < cols) ∧
    (∀ c, (∃ l, Warn.stuckLow l ∈ (validateDout a m).warns ∧ c ∈ l) ↔ c < cols ∧ ∀ r < rows, EntryIs a cols r c 0) ∧
    (∀ c, (∃ l, Warn.stuckHigh l ∈ (validateDout a m).warns ∧ c ∈ l) ↔ c < cols ∧ ∀ r < rows, EntryIs a cols r c 1) ∧
    Warn.lowAmplitude ∉ (validateDout a m).warns := by
  obtain ⟨rows, cols, hs, hu, hm, hc, hd, hw⟩ := dout_ok a m h
  rw [hw]
  have hlen : a.data.length = rows * cols := by
    have := hwf
    unfold NdArr.WF at this
    rw [hs] at this
    simpa using this
  have hidx : ∀ r < rows, ∀ c < cols, r * cols + c < a.data.length := by
    intro r hr c hc
    rw [hlen]
    calc r * cols + c < r * cols + cols := by omega
      _ = (r + 1) * cols := by ring
      _ ≤ rows * cols := Nat.mul_le_mul_right _ hr
  have hat : ∀ r < rows, ∀ c < cols, ∀ w : K, (a.at2 cols r c = w ↔ EntryIs a cols r c w) := by
    intro r hr c hc w
    have hi := hidx r hr c hc
    unfold NdArr.at2 EntryIs
    rw [List.getD_eq_getElem _ _ (by simpa using hi), List.getElem_map, List.getElem?_eq_getElem hi]
    obtain ⟨v, hv⟩ := hu.finite _ (List.getElem_mem hi)
    rw [hv]
    simp [Elem.val]
  have h01 : ∀ c < cols, ∀ v ∈ (List.range rows).map (fun r => a.at2 cols r c), v = 0 ∨ v = 1 := by
    intro c hc v hv
    obtain ⟨r, hr, rfl⟩ := List.mem_map.mp hv
    have hr := List.mem_range.mp hr
    have hi := hidx r hr c hc
    rcases hd _ (List.getElem_mem hi) with h | h
    · left; rw [hat r hr c hc]; unfold EntryIs; rw [List.getElem?_eq_getElem hi, h]
    · right; rw [hat r hr c hc]; unfold EntryIs; rw [List.getElem?_eq_getElem hi, h]
  have hlow : ∀ c < cols, (bitSum a rows cols c = 0 ↔ ∀ r < rows, EntryIs a cols r c 0) := by
    intro c hc
    unfold bitSum
    rw [(sum_zero_one _ (h01 c hc)).1]
    constructor
    · intro hh r hr
      exact (hat r hr c hc 0).mp (hh _ (List.mem_map.mpr ⟨r, List.mem_range.mpr hr, rfl⟩))
    · intro hh v hv
      obtain ⟨r, hr, rfl⟩ := List.mem_map.mp hv
      exact (hat r (List.mem_range.mp hr) c hc 0).mpr (hh r (List.mem_range.mp hr))
  have hhigh : ∀ c < cols, (bitSum a rows cols c = rows ↔ ∀ r < rows, EntryIs a cols r c 1) := by
    intro c hc
    have := (sum_zero_one _ (h01 c hc)).2.1
    rw [List.length_map, List.length_range] at this
    unfold bitSum
    rw [this]
    constructor
    · intro hh r hr
      exact (hat r hr c hc 1).mp (hh _ (List.mem_map.mpr ⟨r, List.mem_range.mpr hr, rfl⟩))
    · intro hh v hv
      obtain ⟨r, hr, rfl⟩ := List.mem_map.mp hv
      exact (hat r (List.mem_range.mp hr) c hc 1).mpr (hh r (List.mem_range.mp hr))
  set low := (List.range cols).filter fun c => decide (bitSum a rows cols c = 0) with hlo
  set high := (List.range cols).filter fun c => decide (bitSum a rows cols c = rows) with hhi
  have hst : stuckWarnings a rows cols = (if 0 < low.length then [.stuckLow low] else []) ++ (if 0 < high.length then [.stuckHigh high] else []) := rfl
  rw [hst]
  have m1 : ∀ c, c ∈ low ↔ c < cols ∧ ∀ r < rows, EntryIs a cols r c 0 := by
    intro c
    rw [hlo, List.mem_filter, List.mem_range, decide_eq_true_eq]
    exact and_congr_right fun hc => hlow c hc
  have m2 : ∀ c, c ∈ high ↔ c < cols ∧ ∀ r < rows, EntryIs a cols r c 1 := by
    intro c
    rw [hhi, List.mem_filter, List.mem_range, decide_eq_true_eq]
    exact and_congr_right fun hc => hhigh c hc
  have p1 : ∀ c, c ∈ low → 0 < low.length := fun c hc => List.length_pos_of_mem hc
  have p2 : ∀ c, c ∈ high → 0 < high.length := fun c hc => List.length_pos_of_mem hc
  refine ⟨rows, cols, hs, ?_, fun c => ?_, fun c => ?_, ?_⟩
  · by_cases h1 : rows < cols <;> by_cases h2 : 0 < low.length <;> by_cases h3 : 0 < high.length <;> simp [h1, h2, h3]
  · rw [← m1 c]
    constructor
    · rintro ⟨l, hl, hcl⟩
      have : l = low := by
        by_cases h1 : rows < cols <;> by_cases h2 : 0 < low.length <;> by_cases h3 : 0 < high.length <;> simp [h1, h2, h3] at hl <;> exact hl
      rwa [this] at hcl
    · intro hc
      exact ⟨low, by simp [p1 c hc], hc⟩
  · rw [← m2 c]
    constructor
    · rintro ⟨l, hl, hcl⟩
      have : l = high := by
        by_cases h1 : rows < cols <;> by_cases h2 : 0 < low.length <;> by_cases h3 : 0 < high.length <;> simp [h1, h2, h3] at hl <;> exact hl
      rwa [this] at hcl
    · intro hc
      exact ⟨high, by simp [p2 c hc], hc⟩
  · by_cases h1 : rows < cols <;> by_cases h2 : 0 < low.length <;> by_cases h3 : 0 < high.length <;> simp [h1, h2, h3]

/-- The comment in the source allows boolean bit matrices; they are rejected, because numpy booleans are not a numeric dtype. -/
theorem C57_bool_rejected (a : NdArr K) (m : ℤ) (h : a.dtype = .bool) : (validateDout a m).err = some .valueError ∧ (validateAout a m).err = some .valueError := by
  have hu : ¬ Usable a := by
    intro hu
    rcases hu.dtype with h' | h' <;> rw [h] at h' <;> cases h'
  constructor
  · rcases (C57_dout a m).2 with h' | h'
    · exact absurd ((C57_dout a m).1.mp h').1 hu
    · exact h'
  · rcases (C57_aout a m).2 with h' | h'
    · exact absurd ((C57_aout a m).1.mp h').1 hu
    · exact h'

/-! ### Concrete cases -/

example : validateDout (K := ℚ) ⟨[3, 2], .int, [.fin 0, .fin 1, .fin 0, .fin 1, .fin 0, .fin 0]⟩ 2 = ⟨[.stuckLow [0]], none⟩ := by decide +kernel
example : validateDout (K := ℚ) ⟨[2, 1], .bool, [.fin 0, .fin 1]⟩ 2 = ⟨[], some .valueError⟩ := by decide +kernel
example : validateDout (K := ℚ) ⟨[1, 2], .float, [.fin 0, .fin 2]⟩ 1 = ⟨[.moreBitsThanSamples], some .valueError⟩ := by decide +kernel
example : validateAout (K := ℚ) ⟨[3], .float, [.fin 0, .fin (1 / 2), .fin 1]⟩ 3 = ⟨[], none⟩ := by decide +kernel
example : validateAout (K := ℚ) ⟨[2], .float, [.fin 0, .nan]⟩ 1 = ⟨[], some .valueError⟩ := by decide +kernel
example : (⟨[3, 2], .int, [.fin 0, .fin 1, .fin 0, .fin 1, .fin 0, .fin 0]⟩ : NdArr ℚ).WF := rfl

end Verif
