import Verif.Model.Matlab
import Verif.Theorems.Frequency
import Verif.Theorems.CapWeight
import Verif.Theorems.Dout

/-!
# C115, C116: the Python helpers against the MATLAB functions they are ported from
-/

namespace Verif

open Model Spec

variable {K : Type} [Field K] [LinearOrder K] [IsStrictOrderedRing K]

/-! ## C115: aliasing and capacitor weights -/

/-- **C115.** `alias.m` refuses exactly the non-positive sampling rates; at every other rate and every frequency, negative ones and zone edges included,
its zone rule and `fold_frequency_to_nyquist` give the same number. -/
theorem C115_alias [FloorRing K] (fin fs : K) : mlAlias fin fs = if 0 < fs then some (foldFrequency fin fs) else none := by
  unfold mlAlias
  by_cases hfs : 0 < fs
  · rw [if_neg (not_le.mpr hfs), if_pos hfs]
    simp only [Option.some.injEq]
    have hq := Int.floor_le (fin / fs)
    have hq' := Int.lt_floor_add_one (fin / fs)
    set q := ⌊fin / fs⌋
    have h1 : (q : K) * fs ≤ fin := by rwa [le_div_iff₀ hfs] at hq
    have h2 : fin < ((q : K) + 1) * fs := by rwa [div_lt_iff₀ hfs] at hq'
    apply C04_fold_unique _ _ _ hfs
    by_cases hh : fin / fs < q + 1 / 2
    · have hz : ⌊fin / fs * 2⌋ = 2 * q := by
        rw [Int.floor_eq_iff]
        push_cast
        constructor <;> linarith
      rw [hz, if_pos (by omega)]
      rw [div_lt_iff₀ hfs] at hh
      refine ⟨by linarith, by linarith, q, Or.inl (by ring)⟩
    · have hz : ⌊fin / fs * 2⌋ = 2 * q + 1 := by
        rw [Int.floor_eq_iff]
        push_cast
        push Not at hh
        constructor <;> linarith
      rw [hz, if_neg (by omega)]
      push Not at hh
      rw [le_div_iff₀ hfs] at hh
      refine ⟨by linarith, by linarith, q + 1, Or.inr (by push_cast; ring)⟩
  · rw [if_pos (not_lt.mp hfs), if_neg hfs]

example : mlAlias (-13 : ℚ) 10 = some 3 ∧ mlAlias (5 : ℚ) 10 = some 5 ∧ mlAlias (17 : ℚ) 10 = some 3 := by decide +kernel

private theorem cap_step_eq (w : List K) (cl cd cb cp : K) (hl : 0 ≤ cl) (hd : 0 < cd) (hb : 0 ≤ cb) (hp : 0 ≤ cp) :
    capStep (w, cl) (cd, cb, cp) = cdacwgtStep (w, cl) (cd, cb, cp) ∧ 0 ≤ (cdacwgtStep (w, cl) (cd, cb, cp)).2 := by
  have hC : 0 < cp + cd + cl := by linarith
  have e : cd + cp + cl = cp + cd + cl := by ring
  unfold capStep cdacwgtStep
  simp only [e]
  rw [if_neg hC.ne']
  rcases hb.eq_or_lt with h0 | h0
  · subst h0
    refine ⟨?_, ?_⟩
    · simp [mul_div_assoc]
    · simpa using hC.le
  · rw [if_pos h0, if_neg h0.ne']
    refine ⟨?_, by positivity⟩
    simp only [Prod.mk.injEq]
    refine ⟨by simp [mul_div_assoc], ?_⟩
    field_simp
    ring

private theorem cap_loop_eq (secs : List (K × K × K)) (h : ∀ x ∈ secs, 0 < x.1 ∧ 0 ≤ x.2.1 ∧ 0 ≤ x.2.2) (st : List K × K) (hst : 0 ≤ st.2) :
    secs.foldl capStep st = secs.foldl cdacwgtStep st := by
  induction secs generalizing st with
  | nil => rfl
  | cons x l ih =>
    obtain ⟨w, cl⟩ := st
    obtain ⟨cd, cb, cp⟩ := x
    obtain ⟨hd, hb, hp⟩ := h (cd, cb, cp) (by simp)
    obtain ⟨he, hn⟩ := cap_step_eq w cl cd cb cp hst hd hb hp
    rw [List.foldl_cons, List.foldl_cons, he]
    exact ih (fun y hy => h y (by simp [hy])) _ hn

/-- What `cap2weight.m` accepts: at least one section, positive bit capacitors, non-negative bridge and parasitic capacitors. -/
def Spec.CapArray (cd cb cp : List K) : Prop :=
  cd ≠ [] ∧ cb.length = cd.length ∧ cp.length = cd.length ∧ (∀ c ∈ cd, 0 < c) ∧ (∀ c ∈ cb, 0 ≤ c) ∧ ∀ c ∈ cp, 0 ≤ c

/-- **C115.** Whatever capacitor array `cap2weight.m` accepts, `convert_cap_to_weight` returns the same weights and the same total capacitance. -/
theorem C115_cap2weight (cd cb cp : List K) (h : CapArray cd cb cp) :
    ∃ r, cap2weight cd cb cp = some r ∧ convertCapToWeight cd cb cp = .ok r := by
  obtain ⟨h0, hb, hp, pd, pb, pp⟩ := h
  have hb0 : cb ≠ [] := by intro e; apply h0; apply List.length_eq_zero_iff.mp; rw [← hb, e]; rfl
  have hp0 : cp ≠ [] := by intro e; apply h0; apply List.length_eq_zero_iff.mp; rw [← hp, e]; rfl
  have key : (cd.zip (cb.zip cp)).foldl capStep ([], 0) = (cd.zip (cb.zip cp)).foldl cdacwgtStep ([], 0) := by
    apply cap_loop_eq _ _ _ le_rfl
    rintro ⟨a, b, c⟩ hx
    have h1 := List.of_mem_zip hx
    have h2 := List.of_mem_zip h1.2
    exact ⟨pd _ h1.1, pb _ h2.1, pp _ h2.2⟩
  refine ⟨(cd.zip (cb.zip cp)).foldl cdacwgtStep ([], 0), ?_, ?_⟩
  · unfold cap2weight cdacwgt
    rw [if_neg (by simp [h0, hb0, hp0]), if_neg (by simp [hb, hp]), if_neg (by simpa using pd), if_neg (by push Not; simpa using ⟨pb, pp⟩)]
    simp
  · unfold convertCapToWeight
    rw [if_neg (by simp [hb, hp]), key]

/-- **C115.** `cap2weight.m` accepts nothing else, and every array `convert_cap_to_weight` refuses is refused by `cap2weight.m` too. -/
theorem C115_cap2weight_accepts (cd cb cp : List K) :
    ((cap2weight cd cb cp).isSome ↔ CapArray cd cb cp) ∧ (∀ e, convertCapToWeight cd cb cp = .error e → cap2weight cd cb cp = none) := by
  have hiff : (cap2weight cd cb cp).isSome ↔ CapArray cd cb cp := by
    constructor
    · intro h
      unfold cap2weight cdacwgt at h
      simp only [List.reverse_eq_nil_iff, List.length_reverse, List.mem_reverse] at h
      split_ifs at h with h1 h2 h3 h4
      · simp at h
      · simp at h
      · simp at h
      · simp at h
      · push Not at h1 h2 h3 h4
        exact ⟨h1.1, h2.1, h2.2, h3, h4.1, h4.2⟩
    · intro h
      obtain ⟨r, hr, -⟩ := C115_cap2weight cd cb cp h
      rw [hr]
      rfl
  refine ⟨hiff, fun e he => ?_⟩
  rw [← Option.not_isSome_iff_eq_none, hiff]
  intro h
  obtain ⟨r, -, hr⟩ := C115_cap2weight cd cb cp h
  rw [hr] at he
  exact absurd he (by simp)

example : CapArray [(1 : ℚ), 2, 1, 2] [0, 3, 0, 0] [1, 0, 0, 1 / 2] ∧ cap2weight [(1 : ℚ), 2, 1, 2] [0, 3, 0, 0] [1, 0, 0, 1 / 2] =
    (convertCapToWeight [(1 : ℚ), 2, 1, 2] [0, 3, 0, 0] [1, 0, 0, 1 / 2]).toOption := by
  refine ⟨by unfold CapArray; decide +kernel, by decide +kernel⟩

/-- **C115 (one-way).** The Python port refuses less. A negative bridge capacitor counts as no bridge, a zero bit capacitor gets weight zero and an empty array is
an empty result; `cap2weight.m` raises an error on all three. -/
theorem C115_python_accepts_more :
    cap2weight [(1 : ℚ), 1] [-1, 0] [0, 0] = none ∧ convertCapToWeight [(1 : ℚ), 1] [-1, 0] [0, 0] = convertCapToWeight [(1 : ℚ), 1] [0, 0] [0, 0] ∧
    cap2weight [(0 : ℚ), 1] [0, 0] [0, 0] = none ∧ convertCapToWeight [(0 : ℚ), 1] [0, 0] [0, 0] = .ok ([0, 1], 1) ∧
    cap2weight ([] : List ℚ) [] [] = none ∧ convertCapToWeight ([] : List ℚ) [] [] = .ok ([], 0) := by
  decide +kernel

/-! ## C116: overflow check -/

private theorem fold_min_eq (l : List K) (h : l ≠ []) : l.min?.getD 0 = foldMin (l.headD 0) l := by
  cases l with
  | nil => exact absurd rfl h
  | cons a t => simp [List.min?, foldMin]

private theorem fold_max_eq (l : List K) (h : l ≠ []) : l.max?.getD 0 = foldMax (l.headD 0) l := by
  cases l with
  | nil => exact absurd rfl h
  | cons a t => simp [List.max?, foldMax]

/-- **C116.** On every record at least as tall as wide (as many samples as bits, or more), with one weight per bit and the checked position left out or between 1
(LSB) and `M` (MSB), `analyze_overflow` returns what `bitchk.m` (behind `ovfchk.m` and `overflowChk.m`) returns: the same ranges, the same
percentages, the same overflow and underflow masks. -/
theorem C116_overflow_matches (M : ℕ) (rows : List (List K)) (w : List K) (ofb : Option ℤ) (hM : 0 < M) (hN : M ≤ rows.length) (hw : w.length = M)
    (hofb : ∀ c ∈ ofb, 1 ≤ c ∧ c ≤ (M : ℤ)) :
    ∃ r, analyzeOverflow M rows w ofb = .ok r ∧ bitchk M rows (some w) ofb = some r := by
  have hne : rows ≠ [] := by intro e; rw [e] at hN; simp at hN; omega
  have hpos : 1 ≤ ofb.getD M ∧ ofb.getD M ≤ (M : ℤ) := by
    cases ofb with
    | none => simp; omega
    | some c => simpa using hofb c rfl
  unfold analyzeOverflow bitchk bitchkCore
  rw [if_neg (by simp [hw]), if_neg (by simp [hne])]
  simp only
  have hc : ¬ ∃ c ∈ ofb, c < 1 ∨ (M : ℤ) < c := by
    rintro ⟨c, hc, h⟩
    have := hofb c hc
    omega
  rw [if_neg (show ¬ rows.length < M by omega), if_neg hc, if_neg (show ¬ ((M : ℤ) - ofb.getD M < -M ∨ (M : ℤ) ≤ M - ofb.getD M) by omega),
    if_neg (show ¬ ((some w).getD ((List.range M).map fun i => 2 ^ (M - 1 - i))).length ≠ M by simp [hw]),
    if_neg (show ¬ M = 0 by omega)]
  refine ⟨_, rfl, ?_⟩
  simp only [Option.getD_some, Option.some.injEq]
  have hs : ∀ ii, bitchkSum rows w (ii + 1) = rows.map fun r => tailDot r w ii := by intro ii; simp [bitchkSum, tailDot]
  have hne' : ∀ ii, (rows.map fun r => tailDot r w ii) ≠ [] := by intro ii; simp [hne]
  have hr : List.range' 1 M = (List.range M).map (· + 1) := by rw [List.range'_eq_map_range]; apply List.map_congr_left; intros; omega
  have hidx : (if (M : ℤ) - ofb.getD M < 0 then (M : ℤ) - ofb.getD M + M else (M : ℤ) - ofb.getD M).toNat = M - (ofb.getD M).toNat := by
    rw [if_neg (by omega)]; omega
  have hd : ∀ ii, ((rows.map fun r => tailDot r w ii).map fun t => t / (w.drop ii).sum) = residues rows w ii := by
    intro ii; simp [residues, List.map_map, Function.comp_def]
  rw [hr, hidx]
  simp only [List.map_map, Function.comp_def, hs, Nat.add_sub_cancel, hd]
  have hlen : ∀ ii, (residues rows w ii).length = rows.length := by intro ii; simp [residues]
  congr 1
  · apply List.map_congr_left
    intro i _
    rw [fold_min_eq _ (hne' i)]
  · apply List.map_congr_left
    intro i _
    rw [fold_max_eq _ (hne' i)]
  · apply List.map_congr_left
    intro i _
    unfold percentOf
    rw [hlen, List.countP_eq_length_filter]
  · apply List.map_congr_left
    intro i _
    unfold percentOf
    rw [hlen, List.countP_eq_length_filter]

example : (bitchk 2 [[(1 : ℚ), 0], [0, 0], [1, 1]] (some [2, 1]) (some 1)).map (fun r => (r.percentZero, r.percentOne, r.ovfZero, r.ovfOne)) =
    some ([100 / 3, 200 / 3], [100 / 3, 100 / 3], [true, true, false], [false, false, true]) := by
  decide +kernel

/-- **C116 (refuted for wide records).** With fewer samples than bits the two programs part: `bitchk.m` transposes the matrix and then refuses the weight vector,
while `analyze_overflow` analyses the record as it stands. -/
theorem C116_wide_differs (M : ℕ) (rows : List (List K)) (w : List K) (hN : rows.length < M) (hne : rows ≠ []) (hw : w.length = M) :
    bitchk M rows (some w) none = none ∧ ∃ r, analyzeOverflow M rows w none = .ok r := by
  constructor
  · unfold bitchk bitchkCore
    rw [if_pos hN]
    simp only [Option.getD_some]
    rw [if_neg (by simp), if_pos (by omega)]
  · unfold analyzeOverflow
    rw [if_neg (by simp [hw]), if_neg (by simp [hne])]
    simp only [Option.getD_none, sub_self]
    rw [if_neg (by omega)]
    exact ⟨_, rfl⟩

example : bitchk 2 [[(1 : ℚ), 0]] (some [2, 1]) none = none := (C116_wide_differs 2 [[(1 : ℚ), 0]] [2, 1] (by simp) (by simp) rfl).1

/-- **C116 (refuted for positions above the MSB).** A checked position from `M + 1` to `2 M` is refused by `bitchk.m`; `analyze_overflow` wraps the negative index
around and reports the masks of position `ofb - M` as if it had been asked for. Positions below 1 and above `2 M` are refused by both. -/
theorem C116_position_wraps (M : ℕ) (rows : List (List K)) (w : List K) (c : ℤ) (hM : 0 < M) (hne : rows ≠ []) (hw : w.length = M) :
    ((M : ℤ) < c → bitchk M rows (some w) (some c) = none) ∧
    ((M : ℤ) < c → c ≤ 2 * M → analyzeOverflow M rows w (some c) = analyzeOverflow M rows w (some (c - M))) ∧
    (c < 1 ∨ 2 * (M : ℤ) < c → analyzeOverflow M rows w (some c) = .error .indexError) := by
  refine ⟨?_, ?_, ?_⟩
  · intro h
    unfold bitchk bitchkCore
    split
    · rename_i h1
      simp only
      rw [if_pos (by simp; omega)]
    · simp only
      rw [if_pos (by simp; omega)]
  · intro h1 h2
    unfold analyzeOverflow
    rw [if_neg (by simp [hw]), if_neg (by simp [hne])]
    simp only [Option.getD_some]
    rw [if_neg (show ¬ ((M : ℤ) - c < -M ∨ (M : ℤ) ≤ M - c) by omega), if_neg (show ¬ ((M : ℤ) - (c - M) < -M ∨ (M : ℤ) ≤ M - (c - M)) by omega)]
    have e : (if (M : ℤ) - c < 0 then (M : ℤ) - c + M else (M : ℤ) - c).toNat = (if (M : ℤ) - (c - M) < 0 then (M : ℤ) - (c - M) + M else (M : ℤ) - (c - M)).toNat := by
      rw [if_pos (by omega), if_neg (by omega)]
      congr 1
      ring
    rw [e, if_neg (show ¬ w.length ≠ M by simp [hw]), if_neg (show ¬ (M ≠ 0 ∧ rows = []) by simp [hne])]
  · intro h
    unfold analyzeOverflow
    rw [if_neg (by simp [hw]), if_neg (by simp [hne])]
    simp only [Option.getD_some]
    rw [if_pos (by omega)]

example : (analyzeOverflow 2 [[(1 : ℚ), 0], [0, 0], [1, 1]] [2, 1] (some 3)) = analyzeOverflow 2 [[(1 : ℚ), 0], [0, 0], [1, 1]] [2, 1] (some 1) :=
  (C116_position_wraps 2 [[(1 : ℚ), 0], [0, 0], [1, 1]] [2, 1] 3 (by simp) (by simp) rfl).2.1 (by simp) (by simp)

end Verif
