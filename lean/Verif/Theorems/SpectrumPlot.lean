import Verif.Model.Plots
import Verif.Theorems.SpectrumEngine
import Verif.Theorems.Polar
import Mathlib.Data.List.GetD

/-!
# C90: axis limits, markers and labels of the spectrum plots
-/

namespace Verif

open Model Spec

variable {K : Type} [Field K] [LinearOrder K] [IsStrictOrderedRing K] [FloorRing K]

/-- **C90 (axis floor).** For a finite noise line from -180 dB on, the floor of the axis is a multiple of 20 dB that leaves between 20 and 40 dB
below the line; a lower line gives -200. A noise line that is not finite is replaced by the fallback, and without one the floor is -100. -/
theorem C90_axis_floor (l : K) (fb : Option K) :
    (-180 ≤ l → (∃ k : ℤ, axisMin (some l) fb = 20 * (k : K)) ∧ l - 40 < axisMin (some l) fb ∧ axisMin (some l) fb ≤ l - 20) ∧
    (l < -180 → axisMin (some l) fb = -200) ∧ axisMin none (some l) = axisMin (some l) none ∧ axisMin (none : Option K) none = -100 := by
  have h0 := Int.floor_le (l / 20)
  have h1 := Int.lt_floor_add_one (l / 20)
  rw [le_div_iff₀ (by norm_num)] at h0
  rw [div_lt_iff₀ (by norm_num)] at h1
  refine ⟨fun hl => ?_, fun hl => ?_, rfl, rfl⟩
  · have hk : (-9 : ℤ) ≤ ⌊l / 20⌋ := by
      rw [Int.le_floor, le_div_iff₀ (by norm_num)]
      push_cast
      linarith
    have hk' : ((-9 : ℤ) : K) ≤ ⌊l / 20⌋ := by exact_mod_cast hk
    push_cast at hk'
    have e : axisMin (some l) fb = 20 * (⌊l / 20⌋ : K) - 20 := by
      unfold axisMin
      simp only
      rw [max_eq_left (by linarith)]
    rw [e]
    exact ⟨⟨⌊l / 20⌋ - 1, by push_cast; ring⟩, by linarith, by linarith⟩
  · unfold axisMin
    simp only
    rw [max_eq_right (by linarith)]

example : axisMin (some (-87 : ℚ)) none = -120 ∧ axisMin (some (-230 : ℚ)) none = -200 ∧ axisMin (none : Option ℚ) (some 3) = -20 := by decide +kernel

/-- **C90 (light style).** With a finite noise line the floor lies between -200 and -40 dB and, inside this range, exactly 20 dB below the
in-band median. -/
theorem C90_light_floor (m l : K) (fb : Option K) :
    -200 ≤ lightAxisMin m (some l) fb ∧ lightAxisMin m (some l) fb ≤ -40 ∧ (-180 ≤ m → m ≤ -20 → lightAxisMin m (some l) fb = m - 20) ∧
    lightAxisMin m none fb = axisMin none fb := by
  unfold lightAxisMin
  refine ⟨le_min (le_max_right _ _) (by norm_num), min_le_right _ _, fun h1 h2 => ?_, rfl⟩
  rw [max_eq_left (by linarith), min_eq_left (by linarith)]

example : lightAxisMin (-95 : ℚ) (some (-90)) none = -115 ∧ lightAxisMin (-5 : ℚ) (some (-90)) none = -40 := by decide +kernel

/-- **C90 (dark style).** The bars never start below the axis: their foot is the given base line, or the floor of the axis. -/
theorem C90_dark_floor (nf fb base : Option K) :
    (darkAxisMin nf fb base).1 ≤ (darkAxisMin nf fb base).2 ∧ (darkAxisMin nf fb base).1 ≤ axisMin nf fb ∧
    (∀ b, base = some b → (darkAxisMin nf fb base).2 = b) := by
  cases base with
  | none => exact ⟨le_rfl, le_rfl, fun b h => by cases h⟩
  | some b => exact ⟨min_le_right _ _, min_le_left _ _, fun c h => by cases h; rfl⟩

example : darkAxisMin (some (-87 : ℚ)) none (some (-150)) = (-150, -150) ∧ darkAxisMin (some (-87 : ℚ)) none (some (-80)) = (-120, -80) := by
  decide +kernel

omit [FloorRing K] in
/-- **C90 (spur label).** The strongest spur is marked exactly when its level is inside the axis, more than the margin above the floor, and its
frequency inside the plot. Its label then always stays inside the axis, for every axis limits; with a range of at least 2 dB it keeps the margin to
both ends. It stands 10 dB above the spur, or 8 dB below when there is no room above, or at the spur itself when there is no room below either. -/
theorem C90_spur_label (a b s x : K) :
    ((refreshSpur (some a) (some b) (some s) (some x)).isSome ↔
      min a b < max a b ∧ min a b + min (max (4 / 100 * (max a b - min a b)) 1) 6 < s ∧ s ≤ max a b ∧ 0 ≤ x ∧ x ≤ 1) ∧
    ∀ y v h, refreshSpur (some a) (some b) (some s) (some x) = some (y, v, h) →
      (min a b ≤ y ∧ y ≤ max a b) ∧
      (2 ≤ max a b - min a b → min a b + min (max (4 / 100 * (max a b - min a b)) 1) 6 ≤ y ∧ y ≤ max a b - min (max (4 / 100 * (max a b - min a b)) 1) 6) ∧
      (v = .bottom → y = s + 10) ∧ (v = .top → y = s - 8) ∧ (v = .center → |y - s| ≤ 6) := by
  unfold refreshSpur
  simp only
  generalize hlo : min a b = lo
  generalize hhi : max a b = hi
  generalize hm : min (max (4 / 100 * (hi - lo)) 1) 6 = m
  have hm6 : m ≤ 6 := by rw [← hm]; exact min_le_right _ _
  have hm1 : 1 ≤ m := by rw [← hm]; exact le_min (le_max_right _ _) (by norm_num)
  have hspan : 2 ≤ hi - lo → 2 * m ≤ hi - lo := by
    intro h
    have : m ≤ max (4 / 100 * (hi - lo)) 1 := by rw [← hm]; exact min_le_left _ _
    rcases le_total (4 / 100 * (hi - lo)) 1 with h2 | h2
    · rw [max_eq_right h2] at this; linarith
    · rw [max_eq_left h2] at this; linarith
  have hle : lo ≤ hi := by rw [← hlo, ← hhi]; exact min_le_max
  by_cases h1 : hi ≤ lo
  · rw [if_pos h1]
    exact ⟨⟨fun h => (by cases h), fun h => absurd h.1 (not_lt.mpr h1)⟩, fun y v h hh => by cases hh⟩
  rw [if_neg h1]
  push Not at h1
  by_cases h2 : s ≤ lo + m ∨ hi < s
  · rw [if_pos h2]
    refine ⟨⟨fun h => (by cases h), fun h => ?_⟩, fun y v h hh => by cases hh⟩
    rcases h2 with h2 | h2
    · exact absurd h.2.1 (not_lt.mpr h2)
    · exact absurd h.2.2.1 (not_le.mpr h2)
  rw [if_neg h2]
  push Not at h2
  by_cases h3 : x < 0 ∨ 1 < x
  · rw [if_pos h3]
    refine ⟨⟨fun h => (by cases h), fun h => ?_⟩, fun y v h hh => by cases hh⟩
    rcases h3 with h3 | h3
    · exact absurd h.2.2.2.1 (not_le.mpr h3)
    · exact absurd h.2.2.2.2 (not_le.mpr h3)
  rw [if_neg h3]
  push Not at h3
  refine ⟨⟨fun _ => ⟨h1, h2.1, h2.2, h3.1, h3.2⟩, fun _ => rfl⟩, ?_⟩
  intro y v h hh
  injection hh with hh
  injection hh with hy hv
  injection hv with hv _
  subst hy hv
  by_cases h4 : hi - m < s + 10
  · rw [if_pos h4]
    by_cases h5 : s - 8 < lo + m
    · rw [if_pos h5]
      try dsimp only
      refine ⟨⟨le_min (le_trans (by linarith) (le_max_left _ _)) (by linarith), le_trans (min_le_right _ _) (by linarith)⟩, fun h => ⟨?_, min_le_right _ _⟩,
        fun h => (by cases h), fun h => (by cases h), fun _ => ?_⟩
      · have := hspan h
        exact le_min (le_max_right _ _) (by linarith)
      · rw [max_eq_left (by linarith)]
        rcases le_total s (hi - m) with h6 | h6
        · rw [min_eq_left h6, sub_self, abs_zero]; norm_num
        · rw [min_eq_right h6, abs_le]; constructor <;> linarith
    · rw [if_neg h5]
      try dsimp only
      push Not at h5
      refine ⟨⟨by linarith, by linarith⟩, fun _ => ⟨by linarith, by linarith⟩, fun h => (by cases h), fun _ => rfl, fun h => (by cases h)⟩
  · rw [if_neg h4]
    push Not at h4
    rw [if_neg (show ¬ s + 10 < lo + m by linarith)]
    try dsimp only
    refine ⟨⟨by linarith, by linarith⟩, fun _ => ⟨by linarith, by linarith⟩, fun _ => rfl, fun h => (by cases h), fun h => (by cases h)⟩

/-- A spur at -60 dB on an axis from -120 to 0, and one close to the top. -/
example : refreshSpur (some (-120 : ℚ)) (some 0) (some (-60)) (some (1 / 2)) = some (-50, .bottom, .center) ∧
    refreshSpur (some (-120 : ℚ)) (some 0) (some (-5)) (some (99 / 100)) = some (-13, .top, .right) ∧
    refreshSpur (some (-120 : ℚ)) (some 0) (some (-118)) (some (1 / 2)) = none := by decide +kernel

/-- What is marked (specification): harmonic `h` at bin `b`. -/
def Marked (bins : List ℤ) (n : ℕ) (collided : List ℕ) (db : ℕ → Option K) (nf : Option K) (upTo : ℤ) (h : ℕ) (b : ℤ) : Prop :=
  2 ≤ h ∧ h ≤ n + 1 ∧ (h : ℤ) ≤ upTo ∧ h ∉ collided ∧ b = bins.getD (h - 2) 0 ∧ ∃ p, db b.toNat = some p ∧ ∀ l, nf = some l → l - 20 ≤ p

omit [IsStrictOrderedRing K] [FloorRing K] in
private theorem label_iff (p nf : Option K) : shouldLabel p nf = true ↔ ∃ v, p = some v ∧ ∀ l, nf = some l → l - 20 ≤ v := by
  unfold shouldLabel
  rcases p with _ | p <;> rcases nf with _ | l <;> simp

omit [IsStrictOrderedRing K] [FloorRing K] in
/-- **C90 (harmonic markers).** When every harmonic bin lies inside the spectrum, both plot styles succeed and mark the same harmonics in the same
order: those up to the requested order that do not collide with the fundamental and are finite and at most 20 dB below the noise line. -/
theorem C90_marks (bins : List ℤ) (collided : List ℕ) (len : ℕ) (db : ℕ → Option K) (nf : Option K) (upTo : ℤ)
    (hb : ∀ b ∈ bins, b < len) :
    ∃ l, lightMarks bins bins.length collided len db nf upTo = .ok l ∧ darkMarks bins bins.length collided len db nf upTo = .ok l ∧
      ∀ h b, (h, b) ∈ l ↔ Marked bins bins.length collided db nf upTo h b := by
  have hget : ∀ i < bins.length, bins.getD i 0 < len := by
    intro i hi
    rw [List.getD_eq_getElem _ _ hi]
    exact hb _ (List.getElem_mem _)
  unfold lightMarks darkMarks
  by_cases h0 : bins.length = 0
  · rw [if_pos (Or.inl h0), if_neg (by simp [h0])]
    refine ⟨[], rfl, rfl, fun h b => ?_⟩
    simp only [List.not_mem_nil, false_iff]
    rintro ⟨h1, h2, _⟩
    omega
  rw [if_neg (by simp [h0])]
  rw [if_neg]
  swap
  · simp only [List.any_eq_true, List.mem_range, Bool.and_eq_true, decide_eq_true_eq]
    rintro ⟨i, hi, _, h | h⟩
    · omega
    · exact absurd (hget i hi) (by omega)
  by_cases hu : 0 < upTo
  swap
  · rw [if_neg hu, if_neg (by simp [hu])]
    refine ⟨[], rfl, rfl, fun h b => ?_⟩
    simp only [List.not_mem_nil, false_iff]
    rintro ⟨h1, _, h3, _⟩
    omega
  simp only
  rw [if_pos hu, if_pos ⟨hu, h0, h0⟩, if_neg]
  swap
  · simp only [List.any_eq_true, List.mem_filter, List.mem_range, decide_eq_true_eq]
    rintro ⟨i, ⟨hi, _⟩, h | h⟩
    · omega
    · exact absurd (hget i hi) (by omega)
  refine ⟨_, rfl, ?_, fun h b => ?_⟩
  · congr 1
    rw [List.filter_map, List.filter_filter, List.filter_filter]
    congr 1
    apply List.filter_congr
    intro i _
    have e1 : decide (((i + 2 : ℕ) : ℤ) ≤ upTo) = !decide (upTo < (i : ℤ) + 2) := by
      by_cases h : upTo < (i : ℤ) + 2
      · simp only [h, decide_true, Bool.not_true, decide_eq_false_iff_not]; push_cast; omega
      · simp only [h, decide_false, Bool.not_false, decide_eq_true_eq]; push_cast; omega
    have e2 : decide (i + 2 ∉ collided) = !decide (i + 2 ∈ collided) := by simp
    simp only [Function.comp]
    rw [e1, e2, Bool.not_or]
    cases shouldLabel (db (bins.getD i 0).toNat) nf <;> cases decide (upTo < (i : ℤ) + 2) <;> cases decide (i + 2 ∈ collided) <;> rfl
  · rw [List.mem_filter, List.mem_map]
    unfold Marked
    simp only [List.mem_filter, List.mem_range, decide_eq_true_eq, Bool.and_eq_true, Prod.mk.injEq, label_iff]
    constructor
    · rintro ⟨⟨i, ⟨hi, hc⟩, rfl, rfl⟩, h1, h2⟩
      exact ⟨by omega, by omega, h1, hc, rfl, h2⟩
    · rintro ⟨h1, h2, h3, h4, rfl, h5⟩
      obtain ⟨i, rfl⟩ : ∃ i, h = i + 2 := ⟨h - 2, by omega⟩
      exact ⟨⟨i, ⟨by omega, h4⟩, rfl, rfl⟩, h3, h5⟩

/-- Four harmonics, one of them collided and one buried in noise. -/
example : lightMarks [6, 9, 3, 5] 4 [4] 17 (fun k => if k = 5 then some (-130 : ℚ) else some (-60)) (some (-100)) 5 = .ok [(2, 6), (3, 9)] ∧
    darkMarks [6, 9, 3, 5] 4 [4] 17 (fun k => if k = 5 then some (-130 : ℚ) else some (-60)) (some (-100)) 5 = .ok [(2, 6), (3, 9)] := by
  constructor <;> decide +kernel

/-- **C90 (records of even length).** For an even record length, and for every fundamental on a bin, the located harmonic bins lie inside the
spectrum, so `C90_marks` applies and the plots do not fail. Odd lengths with a fundamental between bins are missing; see
`C90_odd_length_fails`. -/
theorem C90_even_length_partial (fund : K) (H N : ℕ) (hH : 1 ≤ H) (hN : 0 < N) (hf : (∃ z : ℤ, fund = z) ∨ Even N) :
    ∃ hs, locateHarmonicBins fund H N = .ok hs ∧ hs.length = H - 1 ∧ ∀ b ∈ hs, 0 ≤ b ∧ b < ((N / 2 + 1 : ℕ) : ℤ) := by
  obtain ⟨hs, h1, h2, h3⟩ := C29_harmonic_bin_is_alias fund H N hH hN hf
  refine ⟨hs, h1, h2, fun b hb => ?_⟩
  obtain ⟨i, hi, rfl⟩ := List.getElem_of_mem hb
  obtain ⟨h4, r, ⟨hr0, hr1, _⟩, h5, h6⟩ := h3 i hi
  refine ⟨h4, ?_⟩
  by_contra hc
  push Not at hc
  have hc' : (((N / 2 + 1 : ℕ) : ℤ) : K) ≤ (hs[i] : K) := by exact_mod_cast hc
  rw [Int.cast_natCast] at hc'
  rcases hf with hz | he
  · rw [h6 hz] at hc'
    have : (N : K) < 2 * ((N / 2 + 1 : ℕ) : K) := by exact_mod_cast (by omega : N < 2 * (N / 2 + 1))
    linarith
  · obtain ⟨m, rfl⟩ := he
    have e : (m + m) / 2 = m := by omega
    rw [e] at hc'
    push_cast at hc' hr1
    have := (abs_le.mp h5).2
    linarith

private theorem mapM_length {α β : Type} (f : α → Py β) : ∀ (l : List α) (r : List β), l.mapM f = .ok r → r.length = l.length
  | [], r, h => by
    rw [List.mapM_nil] at h
    injection h with h
    rw [← h]
    rfl
  | a :: l, r, h => by
    rw [List.mapM_cons] at h
    simp only [bind, Except.bind, pure, Except.pure] at h
    split at h
    · cases h
    split at h
    · cases h
    · rename_i r' hr'
      injection h with h
      rw [← h, List.length_cons, List.length_cons, mapM_length f l r' hr']

/-- **C90 (records of odd length).** For a record of odd length `2m+1` whose second harmonic, from the interpolated fundamental, falls between
`m` and `m + 1/2`, the located bin is `m+1`, one past the end of the spectrum, and `plot_spectrum` raises `IndexError` (unless that harmonic counts
as collided). -/
theorem C90_odd_length_fails (fund : K) (m H : ℕ) (hH : 2 ≤ H) (h1 : (m : K) < 2 * fund) (h2 : 2 * fund < m + 1 / 2) (hs : List ℤ)
    (hloc : locateHarmonicBins fund H (2 * m + 1) = .ok hs) (collided : List ℕ) (hc : 2 ∉ collided) (db : ℕ → Option K) (nf : Option K) (upTo : ℤ) :
    hs.getD 0 0 = m + 1 ∧ lightMarks hs (H - 1) collided (m + 1) db nf upTo = .error .indexError := by
  have hm0 : (0 : K) ≤ m := Nat.cast_nonneg m
  have hfold : foldBin (fund * ((0 + 2 : ℕ) : K)) (2 * m + 1) = .ok (((2 * m + 1 : ℕ) : K) - 2 * fund) := by
    unfold foldBin
    rw [if_neg (by omega)]
    have hpm : pmod (fund * ((0 + 2 : ℕ) : K)) ((2 * m + 1 : ℕ) : K) = 2 * fund := by
      unfold pmod
      have : ⌊fund * ((0 + 2 : ℕ) : K) / ((2 * m + 1 : ℕ) : K)⌋ = 0 := by
        rw [Int.floor_eq_zero_iff]
        push_cast
        refine ⟨div_nonneg (by linarith) (by linarith), ?_⟩
        rw [div_lt_one (by linarith)]
        linarith
      rw [this]
      push_cast
      ring
    simp only [hpm]
    rw [if_pos]
    have : (2 * m + 1) / 2 = m := by omega
    rw [this]
    exact h1
  have hr : rint (((2 * m + 1 : ℕ) : K) - 2 * fund) = m + 1 := by
    apply rint_unique
    push_cast
    rw [abs_lt]
    constructor <;> linarith
  have h0 : hs.getD 0 0 = m + 1 ∧ hs.length = H - 1 := by
    obtain ⟨k, hk⟩ : ∃ k, H = k + 2 := ⟨H - 2, by omega⟩
    subst hk
    unfold locateHarmonicBins at hloc
    rw [if_neg (by omega), show k + 2 - 1 = k + 1 by omega] at hloc
    have hlen : hs.length = k + 1 := by
      have := mapM_length _ _ _ hloc
      simpa using this
    refine ⟨?_, by omega⟩
    rw [List.range_succ_eq_map, List.mapM_cons, hfold] at hloc
    simp only [bind, Except.bind, pure, Except.pure] at hloc
    split at hloc
    · cases hloc
    · injection hloc with hloc
      rw [← hloc, List.getD_cons_zero, hr]
  refine ⟨h0.1, ?_⟩
  unfold lightMarks
  rw [if_neg (by omega), if_pos]
  rw [List.any_eq_true]
  refine ⟨0, List.mem_range.mpr (by omega), ?_⟩
  rw [h0.1]
  simp [hc]

/-- **C90 (an odd record).** Whatever the record, its analysis and the window: when `compute_spectrum` succeeds on `2m+1` samples, interpolates the
fundamental to between `m/2` and `m/2 + 1/4` bins and does not count the second harmonic as collided, `plot_spectrum` raises `IndexError` on its
result. -/
theorem C90_odd_record_fails (lib : WinLib) (data : List (List ℝ)) (a : SpectrumArgs) (r : SpectrumResult) (h : computeSpectrum lib data a = .ok r)
    (m : ℕ) (hN : r.N = 2 * m + 1) (hH : 2 ≤ a.maxHarmonic) (h1 : (m : ℝ) / 2 < r.fundamentalFrac) (h2 : r.fundamentalFrac < m / 2 + 1 / 4)
    (hc : 2 ∉ r.collided) (db : ℕ → Option ℝ) (nf : Option ℝ) (upTo : ℤ) :
    r.power.length = m + 1 ∧ lightMarks r.harmonicBins (a.maxHarmonic - 1) r.collided r.power.length db nf upTo = .error .indexError := by
  obtain ⟨d, n, _, _, _, _, hlen, _, _, _, _, hm⟩ := computeSpectrum_ok lib data a r h
  obtain ⟨hs, spur, noise, hloc, _, _, hr⟩ := spectrumMetrics_ok _ _ _ _ _ _ _ hm
  have e1 : r.N = (d.headD []).length := by rw [hr]; rfl
  have e2 : r.fundamentalFrac = (locateFundamental r.power n).2 := by rw [hr]; rfl
  have e3 : r.harmonicBins = hs := by rw [hr]; rfl
  have hl : r.power.length = m + 1 := by rw [hlen, ← e1, hN]; omega
  refine ⟨hl, ?_⟩
  rw [← e2, ← e1, hN] at hloc
  rw [hl, e3]
  exact (C90_odd_length_fails r.fundamentalFrac m a.maxHarmonic hH (by linarith) (by linarith) hs hloc r.collided hc db nf upTo).2

/-- Nine samples of three tones on bins 1, 2 and 3. -/
noncomputable def oddRow : List ℝ :=
  (List.range 9).map (harmonicRecord 9 2 0 4 (fun h => if h = 1 then 1 else if h = 3 then 1 / Real.sqrt 10 else if h = 4 then 1 / 10 else 0) (fun _ => 0) 0)

/-- **C90 (the failure occurs).** `compute_spectrum` analyses this record without error, and `plot_spectrum` raises `IndexError` on the result. -/
theorem C90_odd_record_exists (lib : WinLib) :
    ∃ r, computeSpectrum lib [oddRow] { win := "boxcar", scale := .scalar 1, sideBin := some 0 } = .ok r ∧
      ∀ (db : ℕ → Option ℝ) (nf : Option ℝ) (upTo : ℤ),
        lightMarks r.harmonicBins 4 r.collided r.power.length db nf upTo = .error .indexError := by
  set amp : ℕ → ℝ := fun h => if h = 1 then 1 else if h = 3 then 1 / Real.sqrt 10 else if h = 4 then 1 / 10 else 0 with hamp
  have hprep : prepareFftInput [oddRow] (.scalar (1 : ℝ)) = .ok [oddRow] := by
    unfold prepareFftInput
    simp only [peakAmplitude]
    have ho : orient [oddRow] = [oddRow] := by simp [orient, oddRow]
    rw [ho]
    simp only [List.map_cons, List.map_nil, ne_eq, one_ne_zero, not_false_eq_true, if_true]
    unfold oddRow
    rw [prepare_row 9 2 4 (by decide) (by norm_num) 0 amp (fun _ => 0) 0 1 one_ne_zero]
    simp only [div_one]
    rfl
  have hlen9 : (([oddRow] : List (List ℝ)).headD []).length = 9 := by simp [oddRow]
  obtain ⟨r, hr⟩ := (C63_compute_spectrum_total lib [oddRow] { win := "boxcar", scale := .scalar 1, sideBin := some 0 } [oddRow] hprep
    (by rw [hlen9]; norm_num)).mpr ⟨one_pos, by norm_num, by norm_num, by norm_num⟩
  refine ⟨r, hr, ?_⟩
  obtain ⟨d, n, hd, hn, hn1, hnl, hlen, _, _, _, hpow, hm⟩ := computeSpectrum_ok lib _ _ r hr
  have hd' : d = [oddRow] := by
    have := hprep.symm.trans hd
    injection this with this
    exact this.symm
  subst hd'
  rw [hlen9] at hn hlen hpow hm
  have hn5 : n = 5 := by
    have : rfftInbandBinCount ((9 : ℕ) : ℤ) (1 : ℝ) = .ok 5 := by
      unfold rfftInbandBinCount
      norm_num [isclose12, rint]
      rfl
    have h2 := this.symm.trans hn
    injection h2 with h2
    exact h2.symm
  subst hn5
  obtain ⟨hs, spur, noise, hloc, _, _, hres⟩ := spectrumMetrics_ok _ _ _ _ _ _ _ hm
  have hpk : ∀ k, k < 5 → r.power.getD k 0 = oneSided 9 k (‖dft 9 (fun m => (harmonicRecord 9 2 0 4 amp (fun _ => 0) 0 m : ℂ)) k‖ ^ 2 / 81) * 4 := by
    intro k hk
    have hcorr : powerCorrection (windowGain (windowVector lib "boxcar" 9) 9) (windowEnbw (windowVector lib "boxcar" 9) 9) = 4 := by
      unfold powerCorrection windowGain windowEnbw windowVector
      norm_num
    have hap : r.power = rawSpectrum lib { win := "boxcar", scale := .scalar 1, sideBin := some 0 } [oddRow] 9 5 := by
      rw [hpow]
      unfold applyCutoff
      simp
    rw [hap]
    unfold rawSpectrum
    simp only [hcorr, Bool.false_eq_true, if_false]
    unfold powerAverage
    rw [List.map_map, List.getD_eq_getElem?_getD, List.getElem?_map, List.getElem?_range (by omega)]
    simp only [Option.map_some, Option.getD_some, Function.comp]
    congr 2
    unfold runsOf
    simp only [List.map_cons, List.map_nil, List.sum_cons, List.sum_nil, add_zero, List.length_cons, List.length_nil]
    norm_num
    congr 1
    apply dft_congr
    intro j hj
    unfold windowVector oddRow
    rw [List.getElem?_map, List.getElem?_range hj]
    simp [hamp]
  have hone : ∀ k v, 0 < k → k < 5 → oneSided 9 k v = v := by
    intro k v h1 h2
    unfold oneSided
    simp only
    rw [if_neg (by omega), if_neg (by omega)]
  have hval : ∀ (h k : ℕ) (s : ℤ), 1 ≤ h → h ≤ 4 → 0 < k → k < 5 → s = 1 ∨ s = -1 → (9 : ℤ) ∣ (h : ℤ) * 2 - s * k → r.power.getD k 0 = amp h ^ 2 := by
    intro h k s h1 h2 h3 h4 h5 h6
    rw [hpk k h4, hone k _ h3 h4, dft_hit 9 2 4 (by decide) (by norm_num) 0 amp (fun _ => 0) 0 h h1 h2 s h5 k (by simpa using h6), norm_mul,
      Complex.norm_exp_ofReal_mul_I, mul_one]
    have : ((9 : ℕ) : ℂ) * ((amp h : ℂ) / 2) = ((9 * (amp h / 2) : ℝ) : ℂ) := by push_cast; ring
    rw [this, Complex.norm_real, Real.norm_eq_abs, sq_abs]
    ring
  have hsq : (1 / Real.sqrt 10) ^ 2 = 1 / 10 := by
    rw [div_pow, Real.sq_sqrt (by norm_num)]
    norm_num
  have p1 : r.power.getD 1 0 = 1 / 100 := by
    rw [hval 4 1 (-1) (by norm_num) le_rfl (by norm_num) (by norm_num) (Or.inr rfl) (by norm_num)]
    simp only [hamp]
    norm_num
  have p2 : r.power.getD 2 0 = 1 := by
    rw [hval 1 2 1 le_rfl (by norm_num) (by norm_num) (by norm_num) (Or.inl rfl) (by norm_num)]
    simp only [hamp]
    norm_num
  have p3 : r.power.getD 3 0 = 1 / 10 := by
    rw [hval 3 3 (-1) (by norm_num) (by norm_num) (by norm_num) (by norm_num) (Or.inr rfl) (by norm_num)]
    simp only [hamp]
    rw [if_neg (by norm_num), if_pos trivial, hsq]
  have p4 : r.power.getD 4 0 = 0 := by
    rw [hval 2 4 1 (by norm_num) (by norm_num) (by norm_num) (by norm_num) (Or.inl rfl) (by norm_num)]
    simp only [hamp]
    norm_num
  have hf : fundamentalBin r.power 5 = 2 := by
    obtain ⟨f1, f2, f3, _⟩ := C27_fundamental_strongest r.power 5 hnl (by norm_num)
    have h2 := f3 2 (by norm_num) (by norm_num)
    generalize fundamentalBin r.power 5 = f at *
    interval_cases f
    · rw [p2, p1] at h2; norm_num at h2
    · rfl
    · rw [p2, p3] at h2; norm_num at h2
    · rw [p2, p4] at h2; norm_num at h2
  have l1 : logFloor (1 / 100) = -2 := by
    unfold logFloor
    rw [max_eq_left (by norm_num), show (1 / 100 : ℝ) = 10 ^ (-2 : ℝ) by rw [Real.rpow_neg (by norm_num)]; norm_num, Real.logb_rpow (by norm_num) (by norm_num)]
  have l2 : logFloor 1 = 0 := by
    unfold logFloor
    rw [max_eq_left (by norm_num), Real.logb_one]
  have l3 : logFloor (1 / 10) = -1 := by
    unfold logFloor
    rw [max_eq_left (by norm_num), show (1 / 10 : ℝ) = 10 ^ (-1 : ℝ) by rw [Real.rpow_neg (by norm_num)]; norm_num, Real.logb_rpow (by norm_num) (by norm_num)]
  have hfrac : (locateFundamental r.power 5).2 = 2 + 1 / 6 := by
    unfold locateFundamental
    simp only [hf]
    rw [List.take_of_length_le (by rw [hlen])]
    unfold refineBin
    rw [hlen, if_pos (by norm_num)]
    simp only [show 2 - 1 = 1 by norm_num, show 2 + 1 = 3 by norm_num, p1, p2, p3, l1, l2, l3]
    norm_num
  have e2 : r.fundamentalFrac = 2 + 1 / 6 := by rw [hres, ← hfrac]; rfl
  have e1 : r.N = 2 * 4 + 1 := by rw [hres]; rfl
  have hc : 2 ∉ r.collided := by
    have e4 : r.collided = (calculateHarmonicPower r.power 2 hs 0).2.2 := by
      conv_lhs => rw [hres]
      unfold assemble locateFundamental
      simp only [hf]
      rfl
    rw [e4]
    unfold calculateHarmonicPower
    simp only [List.mem_map, List.mem_filter, decide_eq_true_eq, not_exists, not_and]
    rintro ⟨b, i⟩ ⟨hmem, hcase⟩ hi
    simp only at hi hcase
    have hi0 : i = 0 := by omega
    subst hi0
    rw [List.mk_mem_zipIdx_iff_getElem?] at hmem
    have hb : b = 5 := by
      have := (C90_odd_length_fails (2 + 1 / 6 : ℝ) 4 5 (by norm_num) (by norm_num) (by norm_num) hs (by rw [← hfrac]; exact hloc) [] (by simp) (fun _ => none) none
        0).1
      rw [List.getD_eq_getElem?_getD, hmem] at this
      simpa using this
    subst hb
    unfold harmonicCase at hcase
    rw [if_neg (by norm_num), if_neg (by norm_num)] at hcase
    cases hcase
  intro db nf upTo
  exact (C90_odd_record_fails lib _ _ r hr 4 e1 (by norm_num) (by rw [e2]; norm_num) (by rw [e2]; norm_num) hc db nf upTo).2

end Verif
