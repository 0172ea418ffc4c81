import Verif.Model.Plots
import Verif.Theorems.RampInl

/-!
# C91, C92: radial axes of the polar plots; displayed window and limits of the curves
-/

namespace Verif

open Model

variable {K : Type} [Field K] [LinearOrder K] [IsStrictOrderedRing K] [FloorRing K]

omit [Field K] [IsStrictOrderedRing K] [FloorRing K] in
private theorem foldl_max_spec : ∀ (l : List K) (a : K), a ≤ l.foldl max a ∧ (∀ z ∈ l, z ≤ l.foldl max a)
  | [], a => ⟨le_rfl, fun z hz => by cases hz⟩
  | b :: l, a => by
    obtain ⟨h1, h2⟩ := foldl_max_spec l (max a b)
    refine ⟨le_trans (le_max_left _ _) h1, fun z hz => ?_⟩
    rcases List.mem_cons.mp hz with rfl | hz
    · exact le_trans (le_max_right _ _) h1
    · exact h2 z hz

omit [Field K] [IsStrictOrderedRing K] [FloorRing K] in
private theorem foldl_min_spec : ∀ (l : List K) (a : K), l.foldl min a ≤ a ∧ (∀ z ∈ l, l.foldl min a ≤ z)
  | [], a => ⟨le_rfl, fun z hz => by cases hz⟩
  | b :: l, a => by
    obtain ⟨h1, h2⟩ := foldl_min_spec l (min a b)
    refine ⟨le_trans h1 (min_le_left _ _), fun z hz => ?_⟩
    rcases List.mem_cons.mp hz with rfl | hz
    · exact le_trans h1 (min_le_right _ _)
    · exact h2 z hz

private theorem truncInt_intCast (z : ℤ) : truncInt (z : K) = z := by
  unfold truncInt
  split_ifs <;> simp

/-- The ticks are the multiples of 10 from 0 to below `r + 1`. -/
theorem tick_mem (r : K) (v : K) : v ∈ tickValues r ↔ ∃ i : ℕ, v = 10 * i ∧ v < r + 1 := by
  unfold tickValues
  simp only [List.mem_map, List.mem_range]
  constructor
  · rintro ⟨i, hi, rfl⟩
    refine ⟨i, rfl, ?_⟩
    have h1 : (i : ℤ) < ⌈(r + 1) / 10⌉ := by omega
    rw [Int.lt_ceil, lt_div_iff₀ (by norm_num)] at h1
    push_cast at h1
    linarith
  · rintro ⟨i, rfl, hi⟩
    refine ⟨i, ?_, rfl⟩
    have h1 : (i : ℤ) < ⌈(r + 1) / 10⌉ := by
      rw [Int.lt_ceil, lt_div_iff₀ (by norm_num)]
      push_cast
      linarith
    omega

/-! ## C91: `plot_spectrum_polar` -/

/-- The level at the centre of the polar spectrum: minus the fixed range, or the noise floor. -/
def centreLevel (minR : K) : Option K → K
  | some r => -r
  | none => minR

/-- **C91 (radius).** The radius of a bin is its level above the level of the centre, and zero below that: radii are never negative, differences of radii
are decibels, and a full-scale bin lies on the outer circle. -/
theorem C91_radius (minR : K) (fixed : Option K) (db : K) :
    0 ≤ polarRadius minR fixed db ∧ (centreLevel minR fixed ≤ db → polarRadius minR fixed db = db - centreLevel minR fixed) ∧
    (db ≤ centreLevel minR fixed → polarRadius minR fixed db = 0) ∧
    (polarAxis minR fixed).2.1 = -centreLevel minR fixed ∧
    (db ≤ 0 → centreLevel minR fixed ≤ 0 → polarRadius minR fixed db ≤ (polarAxis minR fixed).2.1) := by
  have e : (polarAxis minR fixed).1 = centreLevel minR fixed ∧ (polarAxis minR fixed).2.1 = -centreLevel minR fixed := by
    cases fixed with
    | none => exact ⟨rfl, rfl⟩
    | some r => exact ⟨rfl, (neg_neg r).symm⟩
  unfold polarRadius
  rw [e.1, e.2]
  refine ⟨by linarith [le_max_right db (centreLevel minR fixed)], fun h => by rw [max_eq_left h], fun h => by rw [max_eq_right h, sub_self], rfl,
    fun h1 h2 => ?_⟩
  linarith [max_le h1 h2]

/-- **C91 (tick labels).** The tick at radius `10·i` shows the level `10·i` above the centre, but its label is off by the rounding of the centre level to
a multiple of 10: at most 5 dB, the same for all ticks, and zero exactly when the centre level is a multiple of 10. -/
theorem C91_tick_labels (minR : K) (fixed : Option K) (i : ℕ) (hi : i < (polarAxis minR fixed).2.2.1.length) :
    (polarAxis minR fixed).2.2.2.length = (polarAxis minR fixed).2.2.1.length ∧
    (polarAxis minR fixed).2.2.1.getD i 0 = 10 * i ∧
    |((polarAxis minR fixed).2.2.2.getD i 0 : K) - (centreLevel minR fixed + 10 * i)| ≤ 5 ∧
    (((polarAxis minR fixed).2.2.2.getD i 0 : K) = centreLevel minR fixed + 10 * i ↔ ∃ z : ℤ, centreLevel minR fixed = 10 * z) := by
  have e : ∃ r, (polarAxis minR fixed).2.2.1 = tickValues r ∧
      (polarAxis minR fixed).2.2.2 = (tickValues r).map fun v => truncInt ((rint (centreLevel minR fixed / 10) : K) * 10 + v) := by
    cases fixed with
    | none => exact ⟨_, rfl, rfl⟩
    | some r => exact ⟨_, rfl, rfl⟩
  obtain ⟨r, e1, e2⟩ := e
  rw [e1] at hi
  have hi' : i < ⌈(r + 1) / 10⌉.toNat := by simpa [tickValues] using hi
  have ht : (tickValues r)[i]? = some (10 * (i : K)) := by
    unfold tickValues
    rw [List.getElem?_map, List.getElem?_range hi']
    rfl
  have hl : ((polarAxis minR fixed).2.2.2.getD i 0 : K) = (rint (centreLevel minR fixed / 10) : K) * 10 + 10 * i := by
    rw [e2, List.getD_eq_getElem?_getD, List.getElem?_map, ht, Option.map_some, Option.getD_some]
    have : (rint (centreLevel minR fixed / 10) : K) * 10 + 10 * i = ((rint (centreLevel minR fixed / 10) * 10 + 10 * i : ℤ) : K) := by push_cast; ring
    rw [this, truncInt_intCast]
  have hr := abs_sub_rint_le (centreLevel minR fixed / 10)
  refine ⟨by rw [e1, e2, List.length_map], by rw [e1, List.getD_eq_getElem?_getD, ht]; rfl, ?_, ?_⟩
  · rw [hl]
    have h2 : (rint (centreLevel minR fixed / 10) : K) * 10 + 10 * i - (centreLevel minR fixed + 10 * i) =
        -(10 * (centreLevel minR fixed / 10 - rint (centreLevel minR fixed / 10))) := by field_simp; ring
    rw [h2, abs_neg, abs_mul, abs_of_pos (by norm_num : (0 : K) < 10)]
    linarith
  · rw [hl]
    constructor
    · intro h
      exact ⟨rint (centreLevel minR fixed / 10), by linarith⟩
    · rintro ⟨z, hz⟩
      rw [hz, mul_div_cancel_left₀ _ (by norm_num : (10 : K) ≠ 0), rint_intCast]
      ring

/-- A noise floor of -96 dB: the centre is labelled -100 and the tick at radius 90, which stands for -6 dB, is labelled -10. With the fixed range of
120 dB the labels are right. -/
example : (polarAxis (-96 : ℚ) none).2.2.2.getD 0 0 = -100 ∧ (polarAxis (-96 : ℚ) none).2.2.1.getD 9 0 = 90 ∧
    (polarAxis (-96 : ℚ) none).2.2.2.getD 9 0 = -10 ∧ polarRadius (-96 : ℚ) none (-6) = 90 ∧
    (polarAxis (-96 : ℚ) (some 120)).2.2.2.getD 12 0 = 0 := by decide +kernel

/-! ## C91: `plot_decomposition_polar` -/

/-- **C91 (harmonic decomposition).** The drawing succeeds exactly when there is a level for each requested harmonic. All harmonics and the noise circle lie
at least 10 dB from the centre; the harmonics lie inside the outer circle; a harmonic lies outside the noise circle exactly when it is stronger than the
noise; differences of radii are decibels; and each tick label is the level at its radius. -/
theorem C91_decomposition (db : List K) (noise : K) (harmonic : ℕ) :
    (harmonic = 0 ∨ db = [] → decompPolar db noise harmonic = .error .valueError) ∧
    (db ≠ [] → db.length < harmonic → decompPolar db noise harmonic = .error .indexError) ∧
    (harmonic ≠ 0 → harmonic ≤ db.length → ∃ p, decompPolar db noise harmonic = .ok p ∧ p.radii.length = harmonic ∧ 10 ≤ p.noiseRadius ∧
      (∀ i < harmonic, 10 ≤ p.radii.getD i 0 ∧ p.radii.getD i 0 ≤ p.maxRadius ∧ (p.noiseRadius < p.radii.getD i 0 ↔ noise < db.getD i 0) ∧
        p.radii.getD i 0 - p.noiseRadius = db.getD i 0 - noise) ∧
      p.labels.length = p.ticks.length ∧
      ∀ i < p.ticks.length, p.ticks.getD i 0 = 10 * i ∧ ∀ j < harmonic, (p.labels.getD i 0 : K) - p.ticks.getD i 0 = db.getD j 0 - p.radii.getD j 0) := by
  refine ⟨fun h => ?_, fun h1 h2 => ?_, fun h1 h2 => ?_⟩
  · have : db.take harmonic = [] := by
      rcases h with rfl | rfl <;> simp
    unfold decompPolar
    rw [this]
  · cases db with
    | nil => exact absurd rfl h1
    | cons a l =>
      obtain ⟨k, rfl⟩ : ∃ k, harmonic = k + 1 := ⟨harmonic - 1, by simp at h2; omega⟩
      unfold decompPolar
      rw [List.take_succ_cons]
      simp only
      rw [if_pos h2]
  · cases db with
    | nil => simp at h2; omega
    | cons a l0 =>
      obtain ⟨k, rfl⟩ : ∃ k, harmonic = k + 1 := ⟨harmonic - 1, by omega⟩
      unfold decompPolar
      rw [List.take_succ_cons]
      simp only
      rw [if_neg (by omega)]
      generalize hl : l0.take k = l
      have hll : l.length = k := by rw [← hl, List.length_take]; simp at h2; omega
      refine ⟨_, rfl, by simp [hll], ?_⟩
      simp only
      set zmax : ℤ := ⌈(l.foldl max a) / 10⌉ with hzmax
      set zmin : ℤ := ⌊(min (l.foldl min a) noise - 10) / 10⌋ with hzmin
      have hmax : l.foldl max a ≤ (zmax : K) * 10 := by
        have := Int.le_ceil ((l.foldl max a) / 10)
        rw [div_le_iff₀ (by norm_num)] at this
        exact this
      have hmin : (zmin : K) * 10 ≤ min (l.foldl min a) noise - 10 := by
        have := Int.floor_le ((min (l.foldl min a) noise - 10) / 10)
        rw [le_div_iff₀ (by norm_num)] at this
        exact this
      have hget : ∀ i < k + 1, (a :: l)[i]? = some ((a :: l0).getD i 0) := by
        intro i hi
        have e : a :: l = (a :: l0).take (k + 1) := by rw [List.take_succ_cons, hl]
        rw [e, List.getElem?_take, if_pos hi, List.getD_eq_getElem?_getD, List.getElem?_eq_getElem (by omega)]
        rfl
      have hr : ∀ i < k + 1, ((a :: l).map fun m => m - (zmin : K) * 10).getD i 0 = (a :: l0).getD i 0 - zmin * 10 := by
        intro i hi
        rw [List.getD_eq_getElem?_getD, List.getElem?_map, hget i hi]
        rfl
      have hb : ∀ i < k + 1, l.foldl min a ≤ (a :: l0).getD i 0 ∧ (a :: l0).getD i 0 ≤ l.foldl max a := by
        intro i hi
        have hm := List.mem_of_getElem? (hget i hi)
        rcases List.mem_cons.mp hm with h | h
        · rw [h]; exact ⟨(foldl_min_spec l a).1, (foldl_max_spec l a).1⟩
        · exact ⟨(foldl_min_spec l a).2 _ h, (foldl_max_spec l a).2 _ h⟩
      refine ⟨by linarith [min_le_right (l.foldl min a) noise], ?_, by simp, ?_⟩
      · intro i hi
        rw [hr i hi]
        obtain ⟨h3, h4⟩ := hb i hi
        exact ⟨by linarith [min_le_left (l.foldl min a) noise], by linarith, ⟨fun h => by linarith, fun h => by linarith⟩, by ring⟩
      · intro i hi
        have hi' : i < ⌈((zmax : K) * 10 - zmin * 10 + 1) / 10⌉.toNat := by simpa [tickValues] using hi
        have ht : (tickValues ((zmax : K) * 10 - zmin * 10))[i]? = some (10 * (i : K)) := by
          unfold tickValues
          rw [List.getElem?_map, List.getElem?_range hi']
          rfl
        refine ⟨by rw [List.getD_eq_getElem?_getD, ht]; rfl, fun j hj => ?_⟩
        rw [hr j hj, List.getD_eq_getElem?_getD, List.getD_eq_getElem?_getD, List.getElem?_map, ht, Option.map_some, Option.getD_some, Option.getD_some]
        have : (zmin : K) * 10 + 10 * i = ((zmin * 10 + 10 * i : ℤ) : K) := by push_cast; ring
        rw [this, truncInt_intCast]
        push_cast
        ring

/-- A fundamental at -1 dB, harmonics at -60 and -73 dB, noise at -65 dB. -/
example : ∃ p, decompPolar [(-1 : ℚ), -60, -73, -90] (-65) 3 = .ok p ∧ p.radii = [89, 30, 17] ∧ p.noiseRadius = 25 ∧ p.maxRadius = 90 :=
  ⟨_, rfl, by decide +kernel, by decide +kernel, by decide +kernel⟩

/-- **C91 (noise circle).** The outer circle depends on the harmonics only: noise above every harmonic lies outside the plotted area. -/
theorem C91_noise_circle_outside : ∃ p, decompPolar [(-20 : ℚ), -25] (-5) 2 = .ok p ∧ p.maxRadius < p.noiseRadius :=
  ⟨_, rfl, by decide +kernel⟩

/-! ## C92: displayed window and curve limits -/

/-- **C92 (window).** The window is inside the record, has exactly the display length, and contains the sample with the largest error; it is refused
exactly when the display length is not positive. -/
theorem C92_window (n e : ℕ) (he : e < n) (f cycles : K) :
    (1 ≤ displayCount n f cycles → ∃ s t, timeWindow n e f cycles = .ok (s, t) ∧ 0 ≤ s ∧ s ≤ e ∧ (e : ℤ) < t ∧ t ≤ n ∧ t - s = displayCount n f cycles) ∧
    (displayCount n f cycles < 1 → timeWindow n e f cycles = .error .valueError) := by
  have hd : displayCount n f cycles ≤ n := by
    unfold displayCount
    split_ifs
    · exact min_le_right _ _
    · exact min_le_right _ _
  unfold timeWindow
  generalize displayCount n f cycles = d at *
  simp only
  refine ⟨fun h1 => ?_, fun h1 => ?_⟩
  · by_cases hc : min (n : ℤ) (max 0 ((e : ℤ) - d / 3) + d) = n ∧ min (n : ℤ) (max 0 ((e : ℤ) - d / 3) + d) - max 0 ((e : ℤ) - d / 3) < d
    · rw [if_pos hc, if_neg (by omega)]
      exact ⟨_, _, rfl, by omega, by omega, by omega, by omega, by omega⟩
    · rw [if_neg hc, if_neg (by omega)]
      exact ⟨_, _, rfl, by omega, by omega, by omega, by omega, by omega⟩
  · by_cases hc : min (n : ℤ) (max 0 ((e : ℤ) - d / 3) + d) = n ∧ min (n : ℤ) (max 0 ((e : ℤ) - d / 3) + d) - max 0 ((e : ℤ) - d / 3) < d
    · rw [if_pos hc, if_pos (by omega)]
    · rw [if_neg hc, if_pos (by omega)]

/-- **C92 (display length).** For a frequency in `(0, 1/2]` cycles per sample and at least one cycle on display, the length is positive, never longer than
the requested cycles or the record, and otherwise short of the requested cycles by less than `cycles + 1` samples. -/
theorem C92_display_length (n : ℕ) (hn : 0 < n) (f cycles : K) (hf : 0 < f) (hf2 : f ≤ 1 / 2) (hc : 1 ≤ cycles) :
    1 ≤ displayCount n f cycles ∧ displayCount n f cycles ≤ n ∧ (displayCount n f cycles : K) ≤ cycles / f ∧
    (displayCount n f cycles < n → cycles / f - (cycles + 1) < displayCount n f cycles) := by
  have h2 : 2 ≤ 1 / f := by rw [le_div_iff₀ hf]; linarith
  have ht : truncInt (1 / f) = ⌊1 / f⌋ := if_pos (by linarith)
  have hfl := Int.floor_le (1 / f)
  have hlt := Int.lt_floor_add_one (1 / f)
  have hz : (2 : ℤ) ≤ ⌊1 / f⌋ := Int.le_floor.mpr (by exact_mod_cast h2)
  have hz' : (2 : K) ≤ ⌊1 / f⌋ := by exact_mod_cast hz
  have hp : 2 ≤ cycles * (⌊1 / f⌋ : K) := by nlinarith
  have ht2 : truncInt (cycles * (⌊1 / f⌋ : K)) = ⌊cycles * (⌊1 / f⌋ : K)⌋ := if_pos (by linarith)
  unfold displayCount
  rw [if_pos hf, ht, ht2]
  have hA := Int.floor_le (cycles * (⌊1 / f⌋ : K))
  have hB := Int.lt_floor_add_one (cycles * (⌊1 / f⌋ : K))
  have h1 : (2 : ℤ) ≤ ⌊cycles * (⌊1 / f⌋ : K)⌋ := Int.le_floor.mpr (by exact_mod_cast hp)
  have hcf : cycles / f = cycles * (1 / f) := by ring
  refine ⟨by omega, min_le_right _ _, ?_, fun h => ?_⟩
  · have : ((min ⌊cycles * (⌊1 / f⌋ : K)⌋ (n : ℤ) : ℤ) : K) ≤ ⌊cycles * (⌊1 / f⌋ : K)⌋ := by exact_mod_cast min_le_left _ _
    rw [hcf]
    nlinarith
  · rw [min_eq_left (by omega), hcf]
    nlinarith

/-- A record of 1000 samples, period 20 samples, largest error near the end. -/
example : timeWindow 1000 995 (1 / 20 : ℚ) (3 / 2) = .ok (970, 1000) ∧ timeWindow 1000 500 (1 / 20 : ℚ) (3 / 2) = .ok (490, 520) := by
  constructor <;> decide +kernel

omit [FloorRing K] in
/-- **C92 (margins).** The limits enclose the data with room on both sides, also for constant data. -/
theorem C92_margins (lo hi v : K) (h1 : lo ≤ v) (h2 : v ≤ hi) : (marginLimits lo hi).1 < v ∧ v < (marginLimits lo hi).2 := by
  unfold marginLimits
  simp only
  by_cases h : hi - lo = 0
  · rw [if_neg (by simpa using h)]
    constructor <;> linarith
  · rw [if_pos h]
    have : 0 < hi - lo := lt_of_le_of_ne (by linarith) (Ne.symm h)
    constructor <;> linarith

example : marginLimits (2 : ℚ) 12 = (1, 13) ∧ marginLimits (3 : ℚ) 3 = (29 / 10, 31 / 10) := by decide +kernel

omit [FloorRing K] in
/-- **C92 (DNL/INL limits).** Data within ±1 LSB are shown on the axis from -1 to 1. Otherwise the axis shows all data exactly when they do not lie on one
side of zero. -/
theorem C92_dnl_limits (lo hi : K) (h : lo ≤ hi) :
    (-1 ≤ lo → hi ≤ 1 → dnlLimits lo hi = (-1, 1)) ∧
    ((dnlLimits lo hi).1 ≤ lo ∧ hi ≤ (dnlLimits lo hi).2 ↔ (-1 ≤ lo ∧ hi ≤ 1) ∨ lo ≤ 0 ∧ 0 ≤ hi) := by
  have key : max |lo| |hi| ≤ 1 ↔ -1 ≤ lo ∧ hi ≤ 1 := by
    rw [max_le_iff, abs_le, abs_le]
    exact ⟨fun h => ⟨h.1.1, h.2.2⟩, fun h' => ⟨⟨h'.1, by linarith [h'.2]⟩, ⟨by linarith [h'.1], h'.2⟩⟩⟩
  unfold dnlLimits
  by_cases hk : max |lo| |hi| ≤ 1
  · rw [if_pos hk]
    have hk' := key.mp hk
    exact ⟨fun _ _ => rfl, ⟨fun _ => Or.inl hk', fun _ => ⟨hk'.1, hk'.2⟩⟩⟩
  · rw [if_neg hk]
    refine ⟨fun h1 h2 => absurd (key.mpr ⟨h1, h2⟩) hk, ⟨fun h' => Or.inr ⟨by linarith [h'.1], by linarith [h'.2]⟩, fun h' => ?_⟩⟩
    rcases h' with h' | h'
    · exact absurd (key.mpr h') hk
    · constructor <;> simp only <;> linarith [h'.1, h'.2]

/-- A DNL that spans zero is shown whole; an all-positive INL between 1 and 3 is cut: the axis starts at 1.2. -/
example : dnlLimits (-1 : ℚ) 2 = (-12 / 10, 24 / 10) ∧ dnlLimits (1 : ℚ) 3 = (12 / 10, 36 / 10) := by decide +kernel

omit [FloorRing K] in
private theorem sum_zero_sides (l : List K) (lo hi : K) (hne : 0 < l.length) (hb : ∀ x ∈ l, lo ≤ x ∧ x ≤ hi)
    (h0 : ∑ k ∈ Finset.range l.length, l.getD k 0 = 0) : lo ≤ 0 ∧ 0 ≤ hi := by
  have hg : ∀ k ∈ Finset.range l.length, lo ≤ l.getD k 0 ∧ l.getD k 0 ≤ hi := by
    intro k hk
    rw [Finset.mem_range] at hk
    rw [List.getD_eq_getElem?_getD, List.getElem?_eq_getElem hk]
    exact hb _ (List.getElem_mem _)
  have hn : (0 : K) < l.length := by exact_mod_cast hne
  have h1 := Finset.card_nsmul_le_sum _ _ lo fun k hk => (hg k hk).1
  have h2 := Finset.sum_le_card_nsmul _ _ hi fun k hk => (hg k hk).2
  rw [h0, Finset.card_range, nsmul_eq_mul] at h1 h2
  constructor
  · by_contra hc
    push Not at hc
    nlinarith [mul_pos hn hc]
  · by_contra hc
    push Not at hc
    nlinarith [mul_pos hn (neg_pos.mpr hc)]

/-- **C92 (ramp results).** The DNL and INL curves of every successful ramp analysis, with any end-point correction, are shown whole. -/
theorem C92_ramp_shown (codes : List K) (numBits : Option ℤ) (codeMin : ℤ) (codeMax : Option ℤ) (endpoint : Endpoint) (exclude : Bool)
    (r : RampInl K) (h : inlFromRamp codes numBits codeMin codeMax endpoint exclude = .ok r) :
    (∀ x ∈ r.dnl, (dnlLimits r.dnlMin r.dnlMax).1 ≤ x ∧ x ≤ (dnlLimits r.dnlMin r.dnlMax).2) ∧
    ∀ x ∈ r.inl, (dnlLimits r.inlMin r.inlMax).1 ≤ x ∧ x ≤ (dnlLimits r.inlMin r.inlMax).2 := by
  obtain ⟨a, m, hm, _, _, _, _, _, hdl, hraw, hil, _, hpos, hsum, hd, _⟩ := C46_ramp_bookkeeping codes numBits codeMin codeMax endpoint exclude r h
  obtain ⟨x1, x2, x3, x4, x5, x6⟩ := C46_ramp_extremes codes numBits codeMin codeMax endpoint exclude r h
  have hD : r.dnlMin ≤ 0 ∧ 0 ≤ r.dnlMax := by
    apply sum_zero_sides r.dnl _ _ (by omega) x3
    rw [hdl, Finset.sum_congr rfl fun i hi => (hd i (Finset.mem_range.mp hi)).2.2.1, Finset.sum_sub_distrib, ← Finset.sum_div, ← hsum,
      mul_div_cancel_left₀ _ hpos.ne']
    simp
  have hI : r.inlMin ≤ 0 ∧ 0 ≤ r.inlMax := by
    have hz : endpoint = .none ∨ endpoint = .endpoints → r.inlMin ≤ 0 ∧ 0 ≤ r.inlMax := by
      intro he
      obtain ⟨_, h0, _⟩ := C46_ramp_endpoints codes numBits codeMin codeMax endpoint exclude r h he
      obtain ⟨y, t, e⟩ := List.exists_cons_of_ne_nil (List.ne_nil_of_length_pos (l := r.inl) (by omega))
      have : (0 : K) ∈ r.inl := by
        rw [e] at h0 ⊢
        have hy : y = 0 := h0
        rw [hy]
        exact List.mem_cons_self
      exact x6 0 this
    cases endpoint with
    | none => exact hz (Or.inl rfl)
    | endpoints => exact hz (Or.inr rfl)
    | fit =>
      obtain ⟨_, h0, _⟩ := C46_ramp_fit codes numBits codeMin codeMax exclude r h
      exact sum_zero_sides r.inl _ _ (by omega) x6 h0
    | other =>
      exfalso
      have hp := (ramp_parts codes numBits codeMin codeMax .other exclude r h).1
      have hne : r.rawInl ≠ [] := List.ne_nil_of_length_pos (by omega)
      simp [correctInl, hne] at hp
  obtain ⟨a1, a2⟩ := (C92_dnl_limits r.dnlMin r.dnlMax (hD.1.trans hD.2)).2.mpr (Or.inr hD)
  obtain ⟨b1, b2⟩ := (C92_dnl_limits r.inlMin r.inlMax (hI.1.trans hI.2)).2.mpr (Or.inr hI)
  exact ⟨fun x hx => ⟨a1.trans (x3 x hx).1, (x3 x hx).2.trans a2⟩, fun x hx => ⟨b1.trans (x6 x hx).1, (x6 x hx).2.trans b2⟩⟩

end Verif
