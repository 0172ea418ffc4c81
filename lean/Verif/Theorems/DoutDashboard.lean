import Verif.Model.DoutDashboard
import Verif.Theorems.CalibrationStuck
import Verif.Theorems.Dout
import Verif.Theorems.EnobSweep
import Verif.Theorems.WeightRadix

/-!
# C103: the six panels of the digital dashboard
-/

namespace Verif

open Model Spec Finset

private theorem known_freq (solve : Lstsq) (est : List ℝ) (rows : List (List ℝ)) (f : ℝ) (hf0 : f ≠ 0) (H : ℕ) (lr reltol : ℝ) (maxIter : ℕ) (r : CalResult)
    (h : calibrate solve est [rows] (.scalar f) none none H lr reltol maxIter = .ok r) : r.freq = [f] := by
  unfold calibrate at h
  by_cases h1 : ∃ g ∈ (FreqArg.scalar f).values, 1 / 2 < g
  · rw [if_pos h1] at h; cases h
  rw [if_neg h1] at h
  cases hp : prepareInput [rows] none with
  | error e => rw [hp] at h; cases h
  | ok p =>
    obtain ⟨segs', width, nominal⟩ := p
    obtain ⟨_, _, hseg, _⟩ := prepare_one rows segs' width nominal hp
    rw [hp] at h
    simp only [estimateFrequencies, if_neg hf0] at h
    have hsw : searchWanted none (FreqArg.scalar f).values (List.replicate (segs'.map List.length).length f) = false := by
      rw [hseg]
      simp [searchWanted, FreqArg.values, hf0, Ne.symm hf0]
    rw [hsw] at h
    simp only [Bool.false_eq_true, if_false] at h
    split at h
    · cases h
    · rename_i hsol
      split at hsol
      · cases hsol
      · injection hsol with hsol
        simp only [Prod.mk.injEq] at hsol
        split at h
        · cases h
        · injection h with h
          rw [← h, ← hsol.1, hseg]
          rfl

private theorem weight_len (solve : Lstsq) (est : List ℝ) (rows : List (List ℝ)) (freq : FreqArg) (H : ℕ) (lr reltol : ℝ) (maxIter : ℕ) (c : CalResult)
    (hc : calibrate solve est [rows] freq none none H lr reltol maxIter = .ok c) (htall : (rows.headD []).length ≤ rows.length) :
    rows ≠ [] ∧ rows.headD [] ≠ [] ∧ c.weight.length = (rows.headD []).length := by
  obtain ⟨segs', width, nominal, hp, hw⟩ := calibrate_weight_length _ _ _ _ _ _ _ _ _ _ _ hc
  obtain ⟨h0, h1, _, hwd⟩ := prepare_one rows segs' width nominal hp
  rw [orient_tall rows htall] at hwd
  exact ⟨h0, h1, hw.trans hwd⟩

private theorem record_eq (solve : Lstsq) (est : List ℝ) (rows : List (List ℝ)) (freq : FreqArg) (H : ℕ) (lr reltol : ℝ) (maxIter : ℕ) (c : CalResult)
    (hc : calibrate solve est [rows] freq none none H lr reltol maxIter = .ok c) (htall : (rows.headD []).length ≤ rows.length) :
    c.signal.getD 0 [] = firstBits rows c.weight (rows.headD []).length := by
  obtain ⟨segs', width, nominal, hp, h4, _, _, _, h5, _⟩ := C41_decomposition _ _ _ _ _ _ _ _ _ _ _ hc
  obtain ⟨hr0, hr1, hseg, hwd⟩ := prepare_one rows segs' width nominal hp
  rw [orient_tall rows htall] at hwd hseg
  obtain ⟨g1, _, _, g2, _⟩ := h5 0 (by rw [hseg]; simp)
  rw [hseg] at g1 g2
  apply list_ext_getD
  · rw [g1]; simp [firstBits]
  · intro t ht
    rw [g1] at ht
    obtain ⟨_, g3⟩ := g2 t ht
    rw [g3, hwd]
    have ht' : t < rows.length := by simpa using ht
    simp only [segStart, List.take_zero, List.sum_nil, zero_add, List.flatten_cons, List.flatten_nil, List.append_nil]
    unfold firstBits
    rw [List.getD_eq_getElem?_getD, List.getD_eq_getElem?_getD, List.getElem?_map, List.getElem?_eq_getElem ht']
    rfl

private theorem weighted_eq (rows : List (List ℝ)) (m : ℕ) (w : List ℝ) (hw : w.length = m) : weightedRecord rows m w = .ok (firstBits rows w m) := by
  unfold weightedRecord firstBits
  rw [if_neg (by simpa using hw)]
  congr 1
  apply List.map_congr_left
  intro r _
  rw [sum_range_list]
  exact sum_congr rfl fun j _ => mul_comm _ _

/-- What a successful dashboard consists of. -/
private theorem dashboard_ok (lib : WinLib) (solve : Lstsq) (est : List ℝ) (rows : List (List ℝ)) (freq : FreqArg) (weights : Option (List ℝ)) (d : DoutDashboard)
    (h : doutDashboard lib solve est rows freq weights = .ok d) :
    ∃ c x, calibrate solve est [rows] freq none none 1 (1 / 2) (1 / 10 ^ 12) 100 = .ok c ∧
      weightedRecord rows (rows.headD []).length (dashboardWeights (rows.headD []).length weights) = .ok x ∧
      computeSpectrum lib [x] {} = .ok d.nominal ∧ computeSpectrum lib [c.signal.getD 0 []] {} = .ok d.calibrated ∧ bitActivity rows = .ok d.activity ∧
      analyzeOverflow (rows.headD []).length rows c.weight none = .ok d.overflow ∧
      analyzeEnobSweep lib solve est rows (.scalar (c.freq.getD 0 0)) 1 1 "hamming" = .ok d.sweep ∧ analyzeWeightRadix c.weight = .ok d.radix := by
  unfold doutDashboard at h
  simp only at h
  split at h
  · cases h
  rename_i c hc
  split at h
  · cases h
  rename_i x hx
  split at h
  · cases h
  rename_i s1 h1
  split at h
  · cases h
  rename_i s2 h2
  split at h
  · cases h
  rename_i act h3
  split at h
  · cases h
  rename_i ov h4
  split at h
  · cases h
  rename_i sw h5
  split at h
  · cases h
  rename_i rad h6
  injection h with h
  subst h
  exact ⟨c, x, hc, hx, h1, h2, h3, h4, h5, h6⟩

/-- **C103 (one set of weights).** At a known frequency all panels but the first two describe the same calibration: there is one list of weights such that panel 2 is
the spectrum of the bits weighted with it, panel 4 the overflow report and panel 6 the radix report for it, and every point of the sweep in panel 5 is the ENOB of
the first bits weighted with it. The spectra of panel 2 use the Hann window, those of panel 5 the Hamming window. -/
theorem C103_one_calibration (lib : WinLib) (solve : Lstsq) (est : List ℝ) (rows : List (List ℝ)) (f : ℝ) (hf0 : f ≠ 0) (weights : Option (List ℝ))
    (htall : (rows.headD []).length ≤ rows.length) (d : DoutDashboard) (h : doutDashboard lib solve est rows (.scalar f) weights = .ok d) :
    ∃ W : List ℝ, W.length = (rows.headD []).length ∧ 0 ≤ W.sum ∧
      (∃ c, calibrate solve est [rows] (.scalar f) none none 1 (1 / 2) (1 / 10 ^ 12) 100 = .ok c ∧ c.weight = W) ∧
      computeSpectrum lib [firstBits rows W (rows.headD []).length] { win := "hann" } = .ok d.calibrated ∧
      analyzeOverflow (rows.headD []).length rows W none = .ok d.overflow ∧ analyzeWeightRadix W = .ok d.radix ∧
      d.sweep.2 = (List.range (rows.headD []).length).map (· + 1) ∧ d.sweep.1.length = (rows.headD []).length ∧
      ∀ n, 1 ≤ n → n ≤ (rows.headD []).length →
        ∃ r, computeSpectrum lib [firstBits rows W n] { win := "hamming" } = .ok r ∧ d.sweep.1.getD (n - 1) 0 = r.enob := by
  obtain ⟨c, x, hc, hx, h1, h2, h3, h4, h5, h6⟩ := dashboard_ok lib solve est rows _ weights d h
  obtain ⟨h0, hm, hw⟩ := weight_len _ _ _ _ _ _ _ _ _ hc htall
  rw [record_eq _ _ _ _ _ _ _ _ _ hc htall] at h2
  rw [known_freq _ _ _ _ hf0 _ _ _ _ _ hc] at h5
  obtain ⟨c', hc', l1, l2, l3⟩ := C81_entries lib solve est rows (.scalar f) 1 1 "hamming" d.sweep.1 d.sweep.2 htall h5
  rw [hc] at hc'
  injection hc' with hc'
  subst hc'
  obtain ⟨_, _, _, _, _, _, _, _, _, hpol⟩ := C41_decomposition _ _ _ _ _ _ _ _ _ _ _ hc
  exact ⟨c.weight, hw, hpol, ⟨c, hc, rfl⟩, h2, h4, h6, l2, l1, l3⟩

/-- **C103 (the `weights` argument).** The nominal weights enter panel 1 only: two dashboards of the same bits differ at most there. -/
theorem C103_nominal_only (lib : WinLib) (solve : Lstsq) (est : List ℝ) (rows : List (List ℝ)) (freq : FreqArg) (v v' : Option (List ℝ)) (d d' : DoutDashboard)
    (h : doutDashboard lib solve est rows freq v = .ok d) (h' : doutDashboard lib solve est rows freq v' = .ok d') :
    d'.calibrated = d.calibrated ∧ d'.activity = d.activity ∧ d'.overflow = d.overflow ∧ d'.sweep = d.sweep ∧ d'.radix = d.radix := by
  obtain ⟨c, x, hc, hx, h1, h2, h3, h4, h5, h6⟩ := dashboard_ok lib solve est rows _ v d h
  obtain ⟨c', x', hc', hx', h1', h2', h3', h4', h5', h6'⟩ := dashboard_ok lib solve est rows _ v' d' h'
  rw [hc] at hc'
  injection hc' with hc'
  subst hc'
  rw [h2] at h2'; rw [h3] at h3'; rw [h4] at h4'; rw [h5] at h5'; rw [h6] at h6'
  injection h2' with h2'; injection h3' with h3'; injection h4' with h4'; injection h5' with h5'; injection h6' with h6'
  exact ⟨h2'.symm, h3'.symm, h4'.symm, h5'.symm, h6'.symm⟩

/-- **C103 (panel 1).** Panel 1 is the spectrum of the bits weighted with the given weights, by default with powers of two, the first column being the most
significant. -/
theorem C103_nominal (lib : WinLib) (solve : Lstsq) (est : List ℝ) (rows : List (List ℝ)) (freq : FreqArg) (d : DoutDashboard) :
    (∀ v, doutDashboard lib solve est rows freq (some v) = .ok d →
      v.length = (rows.headD []).length ∧ computeSpectrum lib [firstBits rows v v.length] { win := "hann" } = .ok d.nominal) ∧
    (doutDashboard lib solve est rows freq none = .ok d →
      computeSpectrum lib [rows.map fun r => ∑ j ∈ range (rows.headD []).length, 2 ^ ((rows.headD []).length - 1 - j) * r.getD j 0] { win := "hann" }
        = .ok d.nominal) := by
  constructor
  · intro v h
    obtain ⟨c, x, hc, hx, h1, _⟩ := dashboard_ok lib solve est rows _ _ d h
    unfold dashboardWeights at hx
    simp only [Option.getD_some] at hx
    have hl : v.length = (rows.headD []).length := by
      by_contra hne
      unfold weightedRecord at hx
      rw [if_pos hne] at hx
      cases hx
    rw [weighted_eq _ _ _ hl] at hx
    injection hx with hx
    subst hx
    rw [hl]
    exact ⟨rfl, h1⟩
  · intro h
    obtain ⟨c, x, hc, hx, h1, _⟩ := dashboard_ok lib solve est rows _ _ d h
    unfold dashboardWeights at hx
    simp only [Option.getD_none] at hx
    rw [weighted_eq _ _ _ (by simp)] at hx
    injection hx with hx
    subst hx
    rw [← h1]
    congr 2
    unfold firstBits
    apply List.map_congr_left
    intro r _
    apply sum_congr rfl
    intro j hj
    congr 1
    rw [List.getD_eq_getElem?_getD, List.getElem?_map, List.getElem?_range (mem_range.mp hj)]
    rfl

/-- **C103 (when it succeeds).** At a known frequency the dashboard appears exactly if the calibration succeeds, the matrix has at least as many samples as bits, the
given weights match the bits, and the calibration does not find all weights zero. -/
theorem C103_succeeds (lib : WinLib) (solve : Lstsq) (est : List ℝ) (rows : List (List ℝ)) (f : ℝ) (hf0 : f ≠ 0) (weights : Option (List ℝ)) :
    (∃ d, doutDashboard lib solve est rows (.scalar f) weights = .ok d) ↔
      (∃ c, calibrate solve est [rows] (.scalar f) none none 1 (1 / 2) (1 / 10 ^ 12) 100 = .ok c ∧ ∃ x ∈ c.weight, x ≠ 0) ∧
      (rows.headD []).length ≤ rows.length ∧ ∀ v, weights = some v → v.length = (rows.headD []).length := by
  constructor
  · rintro ⟨d, h⟩
    obtain ⟨c, x, hc, hx, h1, h2, h3, h4, h5, h6⟩ := dashboard_ok lib solve est rows _ weights d h
    refine ⟨⟨c, hc, (C45_errors c.weight).2.2.mp ⟨_, h6⟩⟩, ?_, ?_⟩
    · by_contra hw
      obtain ⟨e, he⟩ := C81_wide_refused lib solve est rows (.scalar (c.freq.getD 0 0)) 1 1 "hamming" (not_le.mp hw)
      rw [he] at h5
      cases h5
    · rintro v rfl
      exact ((C103_nominal lib solve est rows _ d).1 v h).1
  · rintro ⟨⟨c, hc, hz⟩, htall, hv⟩
    obtain ⟨h0, hm, hw⟩ := weight_len _ _ _ _ _ _ _ _ _ hc htall
    have hml : (rows.headD []).length ≠ 0 := by simpa using hm
    have hwl : (dashboardWeights (rows.headD []).length weights).length = (rows.headD []).length := by
      cases weights with
      | none => simp [dashboardWeights]
      | some v => exact hv v rfl
    have hne : ∀ w n, firstBits rows w n ≠ [] := by
      intro w n
      simpa [firstBits] using h0
    obtain ⟨s1, e1⟩ := computeSpectrum_one_total lib _ (hne (dashboardWeights (rows.headD []).length weights) (rows.headD []).length) 1 one_pos "hann"
    obtain ⟨s2, e2⟩ := computeSpectrum_one_total lib _ (hne c.weight (rows.headD []).length) 1 one_pos "hann"
    obtain ⟨rad, e6⟩ := (C45_errors c.weight).2.2.mpr hz
    obtain ⟨act, e3⟩ : ∃ act, bitActivity rows = .ok act := by
      cases rows with
      | nil => exact absurd rfl h0
      | cons r t => exact ⟨_, rfl⟩
    obtain ⟨ov, e4⟩ : ∃ ov, analyzeOverflow (rows.headD []).length rows c.weight none = .ok ov := by
      unfold analyzeOverflow
      rw [if_neg (by simpa using hw), if_neg (by push Not; exact fun _ => h0)]
      simp only [Option.getD_none, sub_self]
      rw [if_neg (by omega)]
      exact ⟨_, rfl⟩
    obtain ⟨es, e5⟩ := sweepAll_total (sweepEntry lib rows (rows.headD []).length c.weight 1 "hamming")
      ((List.range (rows.headD []).length).map fun (i : ℕ) => i + 1) (by
        intro n hn
        obtain ⟨i, hi, rfl⟩ := List.mem_map.mp hn
        rw [List.mem_range] at hi
        obtain ⟨r, hr⟩ := computeSpectrum_one_total lib _ (hne c.weight (i + 1)) 1 one_pos "hamming"
        refine ⟨r.enob, ?_⟩
        unfold sweepEntry
        rw [subsetSignal_fit rows _ c.weight (i + 1) hi (by rw [hw]; exact hi)]
        simp only
        rw [hr])
    have e5' : analyzeEnobSweep lib solve est rows (.scalar (c.freq.getD 0 0)) 1 1 "hamming"
        = .ok (es, (List.range (rows.headD []).length).map fun (i : ℕ) => i + 1) := by
      rw [known_freq _ _ _ _ hf0 _ _ _ _ _ hc]
      unfold analyzeEnobSweep
      simp only [List.getD_cons_zero]
      rw [hc]
      simp only
      rw [e5]
    refine ⟨⟨s1, s2, act, ov, (es, (List.range (rows.headD []).length).map fun (i : ℕ) => i + 1), rad⟩, ?_⟩
    · unfold doutDashboard
      simp only
      rw [hc]
      simp only
      rw [weighted_eq _ _ _ hwl]
      simp only
      rw [e1]
      simp only
      rw [record_eq _ _ _ _ _ _ _ _ _ hc htall, e2]
      simp only
      rw [e3]
      simp only
      rw [e4]
      simp only
      rw [e5']
      simp only
      rw [e6]

/-- **C103 (wide input).** A matrix with fewer samples than bits, which the calibration accepts by transposing it, never gives a dashboard. -/
theorem C103_wide_refused (lib : WinLib) (solve : Lstsq) (est : List ℝ) (rows : List (List ℝ)) (freq : FreqArg) (weights : Option (List ℝ))
    (hwide : rows.length < (rows.headD []).length) : ∃ e, doutDashboard lib solve est rows freq weights = .error e := by
  cases h : doutDashboard lib solve est rows freq weights with
  | error e => exact ⟨e, rfl⟩
  | ok d =>
    obtain ⟨c, x, hc, hx, h1, h2, h3, h4, h5, h6⟩ := dashboard_ok lib solve est rows _ weights d h
    obtain ⟨e, he⟩ := C81_wide_refused lib solve est rows (.scalar (c.freq.getD 0 0)) 1 1 "hamming" hwide
    rw [he] at h5
    cases h5

/-- **C103 (stuck bits).** A bit that never toggles is visible as such in all panels that show single bits: its activity is 0 % or 100 %, adding it leaves the ENOB of
the sweep where it was, and its radix entry is not a number. -/
theorem C103_stuck_bit (lib : WinLib) (solve : Lstsq) (est : List ℝ) (rows : List (List ℝ)) (freq : FreqArg) (weights : Option (List ℝ))
    (hbits : BitMatrix (rows.headD []).length rows) (htall : (rows.headD []).length ≤ rows.length) (d : DoutDashboard)
    (h : doutDashboard lib solve est rows freq weights = .ok d) (n : ℕ) (hn : n < (rows.headD []).length)
    (hstuck : ∀ r ∈ rows, r.getD n 0 = (rows.headD []).getD n 0) :
    (d.activity.getD n 0 = 0 ∨ d.activity.getD n 0 = 100) ∧ (1 ≤ n → d.sweep.1.getD n 0 = d.sweep.1.getD (n - 1) 0) ∧ d.radix.radix.getD n none = none := by
  obtain ⟨c, x, hc, hx, h1, h2, h3, h4, h5, h6⟩ := dashboard_ok lib solve est rows _ weights d h
  obtain ⟨h0, hm, hw⟩ := weight_len _ _ _ _ _ _ _ _ _ hc htall
  have hbin : ∀ r ∈ rows, ∀ j, r.getD j 0 = 0 ∨ r.getD j 0 = 1 := by
    intro r hr j
    by_cases hj : j < r.length
    · rw [List.getD_eq_getElem _ _ hj]
      exact (hbits r hr).2 _ (List.getElem_mem hj)
    · rw [List.getD_eq_getElem?_getD, List.getElem?_eq_none (by omega)]
      exact Or.inl rfl
  refine ⟨?_, ?_, ?_⟩
  · obtain ⟨u, hu, _, hu2⟩ := C43_bit_activity _ rows hbits h0
    rw [h3] at hu
    injection hu with hu
    subst hu
    obtain ⟨_, _, _, ha, hb⟩ := hu2 n hn
    have hmem : rows.headD [] ∈ rows := by
      obtain ⟨a, t, rfl⟩ := List.exists_cons_of_ne_nil h0
      simp
    rcases hbin _ hmem n with e | e
    · exact Or.inl (hb.mpr fun r hr => (hstuck r hr).trans e)
    · exact Or.inr (ha.mpr fun r hr => (hstuck r hr).trans e)
  · intro h1n
    exact C81_stuck_bit lib solve est rows _ 1 1 "hamming" d.sweep.1 d.sweep.2 htall hbin h5 n h1n hn hstuck
  · have hz := calibrate_stuck_weight solve est rows freq none 1 _ _ _ htall hbin c hc n hn hstuck
    rw [(C45_radix c.weight d.radix h6).2 n (by omega), if_pos (Or.inr hz)]

private theorem spectrum_scale (lib : WinLib) (rows : List (List ℝ)) (w : List ℝ) (s : ℝ) (hs : s ≠ 0) (n : ℕ) (win : String) :
    computeSpectrum lib [firstBits rows (w.map fun v => s * v) n] { win := win } = computeSpectrum lib [firstBits rows w n] { win := win } := by
  have e : [firstBits rows (w.map fun v => s * v) n] = mapSamples (fun v => s * v + 0) [firstBits rows w n] := by
    unfold mapSamples firstBits
    rw [List.map_cons, List.map_nil, List.map_map]
    congr 1
    apply List.map_congr_left
    intro x _
    simp only [Function.comp, add_zero]
    rw [mul_sum]
    apply sum_congr rfl
    intro j _
    rw [getD_map_list]
    ring
  have hrect : Rect [firstBits rows w n] := by
    unfold Rect; simp
  rw [e]
  rcases lt_or_gt_of_ne hs with hneg | hpos
  · exact C31_compute_spectrum_inverted lib s 0 hneg _ hrect _ rfl rfl
  · exact C31_compute_spectrum_affine lib s 0 hpos _ hrect _ rfl

/-- **C103 (noise-free converter).** If the bits weighted with the true weights `w` of positive sum are exactly an offset plus a sine of the known frequency, and no other
combination of the bits is one, the dashboard shows the converter as it is: panel 2 is the spectrum, panel 4 the overflow report, panel 6 the radix and resolution and
panel 5 the sweep that the TRUE weights give; scale and polarity of the calibration do not enter. If the nominal weights are the true ones up to a factor, panels 1 and 2
show the same metrics. -/
theorem C103_noise_free (lib : WinLib) (solve : Lstsq) (hs : IsLstsq solve) (est : List ℝ) (rows : List (List ℝ)) (f : ℝ) (hf0 : f ≠ 0)
    (hf : f ≤ 1 / 2) (weights : Option (List ℝ)) (hv : ∀ v, weights = some v → v.length = (rows.headD []).length) (hr0 : rows.headD [] ≠ [])
    (htall : (rows.headD []).length ≤ rows.length) (w : List ℝ) (hlen : w.length = (rows.headD []).length) (hsum : 0 < w.sum) (c : ℝ) (a b : ℕ → ℝ)
    (hclean : ∀ n < rows.length, ∑ j ∈ range (rows.headD []).length, w.getD j 0 * (rows.getD n []).getD j 0 = harmonicSeries f 1 c a b n)
    (hne : a 0 ≠ 0 ∨ b 0 ≠ 0)
    (honly : OnlyFit rows.length ((List.range (rows.headD []).length).map fun (j : ℕ) => fun (n : ℕ) => (rows.getD n []).getD j 0) f 1 w c a b) :
    ∃ (d : DoutDashboard) (r : RadixReport), doutDashboard lib solve est rows (.scalar f) weights = .ok d ∧
      computeSpectrum lib [firstBits rows w w.length] { win := "hann" } = .ok d.calibrated ∧
      analyzeOverflow w.length rows w none = .ok d.overflow ∧
      analyzeWeightRadix w = .ok r ∧ d.radix.radix = r.radix ∧ d.radix.effres = r.effres ∧ d.sweep.1.length = w.length ∧
      (∀ n, 1 ≤ n → n ≤ w.length →
        ∃ q, computeSpectrum lib [firstBits rows w n] { win := "hamming" } = .ok q ∧ d.sweep.1.getD (n - 1) 0 = q.enob) ∧
      (∀ k : ℝ, k ≠ 0 → weights = some (w.map fun v => k * v) → d.nominal = d.calibrated) ∧
      (∀ k : ℝ, k ≠ 0 → weights = none → (w = (List.range (rows.headD []).length).map fun (i : ℕ) => k * 2 ^ ((rows.headD []).length - 1 - i)) →
        d.nominal = d.calibrated) := by
  have hrne : rows ≠ [] := by rintro rfl; exact hr0 rfl
  have hprep : prepareInput [rows] none = .ok ([rows], (rows.headD []).length,
      (List.range (rows.headD []).length).map fun (i : ℕ) => (2 : ℝ) ^ ((rows.headD []).length - 1 - i)) := by
    unfold prepareInput
    rw [if_neg (by simp)]
    unfold stackSegments
    rw [if_neg (by push Not; exact ⟨hrne, hr0⟩), orient_tall rows htall]
    simp [stackSegments, nominalWeights]
  obtain ⟨k, s, hk, hs1, hw, _, hpol, _⟩ := C40_full_rank solve hs est [rows] f hf0 hf none (by simp) none 1 one_pos (1 / 2) (1 / 10 ^ 12) 100 rows
    (rows.headD []).length _ hprep w hlen c a b hclean hne honly
  have hs0 : s ≠ 0 := by rintro rfl; norm_num at hs1
  have hspos : 0 < s := by
    rw [hw, List.sum_map_mul_left, List.map_id'] at hpol
    rcases lt_or_gt_of_ne hs0 with h | h
    · exact absurd hpol (not_le.mpr (mul_neg_of_neg_of_pos h hsum))
    · exact h
  have hnz : ∃ x ∈ w, x ≠ 0 := by
    by_contra hc
    push Not at hc
    rw [List.sum_eq_zero hc] at hsum
    exact lt_irrefl _ hsum
  obtain ⟨d, hd⟩ := (C103_succeeds lib solve est rows f hf0 weights).mpr ⟨⟨k, hk, by
    obtain ⟨x, hx, hx0⟩ := hnz
    rw [hw]
    exact ⟨s * x, List.mem_map.mpr ⟨x, hx, rfl⟩, mul_ne_zero hs0 hx0⟩⟩, htall, hv⟩
  obtain ⟨W, hWl, _, ⟨k', hk', hW⟩, h2, h4, h6, _, l1, l2⟩ := C103_one_calibration lib solve est rows f hf0 weights htall d hd
  rw [hk] at hk'
  injection hk' with hk'
  subst hk'
  rw [hw] at hW
  subst hW
  rw [spectrum_scale lib rows w s hs0] at h2
  rw [C44_scaling _ _ _ _ hspos] at h4
  rw [C45_scaling _ _ hs0] at h6
  obtain ⟨r, hr⟩ := (C45_errors w).2.2.mpr hnz
  rw [hr] at h6
  simp only [Except.map, Except.ok.injEq] at h6
  rw [hlen]
  refine ⟨d, r, hd, h2, h4, hr, by rw [← h6], by rw [← h6], l1, ?_, ?_, ?_⟩
  · intro n h1 hn
    obtain ⟨q, hq, he⟩ := l2 n h1 hn
    rw [spectrum_scale lib rows w s hs0] at hq
    exact ⟨q, hq, he⟩
  · rintro t ht rfl
    have := ((C103_nominal lib solve est rows _ d).1 _ hd).2
    rw [spectrum_scale lib rows w t ht, List.length_map, hlen, h2] at this
    injection this with this
    exact this.symm
  · rintro t ht rfl hb
    have hx := (C103_nominal lib solve est rows _ d).2 hd
    have e : firstBits rows w (rows.headD []).length = firstBits rows (((List.range (rows.headD []).length).map fun (i : ℕ) =>
        (2 : ℝ) ^ ((rows.headD []).length - 1 - i)).map fun v => t * v) (rows.headD []).length := by
      rw [List.map_map]
      conv_lhs => rw [hb]
      rfl
    rw [e, spectrum_scale lib rows _ t ht] at h2
    have e' : firstBits rows ((List.range (rows.headD []).length).map fun (i : ℕ) => (2 : ℝ) ^ ((rows.headD []).length - 1 - i)) (rows.headD []).length
        = rows.map fun r => ∑ j ∈ range (rows.headD []).length, 2 ^ ((rows.headD []).length - 1 - j) * r.getD j 0 := by
      unfold firstBits
      apply List.map_congr_left
      intro r _
      apply sum_congr rfl
      intro j hj
      congr 1
      rw [List.getD_eq_getElem?_getD, List.getElem?_map, List.getElem?_range (mem_range.mp hj)]
      rfl
    rw [e', hx] at h2
    injection h2

/-- The six codes of `sixthRows`, whose true weights are 3/2 and 1/2: panel 1 with these weights doubled equals panel 2, the radix is 3. -/
example (lib : WinLib) (solve : Lstsq) (hs : IsLstsq solve) : ∃ d : DoutDashboard,
    doutDashboard lib solve [] sixthRows (.scalar (1 / 6)) (some [3, 1]) = .ok d ∧ d.nominal = d.calibrated ∧ d.radix.radix.getD 1 none = some 3 ∧
      d.sweep.1.length = 2 := by
  obtain ⟨d, r, h1, h2, h3, h4, h5, h6, h7, h8, h9, h10⟩ := C103_noise_free lib solve hs [] sixthRows (1 / 6) (by norm_num) (by norm_num) (some [3, 1])
    (by rintro v hv; injection hv with hv; subst hv; rfl) (by simp [sixthRows]) (by simp [sixthRows]) [3 / 2, 1 / 2] rfl (by norm_num) 1 (fun _ => 1) (fun _ => 0)
    sixth_clean (Or.inl (by norm_num)) sixth_only
  refine ⟨d, h1, h9 2 (by norm_num) (by norm_num), ?_, h7⟩
  rw [h5, (C45_radix _ r h4).2 1 (by simp)]
  norm_num

/-- `stuckRows`, whose middle bit is stuck at one: the dashboard appears; the middle bit is active in all samples, does not move the sweep, and has no radix. -/
example (lib : WinLib) (solve : Lstsq) (hs : IsLstsq solve) : ∃ d : DoutDashboard, doutDashboard lib solve [] stuckRows (.scalar (1 / 6)) none = .ok d ∧
    (d.activity.getD 1 0 = 0 ∨ d.activity.getD 1 0 = 100) ∧ d.sweep.1.getD 1 0 = d.sweep.1.getD 0 0 ∧ d.radix.radix.getD 1 none = none := by
  obtain ⟨r, s, h1, h2, h3, _⟩ := stuckRows_calibrated solve hs [] (1 / 2) (1 / 10 ^ 12) 100
  have hs0 : s ≠ 0 := by rintro rfl; norm_num at h2
  obtain ⟨d, hd⟩ := (C103_succeeds lib solve [] stuckRows (1 / 6) (by norm_num) none).mpr
    ⟨⟨r, h1, s * (3 / 2), by rw [h3]; simp, mul_ne_zero hs0 (by norm_num)⟩, by simp [stuckRows], by simp⟩
  obtain ⟨g1, g2, g3⟩ := C103_stuck_bit lib solve [] stuckRows _ none (by
    intro r hr
    simp only [stuckRows, List.mem_cons, List.not_mem_nil, or_false] at hr
    rcases hr with rfl | rfl | rfl | rfl | rfl | rfl <;> simp [stuckRows]) (by simp [stuckRows]) d hd 1 (by simp [stuckRows]) (by
    intro r hr
    simp only [stuckRows, List.mem_cons, List.not_mem_nil, or_false] at hr
    rcases hr with rfl | rfl | rfl | rfl | rfl | rfl <;> simp [stuckRows])
  exact ⟨d, hd, g1, g2 le_rfl, g3⟩

/-- Two samples of three bits are refused, though the calibration would read them as three samples of two bits. -/
example (lib : WinLib) (solve : Lstsq) : ∃ e, doutDashboard lib solve [] [[1, 0, 1], [0, 1, 1]] (.scalar (1 / 6)) none = .error e :=
  C103_wide_refused lib solve [] _ _ none (by simp)

end Verif
