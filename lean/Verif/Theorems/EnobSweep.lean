import Verif.Model.EnobSweep
import Verif.Theorems.CalibrationExact
import Verif.Theorems.Prepare
import Verif.Theorems.SpectrumEngine

/-!
# C81: the ENOB sweep
-/

namespace Verif.Spec

open Finset

/-- The record obtained from the first `n` bits of each sample with the given weights. -/
noncomputable def firstBits (rows : List (List ℝ)) (w : List ℝ) (n : ℕ) : List ℝ :=
  rows.map fun r => ∑ j ∈ range n, w.getD j 0 * r.getD j 0

end Verif.Spec

namespace Verif

open Model Spec Finset

theorem calibrate_weight_length (solve : Lstsq) (est : List ℝ) (segs : List (List (List ℝ))) (freq : FreqArg) (force : Option Bool)
    (given : Option (List ℝ)) (H : ℕ) (lr reltol : ℝ) (maxIter : ℕ) (r : CalResult)
    (h : calibrate solve est segs freq force given H lr reltol maxIter = .ok r) :
    ∃ segs' width nominal, prepareInput segs given = .ok (segs', width, nominal) ∧ r.weight.length = width := by
  unfold calibrate at h
  by_cases h1 : ∃ f ∈ freq.values, 1 / 2 < f
  · rw [if_pos h1] at h; cases h
  rw [if_neg h1] at h
  cases hp : prepareInput segs given with
  | error e => rw [hp] at h; cases h
  | ok p =>
    obtain ⟨segs', width, nominal⟩ := p
    refine ⟨segs', width, nominal, rfl, ?_⟩
    rw [hp] at h
    simp only at h
    split at h
    · cases h
    · split at h
      · cases h
      · split at h
        · cases h
        · rename_i w hw
          injection h with h
          rw [← h]
          unfold postProcess
          simp only [List.length_map]
          have := (C38_patch_recover_exact _ _ _ _ _ hw).1
          simpa using this

theorem sweepAll_ok (f : ℕ → Py EReal) (l : List ℕ) (es : List EReal) (h : sweepAll f l = .ok es) :
    es.length = l.length ∧ ∀ i < l.length, f (l.getD i 0) = .ok (es.getD i 0) := by
  induction l generalizing es with
  | nil => simp only [sweepAll] at h; injection h with h; subst h; simp
  | cons n ns ih =>
    unfold sweepAll at h
    cases hf : f n with
    | error e => rw [hf] at h; cases h
    | ok v =>
      rw [hf] at h
      simp only at h
      cases hs : sweepAll f ns with
      | error e => rw [hs] at h; cases h
      | ok vs =>
        rw [hs] at h
        simp only at h
        injection h with h
        subst h
        obtain ⟨h1, h2⟩ := ih vs hs
        refine ⟨by simp [h1], ?_⟩
        intro i hi
        cases i with
        | zero => simpa using hf
        | succ i => simpa using h2 i (by simpa using hi)

theorem sweepAll_total (f : ℕ → Py EReal) (l : List ℕ) (h : ∀ n ∈ l, ∃ v, f n = .ok v) : ∃ es, sweepAll f l = .ok es := by
  induction l with
  | nil => exact ⟨[], rfl⟩
  | cons n ns ih =>
    obtain ⟨v, hv⟩ := h n (by simp)
    obtain ⟨vs, hvs⟩ := ih fun k hk => h k (by simp [hk])
    exact ⟨v :: vs, by unfold sweepAll; rw [hv]; simp only; rw [hvs]⟩

theorem sum_range_list (n : ℕ) (g : ℕ → ℝ) : ((List.range n).map g).sum = ∑ j ∈ range n, g j := by
  induction n with
  | zero => simp
  | succ n ih => rw [List.range_succ, List.map_append, List.sum_append, ih, sum_range_succ]; simp

theorem subsetSignal_fit (rows : List (List ℝ)) (m : ℕ) (w : List ℝ) (n : ℕ) (hn : n ≤ m) (hw : n ≤ w.length) :
    subsetSignal rows m w n = .ok (firstBits rows w n) := by
  unfold subsetSignal firstBits
  rw [if_neg (by rw [min_eq_left hn, min_eq_left hw]; simp), min_eq_left hn]
  congr 1
  apply List.map_congr_left
  intro r _
  rw [sum_range_list]
  exact sum_congr rfl fun j _ => mul_comm _ _

theorem sweep_ok (lib : WinLib) (solve : Lstsq) (est : List ℝ) (rows : List (List ℝ)) (freq : FreqArg) (H : ℕ) (osr : ℝ) (win : String)
    (es : List EReal) (counts : List ℕ) (h : analyzeEnobSweep lib solve est rows freq H osr win = .ok (es, counts)) :
    ∃ c, calibrate solve est [rows] freq none none H (1 / 2) (1 / 10 ^ 12) 100 = .ok c ∧
      counts = (List.range (rows.headD []).length).map (fun (i : ℕ) => i + 1) ∧ es.length = (rows.headD []).length ∧
      ∀ i < (rows.headD []).length, sweepEntry lib rows (rows.headD []).length c.weight osr win (i + 1) = .ok (es.getD i 0) := by
  unfold analyzeEnobSweep at h
  simp only at h
  cases hc : calibrate solve est [rows] freq none none H (1 / 2) (1 / 10 ^ 12) 100 with
  | error e => rw [hc] at h; cases h
  | ok c =>
    rw [hc] at h
    simp only at h
    cases hs : sweepAll (sweepEntry lib rows (rows.headD []).length c.weight osr win) ((List.range (rows.headD []).length).map fun (i : ℕ) => i + 1) with
    | error e => rw [hs] at h; cases h
    | ok vs =>
      rw [hs] at h
      simp only at h
      injection h with h
      rw [Prod.mk.injEq] at h
      obtain ⟨rfl, rfl⟩ := h
      obtain ⟨h1, h2⟩ := sweepAll_ok _ _ _ hs
      refine ⟨c, rfl, rfl, by simpa using h1, ?_⟩
      intro i hi
      have := h2 i (by simpa using hi)
      have e : ((List.range (rows.headD []).length).map fun (i : ℕ) => i + 1).getD i 0 = i + 1 := by
        rw [List.getD_eq_getElem?_getD, List.getElem?_map, List.getElem?_range hi]; rfl
      rwa [e] at this

/-- Input preparation of one rectangular matrix with at least as many samples as bits. -/
theorem prepare_one (rows : List (List ℝ)) (segs' : List (List (List ℝ))) (width : ℕ) (nominal : List ℝ)
    (h : prepareInput [rows] none = .ok (segs', width, nominal)) :
    rows ≠ [] ∧ rows.headD [] ≠ [] ∧ segs' = [orientSegment rows] ∧ width = ((orientSegment rows).headD []).length := by
  unfold prepareInput at h
  rw [if_neg (by simp)] at h
  unfold stackSegments at h
  by_cases h0 : rows = [] ∨ rows.headD [] = []
  · rw [if_pos h0] at h; cases h
  · rw [if_neg h0] at h
    push Not at h0
    simp only [stackSegments, nominalWeights, Option.getD_some] at h
    injection h with h
    simp only [Prod.mk.injEq] at h
    exact ⟨h0.1, h0.2, h.1.symm, h.2.1.symm⟩

theorem orient_tall (rows : List (List ℝ)) (h : (rows.headD []).length ≤ rows.length) : orientSegment rows = rows := by
  unfold orientSegment
  rw [if_neg (not_lt.mpr h)]

/-- **C81 (entries).** On a matrix with at least as many samples as bits the sweep returns one value per bit count `1 .. m`; value `n` is
the ENOB of the record rebuilt from the first `n` bits with the weights that `calibrate_weight_sine` reports for all bits. -/
theorem C81_entries (lib : WinLib) (solve : Lstsq) (est : List ℝ) (rows : List (List ℝ)) (freq : FreqArg) (H : ℕ) (osr : ℝ) (win : String)
    (es : List EReal) (counts : List ℕ) (htall : (rows.headD []).length ≤ rows.length)
    (h : analyzeEnobSweep lib solve est rows freq H osr win = .ok (es, counts)) :
    ∃ c, calibrate solve est [rows] freq none none H (1 / 2) (1 / 10 ^ 12) 100 = .ok c ∧
      es.length = (rows.headD []).length ∧ counts = (List.range (rows.headD []).length).map (· + 1) ∧
      ∀ n, 1 ≤ n → n ≤ (rows.headD []).length →
        ∃ r, computeSpectrum lib [firstBits rows c.weight n] { osr := osr, win := win } = .ok r ∧ es.getD (n - 1) 0 = r.enob := by
  obtain ⟨c, hc, h1, h2, h3⟩ := sweep_ok lib solve est rows freq H osr win es counts h
  obtain ⟨segs', width, nominal, hp, hw⟩ := calibrate_weight_length _ _ _ _ _ _ _ _ _ _ _ hc
  obtain ⟨_, _, _, hwd⟩ := prepare_one rows segs' width nominal hp
  rw [orient_tall rows htall] at hwd
  refine ⟨c, hc, h2, h1, ?_⟩
  intro n hn hnm
  have := h3 (n - 1) (by omega)
  rw [show n - 1 + 1 = n by omega] at this
  unfold sweepEntry at this
  rw [subsetSignal_fit rows _ c.weight n hnm (by rw [hw, hwd]; exact hnm)] at this
  simp only at this
  cases hr : computeSpectrum lib [firstBits rows c.weight n] { osr := osr, win := win } with
  | error e => rw [hr] at this; cases this
  | ok r =>
    rw [hr] at this
    injection this with this
    exact ⟨r, rfl, this.symm⟩

/-- **C81 (last entry).** The last value is the ENOB of the calibrated signal that `calibrate_weight_sine` itself returns. -/
theorem C81_last_is_calibrated (lib : WinLib) (solve : Lstsq) (est : List ℝ) (rows : List (List ℝ)) (freq : FreqArg) (H : ℕ) (osr : ℝ)
    (win : String) (es : List EReal) (counts : List ℕ) (htall : (rows.headD []).length ≤ rows.length)
    (h : analyzeEnobSweep lib solve est rows freq H osr win = .ok (es, counts)) :
    ∃ c r, calibrate solve est [rows] freq none none H (1 / 2) (1 / 10 ^ 12) 100 = .ok c ∧
      computeSpectrum lib [c.signal.getD 0 []] { osr := osr, win := win } = .ok r ∧ es.getLast? = some r.enob := by
  obtain ⟨c, hc, h1, h2, h3⟩ := C81_entries lib solve est rows freq H osr win es counts htall h
  obtain ⟨segs', width, nominal, hp, h4, _, _, _, h5, _⟩ := C41_decomposition _ _ _ _ _ _ _ _ _ _ _ hc
  obtain ⟨hr0, hr1, hseg, hwd⟩ := prepare_one rows segs' width nominal hp
  rw [orient_tall rows htall] at hwd hseg
  have hm : 0 < (rows.headD []).length := List.length_pos_iff.mpr hr1
  obtain ⟨r, hr, he⟩ := h3 _ hm le_rfl
  have hsig : c.signal.getD 0 [] = firstBits rows c.weight (rows.headD []).length := by
    obtain ⟨g1, _, _, g2, _⟩ := h5 0 (by rw [hseg]; simp)
    rw [hseg] at g1 g2
    apply list_ext_getD
    · rw [g1]; simp [firstBits]
    · intro t ht
      rw [g1] at ht
      obtain ⟨_, g3⟩ := g2 t ht
      rw [g3, hwd]
      have ht' : t < rows.length := by simpa using ht
      simp only [segStart, List.take_zero, List.sum_nil, zero_add, List.flatten_cons, List.flatten_nil, List.append_nil]
      unfold firstBits
      rw [List.getD_eq_getElem?_getD, List.getD_eq_getElem?_getD, List.getElem?_map, List.getElem?_eq_getElem ht']
      rfl
  refine ⟨c, r, hc, by rw [hsig]; exact hr, ?_⟩
  rw [List.getLast?_eq_getElem?, h1, ← he, List.getD_eq_getElem?_getD]
  have : (rows.headD []).length - 1 < es.length := by omega
  rw [List.getElem?_eq_getElem this]
  rfl

/-- **C81 (useless bits).** A bit to which the calibration gives weight zero leaves the ENOB where it was. -/
theorem C81_zero_weight_bit (lib : WinLib) (solve : Lstsq) (est : List ℝ) (rows : List (List ℝ)) (freq : FreqArg) (H : ℕ) (osr : ℝ)
    (win : String) (es : List EReal) (counts : List ℕ) (htall : (rows.headD []).length ≤ rows.length)
    (h : analyzeEnobSweep lib solve est rows freq H osr win = .ok (es, counts)) (c : CalResult)
    (hc : calibrate solve est [rows] freq none none H (1 / 2) (1 / 10 ^ 12) 100 = .ok c) (n : ℕ) (h1 : 1 ≤ n)
    (hn : n < (rows.headD []).length) (hz : c.weight.getD n 0 = 0) : es.getD n 0 = es.getD (n - 1) 0 := by
  obtain ⟨c', hc', _, _, h3⟩ := C81_entries lib solve est rows freq H osr win es counts htall h
  rw [hc] at hc'
  injection hc' with hc'
  subst hc'
  obtain ⟨r, hr, he⟩ := h3 n h1 hn.le
  obtain ⟨r', hr', he'⟩ := h3 (n + 1) (by omega) (by omega)
  have : firstBits rows c.weight (n + 1) = firstBits rows c.weight n := by
    unfold firstBits
    apply List.map_congr_left
    intro x _
    rw [sum_range_succ, hz, zero_mul, add_zero]
  rw [this, hr] at hr'
  injection hr' with hr'
  rw [he, ← show n + 1 - 1 = n by omega, he', ← hr']

theorem calibrate_weights_from (solve : Lstsq) (est : List ℝ) (segs : List (List (List ℝ))) (freq : FreqArg) (force : Option Bool)
    (given : Option (List ℝ)) (H : ℕ) (lr reltol : ℝ) (maxIter : ℕ) (r : CalResult)
    (h : calibrate solve est segs freq force given H lr reltol maxIter = .ok r) :
    ∃ segs' width nominal weff w pol, prepareInput segs given = .ok (segs', width, nominal) ∧
      recoverRank weff (patchRank (segs'.map List.length).sum
        ((List.range width).map fun (j : ℕ) => fun (n : ℕ) => (segs'.flatten.getD n []).getD j 0) nominal).links = .ok w ∧
      r.weight = w.map fun v => v * pol := by
  unfold calibrate at h
  by_cases h1 : ∃ f ∈ freq.values, 1 / 2 < f
  · rw [if_pos h1] at h; cases h
  rw [if_neg h1] at h
  cases hp : prepareInput segs given with
  | error e => rw [hp] at h; cases h
  | ok p =>
    obtain ⟨segs', width, nominal⟩ := p
    rw [hp] at h
    simp only at h
    split at h
    · cases h
    · split at h
      · cases h
      · split at h
        · cases h
        · rename_i w hw
          injection h with h
          exact ⟨segs', width, nominal, _, w, _, rfl, hw, by rw [← h]; rfl⟩

/-- A bit that never toggles gets weight zero. -/
theorem calibrate_stuck_weight (solve : Lstsq) (est : List ℝ) (rows : List (List ℝ)) (freq : FreqArg) (force : Option Bool) (H : ℕ) (lr reltol : ℝ) (maxIter : ℕ)
    (htall : (rows.headD []).length ≤ rows.length) (hbin : ∀ r ∈ rows, ∀ j, r.getD j 0 = 0 ∨ r.getD j 0 = 1) (c : CalResult)
    (hc : calibrate solve est [rows] freq force none H lr reltol maxIter = .ok c) (n : ℕ) (hn : n < (rows.headD []).length)
    (hstuck : ∀ r ∈ rows, r.getD n 0 = (rows.headD []).getD n 0) : c.weight.getD n 0 = 0 := by
  obtain ⟨segs', width, nominal, weff, w, pol, hp, hw, hcw⟩ := calibrate_weights_from _ _ _ _ _ _ _ _ _ _ _ hc
  obtain ⟨hr0, hr1, hseg, hwd⟩ := prepare_one rows segs' width nominal hp
  rw [orient_tall rows htall] at hwd hseg
  have hnom : nominal = (List.range width).map fun (i : ℕ) => (2 : ℝ) ^ (width - 1 - i) := by
    unfold prepareInput at hp
    rw [if_neg (by simp)] at hp
    split at hp
    · cases hp
    · simp only [nominalWeights] at hp
      injection hp with hp
      simp only [Prod.mk.injEq] at hp
      obtain ⟨_, rfl, rfl⟩ := hp
      rfl
  have hN : (segs'.map List.length).sum = rows.length := by rw [hseg]; simp
  have hfl : segs'.flatten = rows := by rw [hseg]; simp
  rw [hN, hfl] at hw
  have hcol : ∀ j < width, ∀ t, (((List.range width).map fun (j : ℕ) => fun (n : ℕ) => (rows.getD n []).getD j 0).getD j 0) t = (rows.getD t []).getD j 0 := by
    intro j hj t
    rw [List.getD_eq_getElem?_getD, List.getElem?_map, List.getElem?_range hj]
    rfl
  have hmem : ∀ t < rows.length, rows.getD t [] ∈ rows := by
    intro t ht
    rw [List.getD_eq_getElem?_getD, List.getElem?_eq_getElem ht]
    exact List.getElem_mem ht
  have hpos : 0 < rows.length := List.length_pos_iff.mpr hr0
  have hres := (C38_ratios_and_dead_bits rows.length hpos _ nominal weff w (by
      intro i hi
      have hi' : i < width := by simpa using hi
      rw [hnom, List.getD_eq_getElem?_getD, List.getElem?_map, List.getElem?_range hi']
      simp) (by
      intro i hi hsm
      have hi' : i < width := by simpa using hi
      refine ⟨(rows.getD 0 []).getD i 0, ?_⟩
      intro t ht
      have ha := hsm t ht 0 hpos
      have hb := hsm 0 hpos t ht
      rw [hcol i hi', hcol i hi'] at ha hb
      rw [hcol i hi']
      rcases hbin _ (hmem t ht) i with e | e <;> rcases hbin _ (hmem 0 hpos) i with e' | e' <;> rw [e, e'] at ha hb ⊢ <;> first | (exfalso; norm_num at ha; done) | (exfalso; norm_num at hb; done)) hw n
      (by simpa [hwd] using hn)).2
  have hz : w.getD n 0 = 0 := by
    apply hres
    intro i hi j hj
    rw [hcol n (by omega), hcol n (by omega), hstuck _ (hmem i hi), hstuck _ (hmem j hj)]
    norm_num
  rw [hcw, getD_map_mul, hz, zero_mul]

/-- **C81 (stuck bits).** On a matrix of zeros and ones, a bit that never toggles leaves the ENOB where it was. -/
theorem C81_stuck_bit (lib : WinLib) (solve : Lstsq) (est : List ℝ) (rows : List (List ℝ)) (freq : FreqArg) (H : ℕ) (osr : ℝ)
    (win : String) (es : List EReal) (counts : List ℕ) (htall : (rows.headD []).length ≤ rows.length)
    (hbin : ∀ r ∈ rows, ∀ j, r.getD j 0 = 0 ∨ r.getD j 0 = 1)
    (h : analyzeEnobSweep lib solve est rows freq H osr win = .ok (es, counts)) (n : ℕ) (h1 : 1 ≤ n)
    (hn : n < (rows.headD []).length) (hstuck : ∀ r ∈ rows, r.getD n 0 = (rows.headD []).getD n 0) :
    es.getD n 0 = es.getD (n - 1) 0 := by
  obtain ⟨c, hc, _, _, _⟩ := C81_entries lib solve est rows freq H osr win es counts htall h
  exact C81_zero_weight_bit lib solve est rows freq H osr win es counts htall h c hc n h1 hn
    (calibrate_stuck_weight solve est rows freq none H _ _ _ htall hbin c hc n hn hstuck)

theorem computeSpectrum_one_total (lib : WinLib) (x : List ℝ) (hx : x ≠ []) (osr : ℝ) (ho : 0 < osr) (win : String) :
    ∃ r, computeSpectrum lib [x] { osr := osr, win := win } = .ok r := by
  obtain ⟨a, l, rfl⟩ := List.exists_cons_of_ne_nil hx
  have ho' : orient [a :: l] = [a :: l] := by simp [orient]
  have hd : ∃ d, prepareFftInput [a :: l] (.auto : ScaleRange ℝ) = .ok d ∧ 0 < (d.headD []).length := by
    unfold prepareFftInput
    simp only [ho', peakAmplitude, List.flatten_cons, List.flatten_nil, List.append_nil]
    refine ⟨_, rfl, ?_⟩
    simp only [List.map_cons, List.map_nil, List.headD_cons]
    split_ifs <;> simp [removeDc]
  obtain ⟨d, h1, h2⟩ := hd
  exact (C63_compute_spectrum_total lib [a :: l] { osr := osr, win := win } d h1 h2).mpr ⟨ho, by norm_num, by norm_num, by norm_num⟩

/-- **C81 (noise-free converter).** If the weighted output of the true weights `w` is exactly an offset plus `H` harmonics of the known
frequency, and no other combination of the bits is one, the sweep succeeds and value `n` is the ENOB of the record rebuilt from the
first `n` bits with the TRUE weights: calibration scale and polarity do not enter. -/
theorem C81_noise_free (lib : WinLib) (solve : Lstsq) (hs : IsLstsq solve) (est : List ℝ) (rows : List (List ℝ)) (f : ℝ) (hf0 : f ≠ 0)
    (hf : f ≤ 1 / 2) (H : ℕ) (hH : 0 < H) (osr : ℝ) (ho : 0 < osr) (win : String) (hr0 : rows.headD [] ≠ [])
    (htall : (rows.headD []).length ≤ rows.length) (w : List ℝ) (hlen : w.length = (rows.headD []).length) (c : ℝ) (a b : ℕ → ℝ)
    (hclean : ∀ n < rows.length, ∑ j ∈ range (rows.headD []).length, w.getD j 0 * (rows.getD n []).getD j 0 = harmonicSeries f H c a b n)
    (hne : a 0 ≠ 0 ∨ b 0 ≠ 0)
    (honly : OnlyFit rows.length ((List.range (rows.headD []).length).map fun (j : ℕ) => fun (n : ℕ) => (rows.getD n []).getD j 0) f H w c a b) :
    ∃ es, analyzeEnobSweep lib solve est rows (.scalar f) H osr win = .ok (es, (List.range (rows.headD []).length).map (· + 1)) ∧
      ∀ n, 1 ≤ n → n ≤ (rows.headD []).length →
        ∃ r, computeSpectrum lib [firstBits rows w n] { osr := osr, win := win } = .ok r ∧ es.getD (n - 1) 0 = r.enob := by
  have hrne : rows ≠ [] := by rintro rfl; exact hr0 rfl
  have hprep : prepareInput [rows] none = .ok ([rows], (rows.headD []).length,
      (List.range (rows.headD []).length).map fun (i : ℕ) => (2 : ℝ) ^ ((rows.headD []).length - 1 - i)) := by
    unfold prepareInput
    rw [if_neg (by simp)]
    unfold stackSegments
    rw [if_neg (by push Not; exact ⟨hrne, hr0⟩), orient_tall rows htall]
    simp [stackSegments, nominalWeights]
  obtain ⟨k, s, hk, hs1, hw, _⟩ := C40_full_rank solve hs est [rows] f hf0 hf none (by simp) none H hH (1 / 2) (1 / 10 ^ 12) 100 rows
    (rows.headD []).length _ hprep w hlen c a b hclean hne honly
  have hs0 : s ≠ 0 := by rintro rfl; norm_num at hs1
  have hkl : k.weight.length = (rows.headD []).length := by rw [hw, List.length_map, hlen]
  have hsame : ∀ n, computeSpectrum lib [firstBits rows k.weight n] { osr := osr, win := win }
      = computeSpectrum lib [firstBits rows w n] { osr := osr, win := win } := by
    intro n
    have e : [firstBits rows k.weight n] = mapSamples (fun v => s * v + 0) [firstBits rows w n] := by
      unfold mapSamples firstBits
      rw [List.map_cons, List.map_nil, List.map_map]
      congr 1
      apply List.map_congr_left
      intro x _
      simp only [Function.comp, add_zero]
      rw [mul_sum]
      apply sum_congr rfl
      intro j _
      rw [hw, getD_map_list]
      ring
    have hrect : Rect [firstBits rows w n] := by
      unfold Rect; simp
    rw [e]
    rcases lt_or_gt_of_ne hs0 with hneg | hpos
    · exact C31_compute_spectrum_inverted lib s 0 hneg _ hrect _ rfl rfl
    · exact C31_compute_spectrum_affine lib s 0 hpos _ hrect _ rfl
  have hent : ∀ n ≤ (rows.headD []).length, ∃ r, computeSpectrum lib [firstBits rows w n] { osr := osr, win := win } = .ok r ∧
      sweepEntry lib rows (rows.headD []).length k.weight osr win n = .ok r.enob := by
    intro n hn
    obtain ⟨r, hr⟩ := computeSpectrum_one_total lib (firstBits rows w n) (by unfold firstBits; simpa using hrne) osr ho win
    refine ⟨r, hr, ?_⟩
    unfold sweepEntry
    rw [subsetSignal_fit rows _ k.weight n hn (by rw [hkl]; exact hn)]
    simp only
    rw [hsame n, hr]
  obtain ⟨es, hes⟩ := sweepAll_total (sweepEntry lib rows (rows.headD []).length k.weight osr win)
    ((List.range (rows.headD []).length).map fun (i : ℕ) => i + 1) (by
      intro n hn
      obtain ⟨i, hi, rfl⟩ := List.mem_map.mp hn
      rw [List.mem_range] at hi
      obtain ⟨r, _, h⟩ := hent (i + 1) hi
      exact ⟨_, h⟩)
  have hrun : analyzeEnobSweep lib solve est rows (.scalar f) H osr win = .ok (es, (List.range (rows.headD []).length).map (· + 1)) := by
    unfold analyzeEnobSweep
    simp only
    rw [hk]
    simp only
    rw [hes]
  refine ⟨es, hrun, ?_⟩
  intro n hn hnm
  obtain ⟨k', hk', _, _, h3⟩ := C81_entries lib solve est rows _ H osr win es _ htall hrun
  rw [hk] at hk'
  injection hk' with hk'
  subst hk'
  obtain ⟨r, hr, he⟩ := h3 n hn hnm
  exact ⟨r, by rw [← hsame n]; exact hr, he⟩

/-- **C81 (transposed input).** A matrix with fewer samples than bits, which the calibration accepts by transposing it, always makes the
sweep fail. -/
theorem C81_wide_refused (lib : WinLib) (solve : Lstsq) (est : List ℝ) (rows : List (List ℝ)) (freq : FreqArg) (H : ℕ) (osr : ℝ)
    (win : String) (hwide : rows.length < (rows.headD []).length) : ∃ e, analyzeEnobSweep lib solve est rows freq H osr win = .error e := by
  cases h : analyzeEnobSweep lib solve est rows freq H osr win with
  | error e => exact ⟨e, rfl⟩
  | ok p =>
    obtain ⟨es, counts⟩ := p
    obtain ⟨c, hc, _, _, h3⟩ := sweep_ok lib solve est rows freq H osr win es counts h
    obtain ⟨segs', width, nominal, hp, hw⟩ := calibrate_weight_length _ _ _ _ _ _ _ _ _ _ _ hc
    obtain ⟨hr0, _, _, hwd⟩ := prepare_one rows segs' width nominal hp
    have hwd' : width = rows.length := by
      rw [hwd]
      unfold orientSegment
      rw [if_pos hwide]
      obtain ⟨m, hm⟩ : ∃ m, (rows.headD []).length = m + 1 := ⟨(rows.headD []).length - 1, by omega⟩
      rw [hm, List.range_succ_eq_map]
      simp
    have := h3 ((rows.headD []).length - 1) (by omega)
    rw [show (rows.headD []).length - 1 + 1 = (rows.headD []).length by omega] at this
    unfold sweepEntry subsetSignal at this
    rw [if_pos (by rw [min_self, hw, hwd', min_eq_right hwide.le]; omega)] at this
    cases this

/-! ## A worked case: two bits with weights 3/2 and 1/2 at a sixth of the sampling rate -/

/-- The six codes 3, 2, 1, 0, 1, 2. -/
def sixthRows : List (List ℝ) := [[1, 1], [1, 0], [0, 1], [0, 0], [0, 1], [1, 0]]

theorem sixth_series (d : ℝ) (p q : ℕ → ℝ) :
    harmonicSeries (1 / 6) 1 d p q 0 = d + p 0 ∧ harmonicSeries (1 / 6) 1 d p q 1 = d + p 0 / 2 + q 0 * (Real.sqrt 3 / 2) ∧
    harmonicSeries (1 / 6) 1 d p q 2 = d - p 0 / 2 + q 0 * (Real.sqrt 3 / 2) ∧ harmonicSeries (1 / 6) 1 d p q 3 = d - p 0 ∧
    harmonicSeries (1 / 6) 1 d p q 4 = d - p 0 / 2 - q 0 * (Real.sqrt 3 / 2) ∧
    harmonicSeries (1 / 6) 1 d p q 5 = d + p 0 / 2 - q 0 * (Real.sqrt 3 / 2) := by
  have e1 : 2 * Real.pi * (1 / 6) * (((1 : ℕ) : ℝ) * (((0 : ℕ) : ℝ) + 1)) = Real.pi / 3 := by push_cast; ring
  have e2 : 2 * Real.pi * (1 / 6) * (((2 : ℕ) : ℝ) * (((0 : ℕ) : ℝ) + 1)) = Real.pi - Real.pi / 3 := by push_cast; ring
  have e3 : 2 * Real.pi * (1 / 6) * (((3 : ℕ) : ℝ) * (((0 : ℕ) : ℝ) + 1)) = Real.pi := by push_cast; ring
  have e4 : 2 * Real.pi * (1 / 6) * (((4 : ℕ) : ℝ) * (((0 : ℕ) : ℝ) + 1)) = Real.pi / 3 + Real.pi := by push_cast; ring
  have e5 : 2 * Real.pi * (1 / 6) * (((5 : ℕ) : ℝ) * (((0 : ℕ) : ℝ) + 1)) = 2 * Real.pi - Real.pi / 3 := by push_cast; ring
  unfold harmonicSeries
  simp only [sum_range_one]
  rw [e1, e2, e3, e4, e5, Real.cos_pi_sub, Real.sin_pi_sub, Real.cos_add_pi, Real.sin_add_pi, Real.cos_two_pi_sub, Real.sin_two_pi_sub,
    Real.cos_pi_div_three, Real.sin_pi_div_three, Real.cos_pi, Real.sin_pi]
  refine ⟨by simp, by ring, by ring, by ring, by ring, by ring⟩

theorem sixth_clean : ∀ n < sixthRows.length, ∑ j ∈ range (sixthRows.headD []).length, [3 / 2, 1 / 2].getD j 0 * (sixthRows.getD n []).getD j 0
    = harmonicSeries (1 / 6) 1 1 (fun _ => 1) (fun _ => 0) n := by
  have hm : (sixthRows.headD []).length = 2 := rfl
  intro n hn
  obtain ⟨h0, h1, h2, h3, h4, h5⟩ := sixth_series 1 (fun _ => 1) (fun _ => 0)
  have hn' : n < 6 := by simpa [sixthRows] using hn
  rw [hm, sum_range_succ, sum_range_one]
  interval_cases n
  · rw [h0]; norm_num [sixthRows]
  · rw [h1]; norm_num [sixthRows]
  · rw [h2]; norm_num [sixthRows]
  · rw [h3]; norm_num [sixthRows]
  · rw [h4]; norm_num [sixthRows]
  · rw [h5]; norm_num [sixthRows]

theorem sixth_only : OnlyFit sixthRows.length ((List.range (sixthRows.headD []).length).map fun (j : ℕ) => fun (n : ℕ) => (sixthRows.getD n []).getD j 0) (1 / 6) 1
    [3 / 2, 1 / 2] 1 (fun _ => 1) (fun _ => 0) := by
  have hm : (sixthRows.headD []).length = 2 := rfl
  intro u d p q hu h
  have hu2 : u.length = 2 := by simpa [sixthRows] using hu
  obtain ⟨x, y, rfl⟩ := List.length_eq_two.mp hu2
  obtain ⟨h0, h1, h2, h3, h4, h5⟩ := sixth_series d p q
  have e0 := h 0 (by simp [sixthRows])
  have e1 := h 1 (by simp [sixthRows])
  have e2 := h 2 (by simp [sixthRows])
  have e3 := h 3 (by simp [sixthRows])
  have e4 := h 4 (by simp [sixthRows])
  rw [h0, hm, matVec_range, sum_range_succ, sum_range_one] at e0
  rw [h1, hm, matVec_range, sum_range_succ, sum_range_one] at e1
  rw [h2, hm, matVec_range, sum_range_succ, sum_range_one] at e2
  rw [h3, hm, matVec_range, sum_range_succ, sum_range_one] at e3
  rw [h4, hm, matVec_range, sum_range_succ, sum_range_one] at e4
  simp [sixthRows] at e0 e1 e2 e3 e4
  have hq : q 0 = 0 := by
    have h3 : (0 : ℝ) < Real.sqrt 3 := Real.sqrt_pos.mpr (by norm_num)
    have : q 0 * Real.sqrt 3 = 0 := by linarith
    exact (mul_eq_zero.mp this).resolve_right h3.ne'
  rw [hq] at e1 e2 e4
  refine ⟨p 0, ?_, by linarith, ?_⟩
  · simp only [List.map_cons, List.map_nil]
    rw [show x = p 0 * (3 / 2) by linarith, show y = p 0 * (1 / 2) by linarith]
  · intro k hk
    have : k = 0 := by omega
    subst this
    exact ⟨by ring, by rw [hq]; ring⟩

/-- The sweep on the six codes: with one bit the ENOB is that of the record `3/2, 3/2, 0, 0, 0, 3/2`, with both that of the exact sine
`2, 3/2, 1/2, 0, 1/2, 3/2`. -/
example (lib : WinLib) (solve : Lstsq) (hs : IsLstsq solve) : ∃ es r1 r2,
    analyzeEnobSweep lib solve [] sixthRows (.scalar (1 / 6)) 1 1 "hamming" = .ok (es, [1, 2]) ∧
    computeSpectrum lib [[3 / 2, 3 / 2, 0, 0, 0, 3 / 2]] { win := "hamming" } = .ok r1 ∧
    computeSpectrum lib [[2, 3 / 2, 1 / 2, 0, 1 / 2, 3 / 2]] { win := "hamming" } = .ok r2 ∧ es.getD 0 0 = r1.enob ∧ es.getD 1 0 = r2.enob := by
  have hm : (sixthRows.headD []).length = 2 := rfl
  obtain ⟨es, h1, h2⟩ := C81_noise_free lib solve hs [] sixthRows (1 / 6) (by norm_num) (by norm_num) 1 one_pos 1 one_pos "hamming"
    (by simp [sixthRows]) (by simp [sixthRows]) [3 / 2, 1 / 2] rfl 1 (fun _ => 1) (fun _ => 0) sixth_clean (Or.inl (by norm_num)) sixth_only
  obtain ⟨r1, g1, g2⟩ := h2 1 le_rfl (by rw [hm]; norm_num)
  obtain ⟨r2, g3, g4⟩ := h2 2 (by norm_num) (by rw [hm])
  refine ⟨es, r1, r2, h1, ?_, ?_, g2, g4⟩
  · rw [← g1]
    congr 1
    simp [firstBits, sixthRows]
  · rw [← g3]
    congr 1
    norm_num [firstBits, sixthRows, sum_range_succ]

end Verif
