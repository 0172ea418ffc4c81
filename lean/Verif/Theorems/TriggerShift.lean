import Verif.Theorems.Align
import Verif.Theorems.Prepare
import Verif.Theorems.Parseval
import Verif.Theorems.SpectrumEngine

/-!
# C107: the spectrum report does not depend on where in the period the capture starts, nor on the direction of time
-/

namespace Verif

open Model Finset

/-! ## Rearranged records -/

/-- A relation between a record and a rearranged copy of it that ignores the values of the samples. -/
structure Rearranges (R : List ℝ → List ℝ → Prop) : Prop where
  perm : ∀ r r', R r r' → r'.Perm r
  map : ∀ (f : ℝ → ℝ) r r', R r r' → R (r.map f) (r'.map f)

/-- The rearranged copy, weighted by `w`, has the same magnitudes in every bin. -/
def KeepsMagnitudes (R : List ℝ → List ℝ → Prop) (N : ℕ) (w : ℕ → ℝ) : Prop :=
  ∀ r r', R r r' → r.length = N → ∀ k : ℕ, ‖dft N (fun n => ((r'.getD n 0 * w n : ℝ) : ℂ)) k‖ = ‖dft N (fun n => ((r.getD n 0 * w n : ℝ) : ℂ)) k‖

private theorem maxOf_perm (a b : ℝ) (l m : List ℝ) (h : (a :: l).Perm (b :: m)) : maxOf a l = maxOf b m :=
  maxOf_eq a l _ (h.mem_iff.mpr (maxOf_mem b m)) fun v hv => le_maxOf b m v (h.mem_iff.mp hv)

private theorem minOf_perm (a b : ℝ) (l m : List ℝ) (h : (a :: l).Perm (b :: m)) : minOf a l = minOf b m :=
  minOf_eq a l _ (h.mem_iff.mpr (minOf_mem b m)) fun v hv => minOf_le b m v (h.mem_iff.mp hv)

private theorem flatten_perm {R : List ℝ → List ℝ → Prop} (hR : Rearranges R) {d d' : List (List ℝ)} (h : List.Forall₂ R d d') :
    d'.flatten.Perm d.flatten := by
  induction h with
  | nil => exact List.Perm.refl _
  | cons hab _ ih => simpa using (hR.perm _ _ hab).append ih

private theorem peak_rearranged {R : List ℝ → List ℝ → Prop} (hR : Rearranges R) {d d' : List (List ℝ)} (h : List.Forall₂ R d d')
    (scale : ScaleRange ℝ) : peakAmplitude d' scale = peakAmplitude d scale := by
  cases scale with
  | seq l => rfl
  | scalar v => rfl
  | auto =>
    have hp := flatten_perm hR h
    unfold peakAmplitude
    simp only
    cases hd : d.flatten with
    | nil => rw [hd] at hp; rw [hp.eq_nil]
    | cons a l =>
      cases hd' : d'.flatten with
      | nil => rw [hd, hd'] at hp; simp at hp
      | cons b m =>
        rw [hd, hd'] at hp
        simp only
        rw [maxOf_perm _ _ _ _ hp, minOf_perm _ _ _ _ hp]

private theorem headD_length {R : List ℝ → List ℝ → Prop} (hR : Rearranges R) {d d' : List (List ℝ)} (h : List.Forall₂ R d d') :
    (d'.headD []).length = (d.headD []).length := by
  cases h with
  | nil => rfl
  | cons hab _ => simpa using (hR.perm _ _ hab).length_eq

private theorem orient_id {d : List (List ℝ)} (h : d.length ≤ (d.headD []).length) : orient d = d := by
  unfold orient
  simp only
  rw [if_neg (by omega), if_neg (by omega)]

/-- The prepared record of a rearranged capture is the rearranged prepared record. -/
private theorem prepare_rearranged {R : List ℝ → List ℝ → Prop} (hR : Rearranges R) {d d' : List (List ℝ)} (h : List.Forall₂ R d d')
    (hshape : d.length ≤ (d.headD []).length) (scale : ScaleRange ℝ) :
    (∃ e, prepareFftInput d scale = .error e ∧ prepareFftInput d' scale = .error e) ∨
      ∃ p p', prepareFftInput d scale = .ok p ∧ prepareFftInput d' scale = .ok p' ∧ List.Forall₂ R p p' := by
  have ho := orient_id hshape
  have ho' : orient d' = d' := orient_id (by rw [headD_length hR h, ← h.length_eq]; exact hshape)
  unfold prepareFftInput
  simp only [ho, ho', peak_rearranged hR h]
  cases peakAmplitude d scale with
  | error e => exact Or.inl ⟨e, rfl, rfl⟩
  | ok peak =>
    refine Or.inr ⟨_, _, rfl, rfl, ?_⟩
    rw [List.forall₂_map_left_iff, List.forall₂_map_right_iff]
    refine h.imp fun r r' hrr => ?_
    have hdc : R (removeDc r) (removeDc r') := by
      unfold removeDc
      rw [(hR.perm r r' hrr).sum_eq, (hR.perm r r' hrr).length_eq]
      exact hR.map _ r r' hrr
    split_ifs
    · exact hR.map _ _ _ hdc
    · exact hdc

private theorem powerAverage_rearranged {R : List ℝ → List ℝ → Prop} {d d' : List (List ℝ)} (h : List.Forall₂ R d d')
    (N : ℕ) (w : ℕ → ℝ) (hm : KeepsMagnitudes R N w) (hlen : ∀ r ∈ d, r.length = N) :
    powerAverage (runsOf d' w) N = powerAverage (runsOf d w) N := by
  have key : ∀ k : ℕ, ((runsOf d' w).map fun x => ‖dft N (fun n => (x n : ℂ)) k‖ ^ 2) = (runsOf d w).map fun x => ‖dft N (fun n => (x n : ℂ)) k‖ ^ 2 := by
    intro k
    unfold runsOf
    rw [List.map_map, List.map_map]
    induction h with
    | nil => rfl
    | cons hab _ ih =>
      rw [List.map_cons, List.map_cons, ih fun r hr => hlen r (List.mem_cons_of_mem _ hr)]
      congr 1
      simp only [Function.comp]
      rw [hm _ _ hab (hlen _ List.mem_cons_self) k]
  unfold powerAverage
  apply List.map_congr_left
  intro k _
  rw [key k]
  unfold runsOf
  rw [List.length_map, List.length_map, h.length_eq]

private theorem prepare_rect {d p : List (List ℝ)} (scale : ScaleRange ℝ) (hshape : d.length ≤ (d.headD []).length) (hrect : Rect d)
    (h : prepareFftInput d scale = .ok p) : ∀ r ∈ p, r.length = (p.headD []).length := by
  unfold prepareFftInput at h
  simp only [orient_id hshape] at h
  cases hp : peakAmplitude d scale with
  | error e => rw [hp] at h; simp at h
  | ok peak =>
    rw [hp] at h
    simp only at h
    injection h with h
    have hl : ∀ r : List ℝ, (if peak ≠ 0 then (removeDc r).map (· / peak) else removeDc r).length = r.length := by
      intro r; split_ifs <;> simp [removeDc]
    subst h
    intro r hr
    rw [List.mem_map] at hr
    obtain ⟨r', hr', rfl⟩ := hr
    rw [hl, hrect r' hr']
    cases d with
    | nil => simp at hr'
    | cons a l => simp only [List.map_cons, List.headD_cons]; rw [hl]

/-- Rearranging every run in a way that keeps the bin magnitudes keeps the whole report. -/
private theorem spectrum_rearranged {R : List ℝ → List ℝ → Prop} (hR : Rearranges R) (lib : WinLib) {d d' : List (List ℝ)}
    (h : List.Forall₂ R d d') (hrect : Rect d) (hshape : d.length ≤ (d.headD []).length) (a : SpectrumArgs) (hc : a.coherent = false)
    (hm : ∀ N, KeepsMagnitudes R N (windowVector lib a.win N)) : computeSpectrum lib d' a = computeSpectrum lib d a := by
  unfold computeSpectrum
  rcases prepare_rearranged hR h hshape a.scale with ⟨e, h1, h2⟩ | ⟨p, p', h1, h2, hpp⟩
  · rw [h1, h2]
  · have hraw : ∀ nI, rawSpectrum lib a p' (p.headD []).length nI = rawSpectrum lib a p (p.headD []).length nI := by
      intro nI
      unfold rawSpectrum
      simp only [hc, Bool.false_eq_true, if_false]
      rw [powerAverage_rearranged hpp _ _ (hm _) (prepare_rect a.scale hshape hrect h1)]
    rw [h1, h2]
    simp only [headD_length hR hpp, hpp.length_eq.symm, hraw]

private theorem quick_rearranged {R : List ℝ → List ℝ → Prop} (hR : Rearranges R) (lib : WinLib) {d d' : List (List ℝ)}
    (h : List.Forall₂ R d d') (hrect : Rect d) (hshape : d.length ≤ (d.headD []).length) (win : String) (sideBin : Option ℤ) (scale : ScaleRange ℝ)
    (hm : ∀ N, KeepsMagnitudes R N (windowVector lib win N)) : quickSndr lib d' win sideBin scale = quickSndr lib d win sideBin scale := by
  unfold quickSndr
  rcases prepare_rearranged hR h hshape scale with ⟨e, h1, h2⟩ | ⟨p, p', h1, h2, hpp⟩
  · rw [h1, h2]
  · rw [h1, h2]
    simp only [headD_length hR hpp, powerAverage_rearranged hpp _ _ (hm _) (prepare_rect scale hshape hrect h1)]

/-! ## Three rearrangements -/

/-- The same periodic waveform captured from another sample on. -/
def OtherStart (r r' : List ℝ) : Prop := ∃ s, r' = r.rotate s

/-- The record played backwards. -/
def Backwards (r r' : List ℝ) : Prop := r' = r.reverse

/-- The record played backwards with the first sample kept in place. -/
def Mirrored (r r' : List ℝ) : Prop := ∃ v l, r = v :: l ∧ r' = v :: l.reverse

private theorem otherStart_rearranges : Rearranges OtherStart where
  perm := by rintro r r' ⟨s, rfl⟩; exact List.rotate_perm r s
  map := by rintro f r r' ⟨s, rfl⟩; exact ⟨s, (List.map_rotate f r s)⟩

private theorem backwards_rearranges : Rearranges Backwards where
  perm := by rintro r r' rfl; exact List.reverse_perm r
  map := by rintro f r r' rfl; exact List.map_reverse

private theorem mirrored_rearranges : Rearranges Mirrored where
  perm := by rintro r r' ⟨v, l, rfl, rfl⟩; exact (List.reverse_perm l).cons v
  map := by rintro f r r' ⟨v, l, rfl, rfl⟩; exact ⟨f v, l.map f, rfl, by simp⟩

private theorem keeps_otherStart (N : ℕ) : KeepsMagnitudes OtherStart N fun _ => 1 := by
  rintro r r' ⟨s, rfl⟩ hl k
  rcases Nat.eq_zero_or_pos N with h0 | hN
  · subst h0; simp [dft]
  · have e : dft N (fun n => (((r.rotate s).getD n 0 * 1 : ℝ) : ℂ)) k = dft N (fun n => (rotated N s (fun i => r.getD i 0 * 1) n : ℂ)) k := by
      apply dft_congr
      intro n hn
      unfold rotated
      congr 2
      rw [List.getD_eq_getElem?_getD, List.getD_eq_getElem?_getD, List.getElem?_rotate (by rw [hl]; exact hn), hl]
    rw [e, dft_rotated N s hN, norm_mul, norm_cis, mul_one]

/-- A real record and its conjugate-symmetric spectrum: reflecting the exponent keeps the magnitude. -/
private theorem norm_reflected (N : ℕ) (x : ℕ → ℝ) (k : ℕ) :
    ‖∑ n ∈ range N, (x n : ℂ) * cis ((k : ℝ) * n / N)‖ = ‖dft N (fun n => (x n : ℂ)) k‖ := by
  rw [← Complex.norm_conj (dft N (fun n => (x n : ℂ)) k)]
  congr 1
  unfold dft
  rw [map_sum]
  apply sum_congr rfl
  intro n _
  rw [map_mul, Complex.conj_ofReal, conj_cis, neg_neg]
  push_cast
  rfl

private theorem keeps_backwards (N : ℕ) : KeepsMagnitudes Backwards N fun _ => 1 := by
  rintro r r' rfl hl k
  rcases Nat.eq_zero_or_pos N with h0 | hN
  · subst h0; simp [dft]
  · have hNR : (N : ℝ) ≠ 0 := by exact_mod_cast hN.ne'
    have e : dft N (fun n => ((r.reverse.getD n 0 * 1 : ℝ) : ℂ)) k
        = cis (-((k : ℝ) * ((N : ℝ) - 1) / N)) * ∑ n ∈ range N, ((r.getD n 0 * 1 : ℝ) : ℂ) * cis ((k : ℝ) * n / N) := by
      unfold dft
      rw [← sum_range_reflect (fun n => ((r.reverse.getD n 0 * 1 : ℝ) : ℂ) * cis (-(((k : ℤ) : ℝ) * n / N))), mul_sum]
      apply sum_congr rfl
      intro n hn
      rw [mem_range] at hn
      have h1 : r.reverse.getD (N - 1 - n) 0 = r.getD n 0 := by
        rw [List.getD_eq_getElem?_getD, List.getD_eq_getElem?_getD, List.getElem?_reverse (by rw [hl]; omega), hl]
        congr 2
        omega
      rw [h1, mul_left_comm, ← cis_add]
      congr 2
      rw [show ((N - 1 - n : ℕ) : ℝ) = (N : ℝ) - 1 - n by rw [Nat.cast_sub (by omega), Nat.cast_sub (by omega)]; simp]
      push_cast
      ring
    rw [e, norm_mul, norm_cis, one_mul, norm_reflected]

/-- Windows that look the same from both ends (as periodic windows do). -/
def SymmetricWindow (N : ℕ) (w : ℕ → ℝ) : Prop := ∀ n, 0 < n → n < N → w (N - n) = w n

private theorem keeps_mirrored (N : ℕ) (w : ℕ → ℝ) (hw : SymmetricWindow N w) : KeepsMagnitudes Mirrored N w := by
  rintro r r' ⟨v, l, rfl, rfl⟩ hl k
  rw [← norm_reflected]
  congr 1
  have hN : N = l.length + 1 := by rw [← hl]; simp
  have hNR : (N : ℝ) ≠ 0 := by rw [hN]; positivity
  unfold dft
  rw [hN, sum_range_succ', sum_range_succ']
  congr 1
  · rw [← sum_range_reflect]
    apply sum_congr rfl
    intro n hn
    rw [mem_range] at hn
    have h1 : (v :: l.reverse).getD (l.length - 1 - n + 1) 0 = (v :: l).getD (n + 1) 0 := by
      rw [List.getD_cons_succ, List.getD_cons_succ, List.getD_eq_getElem?_getD, List.getD_eq_getElem?_getD, List.getElem?_reverse (by omega)]
      congr 2
      omega
    have h2 : w (l.length - 1 - n + 1) = w (n + 1) := by
      have := hw (n + 1) (by omega) (by omega)
      rw [← this]
      congr 1
      omega
    rw [h1, h2]
    congr 1
    rw [← hN]
    rw [show (k : ℝ) * ((l.length - 1 - n + 1 : ℕ) : ℝ) / (N : ℝ) = -(((k : ℤ) : ℝ) * ((n + 1 : ℕ) : ℝ) / (N : ℝ)) + ((k : ℤ) : ℝ) by
      rw [show ((l.length - 1 - n + 1 : ℕ) : ℝ) = (N : ℝ) - (n + 1 : ℕ) by
        rw [eq_sub_iff_add_eq]; exact_mod_cast (by omega : l.length - 1 - n + 1 + (n + 1) = N)]
      push_cast
      field_simp
      ring, cis_add_int]
  · simp

private theorem cosine_symmetric (c : List ℝ) (N : ℕ) : SymmetricWindow N (generalCosine c N) := by
  intro n h0 hn
  have hNR : (N : ℝ) ≠ 0 := by exact_mod_cast (by omega : N ≠ 0)
  unfold generalCosine
  rw [if_neg (by omega), if_neg (by omega)]
  congr 1
  apply List.map_congr_left
  intro k _
  rw [← Real.cos_neg]
  congr 2
  rw [Nat.cast_sub hn.le]
  field_simp
  ring

private theorem window_symmetric (lib : WinLib) (hk : ∀ N, SymmetricWindow N (lib.kaiser N)) (hch : ∀ N, SymmetricWindow N (lib.chebwin N))
    (name : String) (N : ℕ) : SymmetricWindow N (windowVector lib name N) := by
  intro n h0 hn
  unfold windowVector
  split_ifs
  · rfl
  · exact hk N n h0 hn
  · exact hch N n h0 hn
  · exact cosine_symmetric _ N n h0 hn

private theorem window_boxcar (lib : WinLib) (name : String) (h : name = "boxcar" ∨ name = "rectangular") (N : ℕ) :
    windowVector lib name N = fun _ => 1 := by
  funext n
  unfold windowVector
  rw [if_pos h]

/-! ## Theorems -/

/-- **C107 (trigger position).** Without a window and with power averaging, every run may be captured from any other sample of the same period, each run from
its own: the whole report of `compute_spectrum` and that of `quick_sndr` stay the same. -/
theorem C107_other_start (lib : WinLib) (d d' : List (List ℝ)) (hrect : Rect d) (hshape : d.length ≤ (d.headD []).length)
    (h : List.Forall₂ OtherStart d d') :
    (∀ a : SpectrumArgs, (a.win = "boxcar" ∨ a.win = "rectangular") → a.coherent = false → computeSpectrum lib d' a = computeSpectrum lib d a) ∧
    ∀ win sideBin scale, (win = "boxcar" ∨ win = "rectangular") → quickSndr lib d' win sideBin scale = quickSndr lib d win sideBin scale := by
  refine ⟨fun a hw hc => spectrum_rearranged otherStart_rearranges lib h hrect hshape a hc ?_,
    fun win sb sc hw => quick_rearranged otherStart_rearranges lib h hrect hshape win sb sc ?_⟩ <;>
  · intro N
    rw [window_boxcar lib _ hw]
    exact keeps_otherStart N

/-- **C107 (direction of time).** Without a window the record played backwards gives the same report. With any window that looks the same from both ends (all of
the built-in ones do) the mirrored record does. -/
theorem C107_backwards (lib : WinLib) (d d' : List (List ℝ)) (hrect : Rect d) (hshape : d.length ≤ (d.headD []).length) (a : SpectrumArgs)
    (hc : a.coherent = false) :
    (List.Forall₂ Backwards d d' → (a.win = "boxcar" ∨ a.win = "rectangular") → computeSpectrum lib d' a = computeSpectrum lib d a) ∧
    (List.Forall₂ Mirrored d d' → (∀ N, SymmetricWindow N (lib.kaiser N)) → (∀ N, SymmetricWindow N (lib.chebwin N)) →
      computeSpectrum lib d' a = computeSpectrum lib d a) := by
  refine ⟨fun h hw => spectrum_rearranged backwards_rearranges lib h hrect hshape a hc ?_,
    fun h hk hch => spectrum_rearranged mirrored_rearranges lib h hrect hshape a hc ?_⟩ <;> intro N
  · rw [window_boxcar lib _ hw]
    exact keeps_backwards N
  · exact keeps_mirrored N _ (window_symmetric lib hk hch _ N)

private theorem hann4 (lib : WinLib) : windowVector lib "hann" 4 0 = 0 ∧ windowVector lib "hann" 4 1 = 1 / 2 ∧ windowVector lib "hann" 4 2 = 1 ∧
    windowVector lib "hann" 4 3 = 1 / 2 := by
  have e : ∀ n, windowVector lib "hann" 4 n = 1 / 2 + 1 / 2 * Real.cos (-Real.pi + 2 * Real.pi * n / 4) := by
    intro n
    unfold windowVector
    rw [if_neg (by decide), if_neg (by decide), if_neg (by decide)]
    unfold generalCosine
    rw [if_neg (by norm_num)]
    simp [cosineCoeffs, List.range_succ]
  refine ⟨?_, ?_, ?_, ?_⟩ <;> rw [e]
  · simp
  · rw [show -Real.pi + 2 * Real.pi * ((1 : ℕ) : ℝ) / 4 = -(Real.pi / 2) by push_cast; ring]; simp
  · rw [show -Real.pi + 2 * Real.pi * ((2 : ℕ) : ℝ) / 4 = 0 by push_cast; ring]; norm_num
  · rw [show -Real.pi + 2 * Real.pi * ((3 : ℕ) : ℝ) / 4 = Real.pi / 2 by push_cast; ring]; simp

/-- **C107 (a window makes the start matter).** With the default Hann window the same periodic waveform captured from another sample gives another total power:
the theorem above does not extend to windowed records. -/
theorem C107_windowed_start_matters (lib : WinLib) : ∃ r r', OtherStart [1, 0, 0, 0] [0, 0, 1, 0] ∧ computeSpectrum lib [[1, 0, 0, 0]] {} = .ok r ∧
    computeSpectrum lib [[0, 0, 1, 0]] {} = .ok r' ∧ r.power.sum ≠ r'.power.sum := by
  have hp : prepareFftInput [[(1 : ℝ), 0, 0, 0]] .auto = .ok [[3 / 2, -(1 / 2), -(1 / 2), -(1 / 2)]] := by
    unfold prepareFftInput
    simp only [orient, peakAmplitude, removeDc, maxOf, minOf, List.flatten, List.foldl]
    norm_num
  have hp' : prepareFftInput [[(0 : ℝ), 0, 1, 0]] .auto = .ok [[-(1 / 2), -(1 / 2), 3 / 2, -(1 / 2)]] := by
    unfold prepareFftInput
    simp only [orient, peakAmplitude, removeDc, maxOf, minOf, List.flatten, List.foldl]
    norm_num
  obtain ⟨r, hr⟩ := (C63_compute_spectrum_total lib [[(1 : ℝ), 0, 0, 0]] {} _ hp (by simp)).mpr ⟨one_pos, by norm_num, le_refl _, by norm_num⟩
  obtain ⟨r', hr'⟩ := (C63_compute_spectrum_total lib [[(0 : ℝ), 0, 1, 0]] {} _ hp' (by simp)).mpr ⟨one_pos, by norm_num, le_refl _, by norm_num⟩
  have hN : ∀ (x : List ℝ) (d : List (List ℝ)) (q : SpectrumResult), prepareFftInput [x] .auto = .ok d → (d.headD []).length = 4 →
      computeSpectrum lib [x] {} = .ok q → q.N = 4 := by
    intro x d q h1 h2 h3
    obtain ⟨d', n, hd', hn, _, _, _, hN, _, _, hpow, hm⟩ := computeSpectrum_ok lib [x] {} q h3
    obtain ⟨bins, spur, noise, _, _, _, hq⟩ := spectrumMetrics_ok _ _ _ _ _ _ _ hm
    have : d' = d := by
      rw [show (({} : SpectrumArgs).scale) = ScaleRange.auto from rfl] at hd'
      rw [h1] at hd'; injection hd' with h; exact h.symm
    rw [hq, ← h2, ← this]
    rfl
  obtain ⟨w0, w1, w2, w3⟩ := hann4 lib
  have n1 := hN _ _ _ hp rfl hr
  have n2 := hN _ _ _ hp' rfl hr'
  have t1 := C26_compute_spectrum_total lib _ _ r hr rfl rfl _ hp (by
    rw [n1]; simp only [sum_range_succ, sum_range_zero, w0, w1, w2, w3]; norm_num)
  have t2 := C26_compute_spectrum_total lib _ _ r' hr' rfl rfl _ hp' (by
    rw [n2]; simp only [sum_range_succ, sum_range_zero, w0, w1, w2, w3]; norm_num)
  refine ⟨r, r', ⟨2, rfl⟩, hr, hr', ?_⟩
  rw [t1, t2, n1, n2]
  simp only [sum_range_succ, sum_range_zero, w0, w1, w2, w3, List.map_cons, List.map_nil, List.getD_cons_zero, List.getD_cons_succ]
  norm_num

example : List.Forall₂ OtherStart [[1, 2, 3], [5, 4, 4]] [[2, 3, 1], [4, 5, 4]] :=
  .cons ⟨1, rfl⟩ (.cons ⟨2, rfl⟩ .nil)

example : List.Forall₂ Mirrored [[1, 2, 3]] [[1, 3, 2]] := .cons ⟨1, [2, 3], rfl, rfl⟩ .nil

end Verif
