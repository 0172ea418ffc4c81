import Verif.Model.Spectrum

/-!
# C31: gain and offset invariance; C32: run order
-/

namespace Verif

open Model Finset

variable {K : Type} [Field K] [LinearOrder K] [IsStrictOrderedRing K]

/-- A proper matrix: all rows have the same length. -/
def Rect {α : Type} (d : List (List α)) : Prop := ∀ r ∈ d, r.length = (d.headD []).length

/-- Apply a map to every sample. -/
def mapSamples {α β : Type} (f : α → β) (d : List (List α)) : List (List β) := d.map fun r => r.map f

omit [LinearOrder K] [IsStrictOrderedRing K] in
private theorem headD_map (f : K → K) (d : List (List K)) : ((mapSamples f d).headD []).length = (d.headD []).length := by
  cases d <;> simp [mapSamples]

omit [LinearOrder K] [IsStrictOrderedRing K] in
private theorem transpose_map (f : K → K) (d : List (List K)) (c : ℕ) (h : ∀ r ∈ d, r.length = c) :
    transposeRows (mapSamples f d) c = mapSamples f (transposeRows d c) := by
  unfold transposeRows mapSamples
  rw [List.map_map]
  apply List.map_congr_left
  intro j hj
  rw [List.mem_range] at hj
  simp only [Function.comp, List.map_map]
  apply List.map_congr_left
  intro r hr
  simp only [Function.comp]
  rw [List.getD_eq_getElem?_getD, List.getD_eq_getElem?_getD, List.getElem?_map, List.getElem?_eq_getElem (by rw [h r hr]; exact hj)]
  rfl

omit [LinearOrder K] [IsStrictOrderedRing K] in
private theorem orient_map (f : K → K) (d : List (List K)) (h : Rect d) : orient (mapSamples f d) = mapSamples f (orient d) := by
  unfold orient
  simp only [headD_map]
  rw [show (mapSamples f d).length = d.length by simp [mapSamples], transpose_map f d _ h]
  split_ifs <;> rfl

omit [IsStrictOrderedRing K] in
private theorem removeDc_affine (a b : K) (hc : CharZero K) (r : List K) :
    removeDc (r.map fun v => a * v + b) = (removeDc r).map (a * ·) := by
  by_cases hr : r = []
  · subst hr; rfl
  · have hlen : (r.length : K) ≠ 0 := by
      rw [Ne, Nat.cast_eq_zero]
      exact fun h => hr (List.length_eq_zero_iff.mp h)
    have hsum : (r.map fun v => a * v + b).sum = a * r.sum + r.length * b := by
      clear hr hlen
      induction r with
      | nil => simp
      | cons v r ih => rw [List.map_cons, List.sum_cons, ih, List.sum_cons, List.length_cons]; push_cast; ring
    unfold removeDc
    rw [hsum, List.map_map, List.map_map, List.length_map]
    apply List.map_congr_left
    intro v _
    simp only [Function.comp]
    field_simp
    ring

private theorem peak_affine (a b : K) (ha : a ≠ 0) (d : List (List K)) :
    peakAmplitude (mapSamples (fun v => a * v + b) d) .auto
      = match peakAmplitude d .auto with
        | .error e => .error e
        | .ok p => .ok (|a| * p) := by
  have hf : (mapSamples (fun v => a * v + b) d).flatten = d.flatten.map fun v => a * v + b := by
    unfold mapSamples; rw [← List.map_flatten]
  unfold peakAmplitude
  simp only
  rw [hf]
  cases hd : d.flatten with
  | nil => rfl
  | cons x l =>
    simp only [List.map_cons]
    rcases lt_or_gt_of_ne ha with hneg | hpos
    · have e1 : maxOf (a * x + b) (l.map fun v => a * v + b) = a * minOf x l + b := by
        apply maxOf_eq
        · rw [← List.map_cons (f := fun v => a * v + b)]
          exact List.mem_map_of_mem (f := fun v => a * v + b) (minOf_mem x l)
        · intro v hv
          rw [← List.map_cons (f := fun v => a * v + b), List.mem_map] at hv
          obtain ⟨u, hu, rfl⟩ := hv
          have := minOf_le x l u hu
          nlinarith
      have e2 : minOf (a * x + b) (l.map fun v => a * v + b) = a * maxOf x l + b := by
        apply minOf_eq
        · rw [← List.map_cons (f := fun v => a * v + b)]
          exact List.mem_map_of_mem (f := fun v => a * v + b) (maxOf_mem x l)
        · intro v hv
          rw [← List.map_cons (f := fun v => a * v + b), List.mem_map] at hv
          obtain ⟨u, hu, rfl⟩ := hv
          have := le_maxOf x l u hu
          nlinarith
      rw [e1, e2, abs_of_neg hneg]
      congr 1; ring
    · have e1 : maxOf (a * x + b) (l.map fun v => a * v + b) = a * maxOf x l + b := by
        apply maxOf_eq
        · rw [← List.map_cons (f := fun v => a * v + b)]
          exact List.mem_map_of_mem (f := fun v => a * v + b) (maxOf_mem x l)
        · intro v hv
          rw [← List.map_cons (f := fun v => a * v + b), List.mem_map] at hv
          obtain ⟨u, hu, rfl⟩ := hv
          have := le_maxOf x l u hu
          nlinarith
      have e2 : minOf (a * x + b) (l.map fun v => a * v + b) = a * minOf x l + b := by
        apply minOf_eq
        · rw [← List.map_cons (f := fun v => a * v + b)]
          exact List.mem_map_of_mem (f := fun v => a * v + b) (minOf_mem x l)
        · intro v hv
          rw [← List.map_cons (f := fun v => a * v + b), List.mem_map] at hv
          obtain ⟨u, hu, rfl⟩ := hv
          have := minOf_le x l u hu
          nlinarith
      rw [e1, e2, abs_of_pos hpos]
      congr 1; ring

private theorem const_removeDc (r : List K) (c : K) (h : ∀ v ∈ r, v = c) : ∀ v ∈ removeDc r, v = 0 := by
  intro v hv
  unfold removeDc at hv
  rw [List.mem_map] at hv
  obtain ⟨u, hu, rfl⟩ := hv
  have hr : r = List.replicate r.length c := List.eq_replicate_of_mem h
  have hlen : (r.length : K) ≠ 0 := by
    rw [Ne, Nat.cast_eq_zero]
    intro h0
    rw [List.length_eq_zero_iff] at h0
    subst h0; simp at hu
  have hs : r.sum = r.length * c := by rw [hr]; simp
  rw [hs, h u hu]
  field_simp
  ring

/-- The sign of a non-zero number. -/
def sgn (a : K) : K := if 0 < a then 1 else -1

/-- **C31 (normalisation).** With automatic full scale, an affine change `v ↦ a·v + b` of all samples leaves the prepared
record unchanged for `a > 0` and only negates it for `a < 0`; an input that fails keeps failing in the same way. -/
theorem C31_prepare_affine (a b : K) (ha : a ≠ 0) (data : List (List K)) (hrect : Rect data) :
    prepareFftInput (mapSamples (fun v => a * v + b) data) .auto
      = match prepareFftInput data .auto with
        | .error e => .error e
        | .ok d => .ok (mapSamples (sgn a * ·) d) := by
  unfold prepareFftInput
  simp only
  rw [orient_map _ data hrect, peak_affine a b ha]
  cases hp : peakAmplitude (orient data) .auto with
  | error e => rfl
  | ok p =>
    simp only
    congr 1
    unfold mapSamples
    rw [List.map_map, List.map_map]
    apply List.map_congr_left
    intro r hr
    simp only [Function.comp]
    rw [removeDc_affine a b inferInstance]
    have habs : |a| ≠ 0 := abs_ne_zero.mpr ha
    by_cases hp0 : p = 0
    · rw [if_neg (by simp [hp0]), if_neg (by simp [hp0])]
      -- a flat record: every removed sample is zero
      have hconst : ∀ v ∈ removeDc r, v = 0 := by
        unfold peakAmplitude at hp
        simp only at hp
        cases hf : (orient data).flatten with
        | nil => rw [hf] at hp; simp at hp
        | cons x l =>
          rw [hf] at hp
          simp only at hp
          injection hp with hp
          have hmm : maxOf x l = minOf x l := by
            have h2 : maxOf x l - minOf x l = 0 := by
              have := hp.trans hp0
              rw [div_eq_zero_iff] at this
              rcases this with h | h
              · exact h
              · norm_num at h
            linarith
          apply const_removeDc r (maxOf x l)
          intro v hv
          have hmem : v ∈ x :: l := by rw [← hf]; exact List.mem_flatten.mpr ⟨r, hr, hv⟩
          apply le_antisymm (le_maxOf x l v hmem)
          rw [hmm]; exact minOf_le x l v hmem
      apply List.map_congr_left
      intro v hv
      rw [hconst v hv]; ring
    · rw [if_pos (mul_ne_zero habs hp0), if_pos hp0, List.map_map, List.map_map]
      apply List.map_congr_left
      intro v _
      simp only [Function.comp, sgn]
      split_ifs with hpos
      · rw [abs_of_pos hpos]; field_simp
      · have hneg : a < 0 := lt_of_le_of_ne (not_lt.mp hpos) ha
        rw [abs_of_neg hneg]
        have := neg_ne_zero.mpr ha
        field_simp

/-- **C31 (metrics).** `compute_spectrum` with automatic full scale returns the same result for `x` and `a·x + b`,
`a > 0`, in both averaging modes and for every option. -/
theorem C31_compute_spectrum_affine (lib : WinLib) (a b : ℝ) (ha : 0 < a) (data : List (List ℝ)) (hrect : Rect data)
    (args : SpectrumArgs) (hs : args.scale = .auto) :
    computeSpectrum lib (mapSamples (fun v => a * v + b) data) args = computeSpectrum lib data args := by
  unfold computeSpectrum
  rw [hs, C31_prepare_affine a b ha.ne' data hrect]
  cases prepareFftInput data .auto with
  | error e => rfl
  | ok d =>
    have : mapSamples (sgn a * ·) d = d := by
      unfold mapSamples sgn
      rw [if_pos ha]
      simp
    simp only [this]

private theorem powerAverage_neg (runs : List (ℕ → ℝ)) (N : ℕ) :
    powerAverage (runs.map fun x => fun n => -x n) N = powerAverage runs N := by
  unfold powerAverage
  apply List.map_congr_left
  intro k _
  rw [List.map_map, List.length_map]
  congr 4
  apply List.map_congr_left
  intro x _
  simp only [Function.comp]
  rw [← norm_neg]
  congr 2
  unfold dft
  rw [← sum_neg_distrib]
  apply sum_congr rfl
  intro n _
  push_cast; ring

/-- **C31 (inversion).** In power-averaging mode an inverted input (`a < 0`) gives the same result as well. -/
theorem C31_compute_spectrum_inverted (lib : WinLib) (a b : ℝ) (ha : a < 0) (data : List (List ℝ)) (hrect : Rect data)
    (args : SpectrumArgs) (hs : args.scale = .auto) (hc : args.coherent = false) :
    computeSpectrum lib (mapSamples (fun v => a * v + b) data) args = computeSpectrum lib data args := by
  unfold computeSpectrum
  rw [hs, C31_prepare_affine a b ha.ne data hrect]
  cases prepareFftInput data .auto with
  | error e => rfl
  | ok d =>
    have h1 : ((mapSamples (sgn a * ·) d).headD []).length = (d.headD []).length := by cases d <;> simp [mapSamples]
    have h2 : (mapSamples (sgn a * ·) d).length = d.length := by simp [mapSamples]
    have h3 : ∀ N n, rawSpectrum lib args (mapSamples (sgn a * ·) d) N n = rawSpectrum lib args d N n := by
      intro N n
      unfold rawSpectrum
      simp only [hc, Bool.false_eq_true, if_false]
      congr 1
      rw [← powerAverage_neg (runsOf d _)]
      congr 1
      unfold runsOf mapSamples
      rw [List.map_map, List.map_map]
      apply List.map_congr_left
      intro r _
      simp only [Function.comp]
      funext n
      unfold sgn
      rw [if_neg (not_lt.mpr ha.le), List.getD_eq_getElem?_getD, List.getD_eq_getElem?_getD, List.getElem?_map]
      cases r[n]? <;> simp
    simp only [h1, h2, h3]

/-- **C31 (zero mean).** Every prepared row has zero mean. -/
theorem C31_prepared_zero_mean (data : List (List K)) (scale : ScaleRange K) (d : List (List K))
    (h : prepareFftInput data scale = .ok d) : ∀ r ∈ d, r.sum = 0 := by
  have hz : ∀ r : List K, (removeDc r).sum = 0 := by
    intro r
    have hs : ∀ (l : List K) (c : K), (l.map fun v => v - c).sum = l.sum - l.length * c := by
      intro l c
      induction l with
      | nil => simp
      | cons v l ih => rw [List.map_cons, List.sum_cons, ih, List.sum_cons, List.length_cons]; push_cast; ring
    unfold removeDc
    rw [hs]
    by_cases hr : r = []
    · subst hr; simp
    · have hlen : (r.length : K) ≠ 0 := by
        rw [Ne, Nat.cast_eq_zero]
        exact fun h => hr (List.length_eq_zero_iff.mp h)
      field_simp
      ring
  unfold prepareFftInput at h
  simp only at h
  cases hp : peakAmplitude (orient data) scale with
  | error e => rw [hp] at h; simp at h
  | ok p =>
    rw [hp] at h
    simp only at h
    injection h with h
    subst h
    intro r hr
    rw [List.mem_map] at hr
    obtain ⟨r', _, rfl⟩ := hr
    split_ifs
    · have hd : ∀ (l : List K) (c : K), (l.map (· / c)).sum = l.sum / c := by
        intro l c
        induction l with
        | nil => simp
        | cons v l ih => rw [List.map_cons, List.sum_cons, ih, List.sum_cons, add_div]
      rw [hd, hz, zero_div]
    · exact hz r'

/-- **C31 (span).** With automatic full scale the prepared samples of a single non-flat record span exactly 2 (peak to
peak): the largest minus the smallest is 2. -/
theorem C31_prepared_span (x : K) (l : List K) (hflat : minOf x l ≠ maxOf x l) :
    ∃ y m, prepareFftInput [x :: l] .auto = .ok [y :: m] ∧ maxOf y m - minOf y m = 2 := by
  have hpk : peakAmplitude (orient [x :: l]) .auto = .ok ((maxOf x l - minOf x l) / 2) := by
    simp [peakAmplitude, orient]
  have hne : (maxOf x l - minOf x l) / 2 ≠ 0 := by
    rw [Ne, div_eq_zero_iff, not_or]
    exact ⟨sub_ne_zero.mpr hflat.symm, by norm_num⟩
  have hlt : minOf x l < maxOf x l := lt_of_le_of_ne (minOf_le x l _ (maxOf_mem x l)) hflat
  set p := (maxOf x l - minOf x l) / 2 with hp
  have hppos : 0 < p := by rw [hp]; linarith
  set c := (x :: l).sum / ((x :: l).length : K) with hcdef
  let f : K → K := fun v => (v - c) / p
  have hmono : ∀ u v, u ≤ v → f u ≤ f v := by
    intro u v h
    exact div_le_div_of_nonneg_right (by linarith) hppos.le
  refine ⟨f x, l.map f, ?_, ?_⟩
  · unfold prepareFftInput
    simp only [hpk]
    rw [show orient [x :: l] = [x :: l] by simp [orient]]
    simp only [List.map_cons, List.map_nil]
    rw [if_pos hne]
    unfold removeDc
    rw [List.map_map]
    simp only [List.map_cons]
    rfl
  · have e1 : maxOf (f x) (l.map f) = f (maxOf x l) := by
      apply maxOf_eq
      · rw [← List.map_cons]; exact List.mem_map_of_mem (maxOf_mem x l)
      · intro v hv
        rw [← List.map_cons, List.mem_map] at hv
        obtain ⟨u, hu, rfl⟩ := hv
        exact hmono _ _ (le_maxOf x l u hu)
    have e2 : minOf (f x) (l.map f) = f (minOf x l) := by
      apply minOf_eq
      · rw [← List.map_cons]; exact List.mem_map_of_mem (minOf_mem x l)
      · intro v hv
        rw [← List.map_cons, List.mem_map] at hv
        obtain ⟨u, hu, rfl⟩ := hv
        exact hmono _ _ (minOf_le x l u hu)
    rw [e1, e2]
    simp only [f]
    rw [← sub_div, div_eq_iff hppos.ne', hp]
    ring

/-! ## C32 -/

/-- **C31 (given range).** A pair `[lo, hi]` sets the same scale as the scalar half-span `(hi - lo) / 2`; for data that just fill the range it sets the scale
of the automatic mode; anything but two numbers is a `ValueError`. -/
theorem C31_given_range (data : List (List K)) (lo hi : K) :
    prepareFftInput data (.seq [lo, hi]) = prepareFftInput data (.scalar ((hi - lo) / 2)) ∧
    (∀ x l, (orient data).flatten = x :: l → minOf x l = lo → maxOf x l = hi → prepareFftInput data (.seq [lo, hi]) = prepareFftInput data .auto) ∧
    (∀ s : List K, s.length ≠ 2 → prepareFftInput data (.seq s) = .error .valueError) := by
  refine ⟨rfl, ?_, ?_⟩
  · intro x l hxl h1 h2
    unfold prepareFftInput peakAmplitude
    simp only [hxl, h1, h2]
  · intro s hs
    unfold prepareFftInput
    have : peakAmplitude (orient data) (.seq s) = .error .valueError := by
      unfold peakAmplitude
      match s, hs with
      | [], _ => rfl
      | [_], _ => rfl
      | [_, _], h => simp at h
      | _ :: _ :: _ :: _, _ => rfl
    simp only [this]

/-- **C31 (full scale).** A sine of amplitude `A` about any level, analysed with the range `[c - A, c + A]` or the scalar `A`, is normalised to amplitude one
once its mean is removed: every sample becomes its deviation from the mean divided by `A`. -/
theorem C31_full_scale (r : List K) (c A : K) (hA : A ≠ 0) :
    prepareFftInput [r] (.seq [c - A, c + A]) = .ok [r.map fun v => (v - r.sum / r.length) / A] ∧
    prepareFftInput [r] (.scalar A) = .ok [r.map fun v => (v - r.sum / r.length) / A] := by
  have ho : orient [r] = [r] := by simp [orient]
  have h2 : prepareFftInput [r] (.scalar A) = .ok [r.map fun v => (v - r.sum / r.length) / A] := by
    unfold prepareFftInput
    simp only [ho, peakAmplitude, List.map_cons, List.map_nil]
    rw [if_pos hA]
    unfold removeDc
    rw [List.map_map]
    rfl
  refine ⟨?_, h2⟩
  rw [(C31_given_range [r] _ _).1, show (c + A - (c - A)) / 2 = A by ring]
  exact h2

example : prepareFftInput [([3, 5, 3, 1] : List ℚ)] (.seq [1, 5]) = .ok [[0, 1, 0, -1]] := by decide +kernel

/-- **C32 (run order, spectrum).** The power average does not depend on the order of the runs. -/
theorem C32_power_average_perm (r r' : List (ℕ → ℝ)) (N : ℕ) (h : r.Perm r') : powerAverage r N = powerAverage r' N := by
  unfold powerAverage
  apply List.map_congr_left
  intro k _
  rw [(h.map _).sum_eq, h.length_eq]

/-- **C32 (run order, coherent).** Neither does the coherent average. -/
theorem C32_coherent_average_perm (r r' : List (ℕ → ℝ)) (N n : ℕ) (h : r.Perm r') :
    coherentAverage r N n = coherentAverage r' N n := by
  unfold coherentAverage
  apply List.map_congr_left
  intro k _
  unfold coherentSum
  simp only
  have hp := h.filterMap (fun x => coherentRun x N n)
  rw [(hp.map _).sum_eq, hp.length_eq]

/-- **C32 (identical runs).** Averaging identical runs equals a single run. -/
theorem C32_power_average_replicate (x : ℕ → ℝ) (m N : ℕ) (hm : 0 < m) :
    powerAverage (List.replicate m x) N = powerAverage [x] N := by
  unfold powerAverage
  apply List.map_congr_left
  intro k _
  have : (m : ℝ) ≠ 0 := by exact_mod_cast hm.ne'
  simp only [List.map_replicate, List.sum_replicate, List.length_replicate, List.map_cons, List.map_nil, List.sum_cons,
    List.sum_nil, add_zero, List.length_cons, List.length_nil]
  congr 2
  rw [nsmul_eq_mul]
  field_simp
  norm_num

private theorem maxOf_perm (x y : K) (l m : List K) (h : (x :: l).Perm (y :: m)) : maxOf x l = maxOf y m := by
  apply maxOf_eq
  · exact h.mem_iff.mpr (maxOf_mem y m)
  · intro v hv; exact le_maxOf y m v (h.mem_iff.mp hv)

private theorem minOf_perm (x y : K) (l m : List K) (h : (x :: l).Perm (y :: m)) : minOf x l = minOf y m := by
  apply minOf_eq
  · exact h.mem_iff.mpr (minOf_mem y m)
  · intro v hv; exact minOf_le y m v (h.mem_iff.mp hv)

/-- Runs-by-samples orientation: the record is not transposed by the input preparation. -/
def RunsBySamples {α : Type} (d : List (List α)) : Prop :=
  Rect d ∧ (d.length = 1 ∨ (1 < (d.headD []).length ∧ d.length ≤ (d.headD []).length * 2))

omit [LinearOrder K] [IsStrictOrderedRing K] in
private theorem orient_runs (d : List (List K)) (h : RunsBySamples d) : orient d = d := by
  unfold orient
  simp only
  rw [if_neg (by have := h.2; omega), if_neg (by have := h.2; omega)]

private theorem headD_perm {α : Type} (d d' : List (List α)) (h : d.Perm d') (hr : Rect d) :
    (d'.headD []).length = (d.headD []).length := by
  cases d' with
  | nil => rw [List.perm_nil.mp h]
  | cons r d' => exact hr r (h.mem_iff.mpr (by simp))

/-- **C32 (run order, metrics).** `compute_spectrum` returns the same result for any order of the runs, in both averaging
modes and for every option. -/
theorem C32_compute_spectrum_perm (lib : WinLib) (d d' : List (List ℝ)) (h : d.Perm d') (hr : RunsBySamples d)
    (args : SpectrumArgs) : computeSpectrum lib d' args = computeSpectrum lib d args := by
  have hr' : RunsBySamples d' := by
    refine ⟨?_, ?_⟩
    · intro r hrm
      rw [headD_perm d d' h hr.1]
      exact hr.1 r (h.mem_iff.mpr hrm)
    · rw [headD_perm d d' h hr.1, ← h.length_eq]; exact hr.2
  have hpk : peakAmplitude d' args.scale = peakAmplitude d args.scale := by
    unfold peakAmplitude
    cases args.scale with
    | auto =>
      simp only
      have hf := h.flatten
      cases h1 : d.flatten with
      | nil =>
        rw [h1] at hf
        rw [List.nil_perm.mp hf]
      | cons x l =>
        cases h2 : d'.flatten with
        | nil => rw [h1, h2] at hf; simp at hf
        | cons y m =>
          rw [h1, h2] at hf
          simp only
          rw [maxOf_perm x y l m hf, minOf_perm x y l m hf]
    | scalar v => rfl
    | seq l => rfl
  unfold computeSpectrum prepareFftInput
  simp only
  rw [orient_runs d hr, orient_runs d' hr', hpk]
  cases peakAmplitude d args.scale with
  | error e => rfl
  | ok p =>
    simp only
    set g : List ℝ → List ℝ := fun r => if p ≠ 0 then (removeDc r).map (· / p) else removeDc r with hg
    have hlen : ∀ r, (g r).length = r.length := by
      intro r; rw [hg]; simp only; split_ifs <;> simp [removeDc]
    have hhead : ∀ e : List (List ℝ), ((e.map g).headD []).length = (e.headD []).length := by
      intro e; cases e <;> simp [hlen]
    have hperm : (d.map g).Perm (d'.map g) := h.map g
    have hN : ((d'.map g).headD []).length = ((d.map g).headD []).length := by
      rw [hhead, hhead, headD_perm d d' h hr.1]
    rw [hN]
    cases rfftInbandBinCount (((d.map g).headD []).length : ℤ) args.osr with
    | error e => rfl
    | ok n =>
      simp only
      have hraw : rawSpectrum lib args (d'.map g) ((d.map g).headD []).length n
          = rawSpectrum lib args (d.map g) ((d.map g).headD []).length n := by
        unfold rawSpectrum
        simp only
        have hpr : (runsOf (d'.map g) (windowVector lib args.win ((d.map g).headD []).length)).Perm
            (runsOf (d.map g) (windowVector lib args.win ((d.map g).headD []).length)) := by
          unfold runsOf; exact (hperm.symm).map _
        split_ifs
        · rw [C32_coherent_average_perm _ _ _ _ hpr]
        · rw [C32_power_average_perm _ _ _ hpr]
      rw [hraw, hperm.length_eq]

/-! ### Concrete cases -/

example : prepareFftInput ([[1, 3, 5, 3]] : List (List ℚ)) .auto = .ok [[-1, 0, 1, 0]] := by decide +kernel
example : prepareFftInput (mapSamples (fun v => 7 * v + 2) ([[1, 3, 5, 3]] : List (List ℚ))) .auto = .ok [[-1, 0, 1, 0]] := by
  decide +kernel
example : prepareFftInput ([[1], [3], [5], [3]] : List (List ℚ)) .auto = .ok [[-1, 0, 1, 0]] := by decide +kernel
example : prepareFftInput ([[1, 3]] : List (List ℚ)) (.seq [1, 2, 3]) = .error .valueError := by decide +kernel
example : Rect ([[1, 2], [3, 4]] : List (List ℚ)) := by unfold Rect; decide +kernel
example : RunsBySamples ([[1, 2, 5], [3, 4, 1]] : List (List ℝ)) := by
  refine ⟨?_, Or.inr ⟨by simp, by simp⟩⟩
  intro r hr
  simp at hr
  rcases hr with rfl | rfl <;> rfl

end Verif
