import Verif.Model.Mismatch
import Verif.Theorems.Frequency
import Mathlib.Algebra.BigOperators.Group.List.Basic

/-!
# C23, C24: interleaving spur prediction
-/

namespace Verif

open Model Spec Finset

/-! ### C23 -/

private theorem raw_length (g o s : List ℝ) (A fs fin F : ℝ) : (rawSpurs g o s A fs fin F).length = 2 * (g.length - 1) := by
  unfold rawSpurs; simp; omega

private theorem raw_mem (g o s : List ℝ) (A fs fin F : ℝ) (sp : Spur) (h : sp ∈ rawSpurs g o s A fs fin F) :
    1 ≤ sp.k ∧ sp.k < g.length ∧
      sp.freq = foldFrequency ((if sp.kind = .offset then 0 else fin) + sp.k * fs / g.length) fs := by
  unfold rawSpurs at h
  simp only [List.mem_append, List.mem_map, List.mem_range] at h
  rcases h with ⟨i, hi, rfl⟩ | ⟨i, hi, rfl⟩
  · refine ⟨by simp, by simp; omega, by simp⟩
  · refine ⟨by simp, by simp; omega, by simp⟩

/-- **C23.** A successful prediction has exactly `2(M-1)` entries, sorted by frequency, one per kind and index
`k = 1..M-1`; every frequency is the first-Nyquist-zone alias of `k·fs/M` (offset) or `fin + k·fs/M` (gain/skew),
hence lies in `[0, fs/2]`. -/
theorem C23_spurs_complete_sorted (gain offset skew : List ℝ) (A finP : Option ℝ) (fs : ℝ) (finA : Option ℝ) (F : ℝ)
    (hfs : 0 < fs) (spurs : List Spur) (h : predictSpurs gain offset skew A finP fs finA F = .ok spurs) :
    ∃ fin, finA.or finP = some fin ∧
      spurs.length = 2 * (gain.length - 1) ∧ spurs.Pairwise (fun a b => a.freq ≤ b.freq) ∧
      (∀ sp ∈ spurs, 1 ≤ sp.k ∧ sp.k < gain.length ∧ 0 ≤ sp.freq ∧ sp.freq ≤ fs / 2 ∧
        FirstZoneAlias ((if sp.kind = .offset then 0 else fin) + sp.k * fs / gain.length) fs sp.freq) ∧
      (∀ kind k, 1 ≤ k → k < gain.length → ∃ sp ∈ spurs, sp.kind = kind ∧ sp.k = k) := by
  classical
  unfold predictSpurs at h
  have hor : finA.orElse (fun _ => finP) = finA.or finP := by cases finA <;> rfl
  rw [hor] at h
  cases hf : finA.or finP with
  | none => rw [hf] at h; simp at h
  | some fin =>
    rw [hf] at h
    simp only at h
    split_ifs at h with hlen
    injection h with h
    subst h
    refine ⟨fin, rfl, ?_, ?_, ?_, ?_⟩
    · rw [List.length_insertionSort, raw_length]
    · exact List.pairwise_insertionSort _ _
    · intro sp hsp
      rw [List.mem_insertionSort] at hsp
      obtain ⟨h1, h2, h3⟩ := raw_mem _ _ _ _ _ _ _ sp hsp
      have hz := C04_fold_is_alias ((if sp.kind = .offset then 0 else fin) + sp.k * fs / gain.length) fs hfs
      rw [← h3] at hz
      exact ⟨h1, h2, hz.1, hz.2.1, hz⟩
    · intro kind k h1 h2
      have hmem : ∃ sp ∈ rawSpurs gain offset skew (A.getD 1) fs fin F, sp.kind = kind ∧ sp.k = k := by
        unfold rawSpurs
        simp only [List.mem_append, List.mem_map, List.mem_range]
        cases kind
        · exact ⟨_, Or.inl ⟨k - 1, by omega, rfl⟩, rfl, by simp; omega⟩
        · exact ⟨_, Or.inr ⟨k - 1, by omega, rfl⟩, rfl, by simp; omega⟩
      obtain ⟨sp, hsp, hk⟩ := hmem
      exact ⟨sp, (List.mem_insertionSort _).mpr hsp, hk⟩

private theorem dft_const (M : ℕ) (hM : M ≠ 0) (c : ℂ) (k : ℕ) (h1 : 1 ≤ k) (h2 : k < M) :
    dft M (fun _ => c) k = 0 := by
  unfold dft
  rw [← mul_sum]
  have : ∑ n ∈ range M, cis (-(((k : ℤ) : ℝ) * n / M)) = ∑ n ∈ range M, cis (((-(k : ℤ) : ℤ) : ℝ) * n / M) := by
    apply sum_congr rfl; intro n _; congr 1; push_cast; ring
  rw [this, sum_cis M hM, if_neg, mul_zero]
  rw [Int.dvd_neg]
  intro hd
  have := Int.le_of_dvd (by omega) hd
  omega

/-- **C23 (matched channels).** When all offsets are equal, all gains are equal and all skews are equal, every predicted
spur has zero amplitude. -/
theorem C23_matched_channels_no_spurs (gain offset skew : List ℝ) (A finP : Option ℝ) (fs : ℝ) (finA : Option ℝ) (F : ℝ)
    (spurs : List Spur) (h : predictSpurs gain offset skew A finP fs finA F = .ok spurs)
    (g o s : ℝ) (hg : ∀ v ∈ gain, v = g) (ho : ∀ v ∈ offset, v = o) (hs : ∀ v ∈ skew, v = s) :
    ∀ sp ∈ spurs, sp.amp = 0 ∧ sp.dbfs = none ∧ sp.dbc = none := by
  classical
  unfold predictSpurs at h
  split at h
  · simp at h
  · rename_i fin _
    split_ifs at h with hlen
    injection h with h
    subst h
    intro sp hsp
    rw [List.mem_insertionSort] at hsp
    have hget : ∀ (l : List ℝ) (c : ℝ), (∀ v ∈ l, v = c) → ∀ m, m < l.length → l.getD m 0 = c := by
      intro l c hc m hm
      rw [List.getD_eq_getElem?_getD, List.getElem?_eq_getElem hm]
      exact hc _ (List.getElem_mem hm)
    have hdb : ∀ F d, spurDb F d 0 = (none, none) := by intro F d; unfold spurDb; rw [if_pos (le_refl _)]
    have key : ∀ a : ℝ, a = 0 → ∀ d, a = 0 ∧ (spurDb F d a).1 = none ∧ (spurDb F d a).2 = none := by
      intro a ha d; subst ha; rw [hdb]; exact ⟨rfl, rfl, rfl⟩
    unfold rawSpurs at hsp
    simp only [List.mem_append, List.mem_map, List.mem_range] at hsp
    rcases hsp with ⟨i, hi, rfl⟩ | ⟨i, hi, rfl⟩
    · have hM : gain.length ≠ 0 := by omega
      have hz : dft gain.length (fun m => ((offset.getD m 0 : ℝ) : ℂ)) ((i + 1 : ℕ) : ℤ) = 0 := by
        rw [← dft_const gain.length hM (o : ℂ) (i + 1) (by omega) (by omega)]
        apply dft_congr
        intro n hn
        rw [hget offset o ho n (by omega)]
      have hamp : ‖dft gain.length (fun m => ((offset.getD m 0 : ℝ) : ℂ)) ((i + 1 : ℕ) : ℤ)‖ / gain.length = 0 := by
        rw [hz]; simp
      exact key _ hamp _
    · have hM : gain.length ≠ 0 := by omega
      set alpha : ℕ → ℂ := fun m => (gain.getD m 0 : ℝ) * cis (fin * skew.getD m 0) with halpha
      have hz : dft gain.length (fun m => alpha m - (∑ m ∈ range gain.length, alpha m) / gain.length) ((i + 1 : ℕ) : ℤ) = 0 := by
        rw [← dft_const gain.length hM ((g : ℂ) * cis (fin * s) - (∑ m ∈ range gain.length, alpha m) / gain.length) (i + 1)
          (by omega) (by omega)]
        apply dft_congr
        intro n hn
        rw [halpha]
        simp only
        rw [hget gain g hg n hn, hget skew s hs n (by omega)]
      have hamp : A.getD 1 * ‖dft gain.length (fun m => alpha m - (∑ m ∈ range gain.length, alpha m) / gain.length)
          ((i + 1 : ℕ) : ℤ)‖ / gain.length = 0 := by
        rw [hz]; simp
      exact key _ hamp _

/-- **C23 (errors).** Missing tone frequency raises `TypeError` (the documented `ValueError` is unreachable); mismatched
vector lengths raise `ValueError`; nothing else fails. -/
theorem C23_errors (gain offset skew : List ℝ) (A finP : Option ℝ) (fs : ℝ) (finA : Option ℝ) (F : ℝ) (e : PyErr) :
    predictSpurs gain offset skew A finP fs finA F = .error e ↔
      (finA = none ∧ finP = none ∧ e = .typeError) ∨
      ((finA ≠ none ∨ finP ≠ none) ∧ (offset.length ≠ gain.length ∨ skew.length ≠ gain.length) ∧ e = .valueError) := by
  unfold predictSpurs
  by_cases hl : offset.length = gain.length ∧ skew.length = gain.length
  · cases finA <;> cases finP <;> simp [hl, eq_comm]
  · have hl' : offset.length ≠ gain.length ∨ skew.length ≠ gain.length := by tauto
    cases finA <;> cases finP <;> simp only [Option.orElse_some, Option.orElse_none, if_pos hl] <;> simp [hl', @eq_comm PyErr]

/-! ### C24 -/

private theorem re_mul_cis (z : ℂ) (t : ℝ) : (z * cis t).re = ‖z‖ * Real.cos (2 * Real.pi * t + z.arg) := by
  conv_lhs => rw [← Complex.norm_mul_exp_arg_mul_I z]
  rw [mul_assoc, Complex.re_ofReal_mul]
  congr 1
  unfold cis
  rw [← Complex.exp_add]
  rw [show ((z.arg : ℂ) * Complex.I + 2 * Real.pi * t * Complex.I) = ((2 * Real.pi * t + z.arg : ℝ) : ℂ) * Complex.I by
    push_cast; ring]
  exact Complex.exp_ofReal_mul_I_re _

/-- Sampled cosines only see the folded frequency (with a sign on the phase). -/
private theorem cos_fold (f fs : ℝ) (hfs : 0 < fs) (ψ : ℝ) :
    ∃ ψ', ∀ n : ℕ, Real.cos (2 * Real.pi * (f * n / fs) + ψ) = Real.cos (2 * Real.pi * (foldFrequency f fs * n / fs) + ψ') := by
  obtain ⟨_, _, m, hm⟩ := C04_fold_is_alias f fs hfs
  have hne := hfs.ne'
  rcases hm with hm | hm
  · refine ⟨ψ, fun n => ?_⟩
    have : 2 * Real.pi * (f * n / fs) + ψ
        = 2 * Real.pi * (foldFrequency f fs * n / fs) + ψ + ((m * n : ℤ) : ℝ) * (2 * Real.pi) := by
      conv_lhs => rw [hm]
      push_cast; field_simp; ring
    rw [this, Real.cos_add_int_mul_two_pi]
  · refine ⟨-ψ, fun n => ?_⟩
    have : 2 * Real.pi * (f * n / fs) + ψ
        = -(2 * Real.pi * (foldFrequency f fs * n / fs) + -ψ) + ((m * n : ℤ) : ℝ) * (2 * Real.pi) := by
      conv_lhs => rw [hm]
      push_cast; field_simp; ring
    rw [this, Real.cos_add_int_mul_two_pi, Real.cos_neg]

/-- Fourier synthesis of an `M`-periodic pattern. -/
private theorem periodic_synth (M : ℕ) (hM : M ≠ 0) (a : ℕ → ℂ) (n : ℕ) :
    a (n % M) = ∑ k ∈ range M, dft M a k / M * cis (k * n / M) := by
  have hMR : (M : ℝ) ≠ 0 := by exact_mod_cast hM
  rw [← idft_dft M hM a (n % M) (Nat.mod_lt _ (Nat.pos_of_ne_zero hM))]
  unfold idft
  rw [sum_div]
  apply sum_congr rfl
  intro k _
  have : cis (k * (((n % M : ℕ) : ℤ) : ℝ) / M) = cis (k * n / M) := by
    have e : (n : ℝ) = M * ((n / M : ℕ) : ℝ) + ((n % M : ℕ) : ℝ) := by
      exact_mod_cast (Nat.div_add_mod n M).symm
    rw [show ((k : ℝ) * n / M) = k * (((n % M : ℕ) : ℤ) : ℝ) / M + ((k * (n / M : ℕ) : ℤ) : ℝ) by
      rw [Int.cast_natCast, Int.cast_mul, Int.cast_natCast, Int.cast_natCast]; conv_lhs => rw [e]
      field_simp; ring]
    rw [cis_add_int]
  rw [this]; ring

/-- The capture a time-interleaved converter records for the tone `A·cos(2π fin t + φ)`: channel `m = n mod M` has gain
`g_m`, offset `o_m` and samples late by `t_m`. -/
noncomputable def tiCapture (gain offset skew : List ℝ) (A fs fin φ : ℝ) (n : ℕ) : ℝ :=
  let m := n % gain.length
  offset.getD m 0 + A * gain.getD m 0 * Real.cos (2 * Real.pi * (fin * (n / fs + skew.getD m 0)) + φ)

/-- **C24.** The predicted spur list is exact, not just first order: for any gains, offsets and skews, the recorded
waveform is DC (mean offset) + a fundamental + the sum over *all* predicted entries of `amp·cos(2π·freq·n/fs + phase)`,
for suitable constant phases and every sample index `n`. -/
theorem C24_spurs_reconstruct_capture (gain offset skew : List ℝ) (A fs fin φ F : ℝ) (hM : gain ≠ []) (hfs : 0 < fs)
    (spurs : List Spur) (h : predictSpurs gain offset skew (some A) none fs (some fin) F = .ok spurs) :
    ∃ (fund fphase : ℝ) (ψ : SpurKind → ℕ → ℝ), ∀ n : ℕ,
      tiCapture gain offset skew A fs fin φ n =
        mean offset + fund * Real.cos (2 * Real.pi * (fin * n / fs) + fphase)
          + (spurs.map fun sp => sp.amp * Real.cos (2 * Real.pi * (sp.freq * n / fs) + ψ sp.kind sp.k)).sum := by
  classical
  have hM0 : gain.length ≠ 0 := by simpa using hM
  unfold predictSpurs at h
  simp only [Option.orElse_some] at h
  split_ifs at h with hlen
  injection h with h
  simp only [Option.getD_some] at h
  set M := gain.length with hMdef
  set alpha : ℕ → ℂ := fun m => (gain.getD m 0 : ℝ) * cis (fin * skew.getD m 0) with halpha
  set O : ℕ → ℂ := fun k => dft M (fun m => ((offset.getD m 0 : ℝ) : ℂ)) (k : ℤ) with hO
  set G : ℕ → ℂ := fun k => dft M alpha (k : ℤ) with hG
  have hMR : (M : ℝ) ≠ 0 := by exact_mod_cast hM0
  -- phases after folding
  have hψo : ∀ k : ℕ, ∃ ψ', ∀ n : ℕ, Real.cos (2 * Real.pi * ((k * fs / M) * n / fs) + (O k).arg)
      = Real.cos (2 * Real.pi * (foldFrequency (k * fs / M) fs * n / fs) + ψ') := fun k => cos_fold _ fs hfs _
  have hψg : ∀ k : ℕ, ∃ ψ', ∀ n : ℕ, Real.cos (2 * Real.pi * ((fin + k * fs / M) * n / fs) + ((G k).arg + φ))
      = Real.cos (2 * Real.pi * (foldFrequency (fin + k * fs / M) fs * n / fs) + ψ') := fun k => cos_fold _ fs hfs _
  choose ψo hψo using hψo
  choose ψg hψg using hψg
  let ψ : SpurKind → ℕ → ℝ := fun kind k => match kind with
    | .offset => ψo k
    | .gainSkew => ψg k
  refine ⟨A * ‖G 0‖ / M, (G 0).arg + φ, ψ, fun n => ?_⟩
  -- list sum = raw sum
  have hsum : (spurs.map fun sp => sp.amp * Real.cos (2 * Real.pi * (sp.freq * n / fs) + ψ sp.kind sp.k)).sum
      = ((rawSpurs gain offset skew A fs fin F).map
          fun sp => sp.amp * Real.cos (2 * Real.pi * (sp.freq * n / fs) + ψ sp.kind sp.k)).sum := by
    rw [← h]
    exact ((List.perm_insertionSort _ _).map _).sum_eq
  have hlist : ∀ (f : ℕ → ℝ) (m : ℕ), ((List.range m).map f).sum = ∑ i ∈ range m, f i := by
    intro f m
    induction m with
    | zero => simp
    | succ m ih => rw [List.range_succ, List.map_append, List.sum_append, ih, sum_range_succ]; simp
  have hraw : ((rawSpurs gain offset skew A fs fin F).map
          fun sp => sp.amp * Real.cos (2 * Real.pi * (sp.freq * n / fs) + ψ sp.kind sp.k)).sum
      = (∑ i ∈ range (M - 1), ‖O (i + 1)‖ / M * Real.cos (2 * Real.pi * (((i + 1 : ℕ) * fs / M) * n / fs) + (O (i + 1)).arg))
        + ∑ i ∈ range (M - 1), A * ‖G (i + 1)‖ / M *
            Real.cos (2 * Real.pi * ((fin + (i + 1 : ℕ) * fs / M) * n / fs) + ((G (i + 1)).arg + φ)) := by
    unfold rawSpurs
    simp only [List.map_append, List.sum_append, List.map_map]
    rw [hlist, hlist]
    congr 1
    · apply sum_congr rfl
      intro i _
      simp only [Function.comp]
      rw [hψo (i + 1) n]
    · apply sum_congr rfl
      intro i hi
      rw [mem_range] at hi
      simp only [Function.comp]
      rw [hψg (i + 1) n]
      congr 2
      have hGG : dft M (fun m => alpha m - (∑ m ∈ range M, alpha m) / M) ((i + 1 : ℕ) : ℤ) = G (i + 1) := by
        have h1 : dft M (fun m => alpha m - (∑ m ∈ range M, alpha m) / M) ((i + 1 : ℕ) : ℤ)
            = dft M alpha ((i + 1 : ℕ) : ℤ) - dft M (fun _ => (∑ m ∈ range M, alpha m) / M) ((i + 1 : ℕ) : ℤ) := by
          unfold dft
          rw [← sum_sub_distrib]
          apply sum_congr rfl
          intro m _; ring
        rw [h1, dft_const M hM0 _ (i + 1) (by omega) (by omega), sub_zero]
      rw [← hGG]
  rw [hsum, hraw]
  -- offset part
  have hoff : offset.getD (n % M) 0 = mean offset
      + ∑ i ∈ range (M - 1), ‖O (i + 1)‖ / M * Real.cos (2 * Real.pi * (((i + 1 : ℕ) * fs / M) * n / fs) + (O (i + 1)).arg) := by
    have h1 := periodic_synth M hM0 (fun m => ((offset.getD m 0 : ℝ) : ℂ)) n
    have h2 := congrArg Complex.re h1
    rw [Complex.ofReal_re, Complex.re_sum] at h2
    rw [h2]
    obtain ⟨p, hp⟩ : ∃ p, M = p + 1 := ⟨M - 1, by omega⟩
    rw [show range M = range (p + 1) by rw [hp], sum_range_succ', show M - 1 = p by omega, add_comm]
    congr 1
    · -- DC
      have : dft M (fun m => ((offset.getD m 0 : ℝ) : ℂ)) ((0 : ℕ) : ℤ) = ((offset.sum : ℝ) : ℂ) := by
        unfold dft
        have hs : offset.sum = ∑ m ∈ range M, offset.getD m 0 := by
          have hl : offset.length = M := hlen.1
          rw [← hl, ← hlist]
          congr 1
          apply List.ext_getElem
          · simp
          · intro i h1 h2
            simp [List.getD_eq_getElem?_getD, List.getElem?_eq_getElem h1]
        rw [hs, Complex.ofReal_sum]
        apply sum_congr rfl
        intro m _
        simp [cis_zero]
      rw [this]
      simp only [Nat.cast_zero, zero_mul, zero_div, cis_zero, mul_one]
      unfold mean
      rw [hlen.1, ← Complex.ofReal_natCast, ← Complex.ofReal_div, Complex.ofReal_re]
    · apply sum_congr rfl
      intro i _
      have e : (O (i + 1) / M * cis (((i + 1 : ℕ) : ℝ) * n / M)).re
          = ‖O (i + 1)‖ / M * Real.cos (2 * Real.pi * (((i + 1 : ℕ) : ℝ) * n / M) + (O (i + 1)).arg) := by
        rw [div_mul_eq_mul_div, ← Complex.ofReal_natCast M, Complex.div_ofReal_re, re_mul_cis]; ring
      rw [show dft M (fun m => ((offset.getD m 0 : ℝ) : ℂ)) ((i + 1 : ℕ) : ℤ) = O (i + 1) from rfl, e]
      congr 4
      field_simp
  -- tone part
  have htone : A * gain.getD (n % M) 0 * Real.cos (2 * Real.pi * (fin * (n / fs + skew.getD (n % M) 0)) + φ)
      = A * ‖G 0‖ / M * Real.cos (2 * Real.pi * (fin * n / fs) + ((G 0).arg + φ))
        + ∑ i ∈ range (M - 1), A * ‖G (i + 1)‖ / M *
            Real.cos (2 * Real.pi * ((fin + (i + 1 : ℕ) * fs / M) * n / fs) + ((G (i + 1)).arg + φ)) := by
    have h1 := periodic_synth M hM0 alpha n
    have hcis : ∀ t : ℝ, Real.cos (2 * Real.pi * t + φ) = (cis t * cis (φ / (2 * Real.pi))).re := by
      intro t
      rw [← cis_add, cis_re]
      congr 1
      have : Real.pi ≠ 0 := Real.pi_ne_zero
      field_simp
    have h2 : gain.getD (n % M) 0 * Real.cos (2 * Real.pi * (fin * (n / fs + skew.getD (n % M) 0)) + φ)
        = (alpha (n % M) * (cis (fin * n / fs) * cis (φ / (2 * Real.pi)))).re := by
      rw [hcis, halpha]
      simp only
      rw [show fin * (n / fs + skew.getD (n % M) 0) = fin * skew.getD (n % M) 0 + fin * n / fs by ring, cis_add]
      rw [show ((gain.getD (n % M) 0 : ℝ) : ℂ) * cis (fin * skew.getD (n % M) 0) * (cis (fin * n / fs) * cis (φ / (2 * Real.pi)))
        = ((gain.getD (n % M) 0 : ℝ) : ℂ) * (cis (fin * skew.getD (n % M) 0) * cis (fin * n / fs) * cis (φ / (2 * Real.pi))) by ring]
      rw [Complex.re_ofReal_mul]
    rw [mul_assoc, h2, h1, sum_mul, Complex.re_sum, mul_sum]
    have hterm : ∀ k ∈ range M, A * (dft M alpha (k : ℤ) / M * cis (k * n / M) * (cis (fin * n / fs) * cis (φ / (2 * Real.pi)))).re
        = A * ‖G k‖ / M * Real.cos (2 * Real.pi * ((fin + k * fs / M) * n / fs) + ((G k).arg + φ)) := by
      intro k _
      rw [show dft M alpha (k : ℤ) / M * cis (k * n / M) * (cis (fin * n / fs) * cis (φ / (2 * Real.pi)))
        = G k * (cis (k * n / M) * cis (fin * n / fs) * cis (φ / (2 * Real.pi))) / M by rw [hG]; ring]
      rw [← cis_add, ← cis_add, ← Complex.ofReal_natCast M, Complex.div_ofReal_re, re_mul_cis]
      have : 2 * Real.pi * (k * n / M + fin * n / fs + φ / (2 * Real.pi)) + (G k).arg
          = 2 * Real.pi * ((fin + k * fs / M) * n / fs) + ((G k).arg + φ) := by
        have : Real.pi ≠ 0 := Real.pi_ne_zero
        have := hfs.ne'
        field_simp
        ring
      rw [this]; ring
    rw [sum_congr rfl hterm]
    obtain ⟨p, hp⟩ : ∃ p, M = p + 1 := ⟨M - 1, by omega⟩
    rw [show range M = range (p + 1) by rw [hp], sum_range_succ', show M - 1 = p by omega, add_comm]
    congr 1
    simp
  have hcap : tiCapture gain offset skew A fs fin φ n
      = offset.getD (n % M) 0 + A * gain.getD (n % M) 0 * Real.cos (2 * Real.pi * (fin * (n / fs + skew.getD (n % M) 0)) + φ) := rfl
  rw [hcap, hoff, htone]
  ring

/-- **C24 (offset spurs as spectral lines).** In a capture of `K` full interleave periods whose channels differ only by
offset, the DFT is non-zero only at multiples of `K` (frequencies `k·fs/M`), where its magnitude divided by the record
length is the predicted amplitude of offset spur `k`. -/
theorem C24_offset_lines (offset : List ℝ) (K : ℕ) (hK : K ≠ 0) (hM : offset ≠ []) (j : ℕ) :
    dft (K * offset.length) (fun n => ((offset.getD (n % offset.length) 0 : ℝ) : ℂ)) j =
      if K ∣ j then K * dft offset.length (fun m => ((offset.getD m 0 : ℝ) : ℂ)) ((j / K : ℕ) : ℤ) else 0 := by
  set M := offset.length with hMdef
  have hM0 : M ≠ 0 := by simpa [hMdef] using hM
  have hMR : (M : ℝ) ≠ 0 := by exact_mod_cast hM0
  have hKR : (K : ℝ) ≠ 0 := by exact_mod_cast hK
  -- split n = r*M + m
  have hsplit : ∀ f : ℕ → ℂ, ∑ n ∈ range (K * M), f n = ∑ m ∈ range M, ∑ r ∈ range K, f (r * M + m) := by
    intro f
    rw [sum_comm]
    clear hK hKR
    induction K with
    | zero => simp
    | succ K ih =>
      rw [Nat.add_mul, one_mul, sum_range_add, ih, sum_range_succ]
  unfold dft
  rw [hsplit]
  have hin : ∀ m ∈ range M, ∑ r ∈ range K, ((offset.getD ((r * M + m) % M) 0 : ℝ) : ℂ)
        * cis (-(((j : ℤ) : ℝ) * ((r * M + m : ℕ) : ℝ) / ((K * M : ℕ) : ℝ)))
      = (offset.getD m 0 : ℝ) * cis (-(((j : ℤ) : ℝ) * m / ((K * M : ℕ) : ℝ))) * (if K ∣ j then (K : ℂ) else 0) := by
    intro m hm
    rw [mem_range] at hm
    have : ∀ r ∈ range K, ((offset.getD ((r * M + m) % M) 0 : ℝ) : ℂ)
          * cis (-(((j : ℤ) : ℝ) * ((r * M + m : ℕ) : ℝ) / ((K * M : ℕ) : ℝ)))
        = (offset.getD m 0 : ℝ) * cis (-(((j : ℤ) : ℝ) * m / ((K * M : ℕ) : ℝ))) * cis (((-(j : ℤ) : ℤ) : ℝ) * r / K) := by
      intro r _
      have e1 : (r * M + m) % M = m := by rw [Nat.add_comm, Nat.add_mul_mod_self_right, Nat.mod_eq_of_lt hm]
      rw [e1, mul_assoc, ← cis_add]
      congr 2
      push_cast
      field_simp
      ring
    rw [sum_congr rfl this, ← mul_sum, sum_cis K hK]
    congr 1
    simp only [Int.dvd_neg, Int.natCast_dvd_natCast]
  rw [sum_congr rfl hin]
  split_ifs with hd
  · obtain ⟨k, rfl⟩ := hd
    rw [Nat.mul_div_cancel_left _ (Nat.pos_of_ne_zero hK), mul_sum]
    apply sum_congr rfl
    intro m _
    rw [mul_comm]
    congr 3
    push_cast
    field_simp
  · simp

/-- **C24 (offset spur level).** A single offset entry understates the observable tone: for `2k ≠ M` the entries `k` and
`M-k` have the same frequency, the same amplitude and both contribute, so the sinusoid at that frequency has peak
amplitude `2·amp`. -/
theorem C24_offset_entry_is_half_the_tone (offset : List ℝ) (k : ℕ) (h1 : 1 ≤ k) (h2 : k < offset.length) (fs : ℝ)
    (hfs : 0 < fs) :
    foldFrequency (k * fs / offset.length) fs = foldFrequency ((offset.length - k : ℕ) * fs / offset.length) fs ∧
    ∀ n : ℕ,
      (dft offset.length (fun m => ((offset.getD m 0 : ℝ) : ℂ)) k / offset.length * cis (k * n / offset.length) +
       dft offset.length (fun m => ((offset.getD m 0 : ℝ) : ℂ)) ((offset.length - k : ℕ) : ℤ) / offset.length
          * cis ((offset.length - k : ℕ) * n / offset.length)).re =
        2 * (‖dft offset.length (fun m => ((offset.getD m 0 : ℝ) : ℂ)) k‖ / offset.length) *
          Real.cos (2 * Real.pi * (k * n / offset.length) + (dft offset.length (fun m => ((offset.getD m 0 : ℝ) : ℂ)) k).arg) := by
  set M := offset.length with hMdef
  have hM0 : M ≠ 0 := by omega
  have hMR : (M : ℝ) ≠ 0 := by exact_mod_cast hM0
  constructor
  · have e : (((M - k : ℕ) : ℝ) * fs / M) = -(k * fs / M) + ((1 : ℤ) : ℝ) * fs := by
      rw [Nat.cast_sub h2.le]; push_cast; field_simp; ring
    rw [e, (C04_fold_even_periodic_idempotent (-(k * fs / M)) fs hfs 1).2.1,
      (C04_fold_even_periodic_idempotent (k * fs / M) fs hfs 0).1]
  · intro n
    have hc : dft M (fun m => ((offset.getD m 0 : ℝ) : ℂ)) ((M - k : ℕ) : ℤ)
        = (starRingEnd ℂ) (dft M (fun m => ((offset.getD m 0 : ℝ) : ℂ)) k) := by
      rw [dft_conj M (fun m => offset.getD m 0) k]
      have : (((M - k : ℕ) : ℤ)) = -(k : ℤ) + 1 * (M : ℤ) := by omega
      rw [this, dft_periodic M hM0]
    have hcc : cis (((M - k : ℕ) : ℝ) * n / M) = (starRingEnd ℂ) (cis (k * n / M)) := by
      rw [conj_cis, Nat.cast_sub h2.le]
      rw [show (((M : ℝ) - k) * n / M) = -(k * n / M) + ((n : ℤ) : ℝ) by push_cast; field_simp; ring]
      exact cis_add_int _ _
    rw [hc, hcc]
    set X := dft M (fun m => ((offset.getD m 0 : ℝ) : ℂ)) k
    have : (X / M * cis (k * n / M) + (starRingEnd ℂ) X / M * (starRingEnd ℂ) (cis (k * n / M)))
        = ((2 * (X * cis (k * n / M)).re : ℝ) : ℂ) / M := by
      rw [Complex.ofReal_mul, Complex.ofReal_ofNat, show (2 : ℂ) * (((X * cis (k * n / M)).re : ℝ) : ℂ)
        = X * cis (k * n / M) + (starRingEnd ℂ) (X * cis (k * n / M)) by rw [Complex.add_conj]; push_cast; rfl, map_mul]
      ring
    rw [this, ← Complex.ofReal_natCast M, ← Complex.ofReal_div, Complex.ofReal_re, re_mul_cis]
    ring

/-! ### Concrete cases -/

example : ∃ sp, predictSpurs [1, 1.01, 0.99, 1] [0, 0.1, 0, -0.1] [0, 0, 0, 0] (some 1) none 100 (some 7) 1 = .ok sp := by
  unfold predictSpurs; simp
example : predictSpurs [1, 1] [0, 0] [0, 0] (some 1) none 100 none 1 = .error .typeError := rfl

end Verif
