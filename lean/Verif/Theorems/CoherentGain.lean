import Verif.Theorems.Align
import Verif.Theorems.SpectrumEngine

namespace Verif

open Model Spec Finset

/-! ## C162: coherent averaging against power averaging -/

namespace Spec

/-- The windowed run has a sample that the coherent average does not take for silence. -/
def Audible (N : ℕ) (w : ℕ → ℝ) (row : List ℝ) : Prop := ∃ m < N, 1 / 10 ^ 10 ≤ |row.getD m 0 * w m|

/-- Magnitude of bin `k` of a windowed run. -/
noncomputable def binLevel (N : ℕ) (w : ℕ → ℝ) (row : List ℝ) (k : ℕ) : ℝ := ‖dft N (fun m => ((row.getD m 0 * w m : ℝ) : ℂ)) k‖

end Spec

/-! ### Lists -/

private theorem list_cauchy {ι : Type} (f : ι → ℂ) (l : List ι) : ‖(l.map f).sum‖ ^ 2 ≤ l.length * (l.map fun i => ‖f i‖ ^ 2).sum := by
  have key : ∀ l : List ι, 0 ≤ (l.map fun i => ‖f i‖ ^ 2).sum ∧ ‖(l.map f).sum‖ ^ 2 ≤ l.length * (l.map fun i => ‖f i‖ ^ 2).sum := by
    intro l
    induction l with
    | nil => simp
    | cons a l ih =>
      obtain ⟨hQ, hS⟩ := ih
      simp only [List.map_cons, List.sum_cons, List.length_cons]
      have ht := norm_add_le (f a) (l.map f).sum
      have hn := norm_nonneg (f a + (l.map f).sum)
      have ha := norm_nonneg (f a)
      have hs := norm_nonneg (l.map f).sum
      generalize ‖f a + (l.map f).sum‖ = T at *
      generalize ‖(l.map f).sum‖ = S at *
      generalize ‖f a‖ = A at *
      generalize (l.map fun i => ‖f i‖ ^ 2).sum = Q at *
      have hM : (0 : ℝ) ≤ l.length := Nat.cast_nonneg _
      push_cast
      generalize (l.length : ℝ) = M at *
      refine ⟨by positivity, ?_⟩
      have h1 : |2 * A * S| ≤ M * A ^ 2 + Q := by
        apply abs_le_of_sq_le_sq _ (by positivity)
        have h2 : (2 * A * S) ^ 2 ≤ 4 * A ^ 2 * (M * Q) := by
          calc (2 * A * S) ^ 2 = 4 * A ^ 2 * S ^ 2 := by ring
            _ ≤ 4 * A ^ 2 * (M * Q) := mul_le_mul_of_nonneg_left hS (by positivity)
        nlinarith [sq_nonneg (M * A ^ 2 - Q)]
      have h3 := (abs_le.mp h1).2
      have h4 : T ^ 2 ≤ (A + S) ^ 2 := pow_le_pow_left₀ hn ht 2
      nlinarith
  exact (key l).2

private theorem oneSided_eq_mul (N k : ℕ) (v : ℝ) : oneSided N k v = v * oneSided N k 1 := by
  unfold oneSided
  simp only
  split_ifs <;> ring

private theorem oneSided_one_nonneg (N k : ℕ) : 0 ≤ oneSided N k 1 := by
  unfold oneSided
  simp only
  split_ifs <;> norm_num

private theorem average_getD (runs : List (ℕ → ℝ)) (N n k : ℕ) (hk : k ≤ N / 2) :
    (coherentAverage runs N n).getD k 0 = ‖coherentSum runs N n k‖ ^ 2 * oneSided N k 1 ∧
      (powerAverage runs N).getD k 0 =
        (runs.map fun x => ‖dft N (fun n => (x n : ℂ)) k‖ ^ 2).sum / runs.length / (N : ℝ) ^ 2 * oneSided N k 1 := by
  constructor
  · unfold coherentAverage
    rw [List.getD_eq_getElem?_getD, List.getElem?_map, List.getElem?_range (by omega)]
    exact oneSided_eq_mul _ _ _
  · unfold powerAverage
    rw [List.getD_eq_getElem?_getD, List.getElem?_map, List.getElem?_range (by omega)]
    exact oneSided_eq_mul _ _ _

/-- If alignment leaves at most the fraction `s` of bin `k` of every run, the coherent average of the bin times the number of runs used is at most `s²` times
the power average times the number of runs. -/
private theorem coherent_le (runs : List (ℕ → ℝ)) (N n k : ℕ) (hN : 0 < N) (hk : k ≤ N / 2) (s : ℝ)
    (h : ∀ x ∈ runs, ∀ Y, coherentRun x N n = some Y → ‖Y k‖ ≤ s * ‖dft N (fun n => (x n : ℂ)) k‖) :
    ((runs.filterMap fun x => coherentRun x N n).length : ℝ) * (coherentAverage runs N n).getD k 0 ≤
      s ^ 2 * (runs.length * (powerAverage runs N).getD k 0) := by
  obtain ⟨e1, e2⟩ := average_getD runs N n k hk
  rw [e1, e2]
  have hNR : (0 : ℝ) < N := by exact_mod_cast hN
  have hsum : ∀ l : List (ℕ → ℝ), (∀ x ∈ l, ∀ Y, coherentRun x N n = some Y → ‖Y k‖ ≤ s * ‖dft N (fun n => (x n : ℂ)) k‖) →
      ((l.filterMap fun x => coherentRun x N n).map fun Y => ‖Y k‖ ^ 2).sum ≤ s ^ 2 * (l.map fun x => ‖dft N (fun n => (x n : ℂ)) k‖ ^ 2).sum := by
    intro l
    induction l with
    | nil => simp
    | cons x l ih =>
      intro hl
      have ih' := ih fun y hy => hl y (by simp [hy])
      simp only [List.filterMap_cons, List.map_cons, List.sum_cons]
      cases hx : coherentRun x N n with
      | none =>
        simp only
        have : 0 ≤ s ^ 2 * ‖dft N (fun n => (x n : ℂ)) k‖ ^ 2 := by positivity
        linarith
      | some Y =>
        simp only [List.map_cons, List.sum_cons]
        have h1 := pow_le_pow_left₀ (norm_nonneg _) (hl x (by simp) Y hx) 2
        rw [mul_pow] at h1
        linarith
  have hS := hsum runs h
  have hC := list_cauchy (fun Y : ℕ → ℂ => Y k) (runs.filterMap fun x => coherentRun x N n)
  unfold coherentSum
  simp only at hC ⊢
  generalize (runs.filterMap fun x => coherentRun x N n) = ok at *
  have ho := oneSided_one_nonneg N k
  by_cases h0 : 0 < ok.length
  · rw [if_pos h0, norm_div, norm_mul, Complex.norm_natCast, Complex.norm_natCast]
    have hm : (0 : ℝ) < ok.length := by exact_mod_cast h0
    have hr : runs.length ≠ 0 ∨ runs.length = 0 := by omega
    rcases hr with hr | hr
    · have hr' : (runs.length : ℝ) ≠ 0 := by exact_mod_cast hr
      have key : (ok.length : ℝ) * (‖(ok.map fun X => X k).sum‖ / (N * ok.length)) ^ 2 ≤
          s ^ 2 * (runs.map fun x => ‖dft N (fun n => (x n : ℂ)) k‖ ^ 2).sum / (N : ℝ) ^ 2 := by
        rw [div_pow, mul_pow, ← mul_div_assoc, div_le_div_iff₀ (by positivity) (by positivity)]
        calc (ok.length : ℝ) * ‖(ok.map fun X => X k).sum‖ ^ 2 * (N : ℝ) ^ 2
            ≤ ok.length * (ok.length * (s ^ 2 * (runs.map fun x => ‖dft N (fun n => (x n : ℂ)) k‖ ^ 2).sum)) * (N : ℝ) ^ 2 := by
              gcongr
              exact hC.trans (mul_le_mul_of_nonneg_left hS hm.le)
          _ = _ := by ring
      calc _ = (ok.length : ℝ) * (‖(ok.map fun X => X k).sum‖ / (N * ok.length)) ^ 2 * oneSided N k 1 := by ring
        _ ≤ s ^ 2 * (runs.map fun x => ‖dft N (fun n => (x n : ℂ)) k‖ ^ 2).sum / (N : ℝ) ^ 2 * oneSided N k 1 :=
            mul_le_mul_of_nonneg_right key ho
        _ = _ := by field_simp
    · have : runs = [] := List.length_eq_zero_iff.mp hr
      subst this
      simp only [List.map_nil, List.sum_nil, mul_zero, List.length_nil, Nat.cast_zero, zero_div, zero_mul, div_zero] at hS ⊢
      have hz : ‖(ok.map fun X => X k).sum‖ ^ 2 ≤ 0 := by nlinarith
      have hz' : ‖(ok.map fun X => X k).sum‖ = 0 := by nlinarith [norm_nonneg (ok.map fun X => X k).sum]
      rw [hz']
      simp
  · have : ok.length = 0 := by omega
    rw [this]
    simp only [Nat.cast_zero, zero_mul]
    have : 0 ≤ (runs.map fun x => ‖dft N (fun n => (x n : ℂ)) k‖ ^ 2).sum := by
      apply List.sum_nonneg
      intro v hv
      obtain ⟨x, -, rfl⟩ := List.mem_map.mp hv
      positivity
    positivity

/-! ### Alignment never raises a bin -/

private theorem phasor_le_one (X : ℕ → ℂ) (b : ℕ) : ‖alignPhasor X b‖ ≤ 1 := by
  rw [alignPhasor_norm]
  have h := norm_nonneg (X b)
  rw [div_le_one (by positivity)]
  have : (0 : ℝ) < 1 / 10 ^ 20 := by positivity
  linarith

private theorem align_le (X : ℕ → ℂ) (b : ℕ) (bR : ℝ) (N : ℕ) (hb : 0 < b) (k : ℕ) : ‖alignSpectrumPhase X b bR N k‖ ≤ ‖X k‖ := by
  have hp := phasor_le_one X b
  rw [align_eq _ _ _ _ _ hb]
  obtain ⟨-, l2, l3, l4⟩ := align_loop X b N (alignPhasor X b) N
  split_ifs with h0 h1 hbR
  · simp
  · obtain ⟨hkN, hex⟩ := (l2 k).mp h1
    obtain ⟨h2, h3, h4⟩ := Nat.find_spec hex
    rw [l4 k (Nat.find hex) h2 h3 h4 hkN (fun h' h'1 h'2 h'3 => Nat.find_min hex h'2 ⟨h'1, by omega, h'3⟩), norm_mul]
    apply mul_le_of_le_one_right (norm_nonneg _)
    split_ifs
    · rw [RCLike.norm_conj, norm_pow]; exact pow_le_one₀ (norm_nonneg _) hp
    · rw [norm_pow]; exact pow_le_one₀ (norm_nonneg _) hp
  · rw [l3 k h1, norm_mul, Complex.norm_cpow_real]
    exact mul_le_of_le_one_right (norm_nonneg _) (Real.rpow_le_one (norm_nonneg _) hp (by positivity))
  · rw [l3 k h1]
    simp

private theorem run_le (x : ℕ → ℝ) (N n k : ℕ) (Y : ℕ → ℂ) (h : coherentRun x N n = some Y) : ‖Y k‖ ≤ ‖dft N (fun n => (x n : ℂ)) k‖ := by
  unfold coherentRun at h
  simp only at h
  split_ifs at h with h1 h2
  injection h with h
  rw [← h]
  exact align_le _ _ _ _ (by omega) k

open Classical in
private theorem used_count (d : List (List ℝ)) (w : ℕ → ℝ) (N n : ℕ) (hn : 1 < n) (hN : 1 < N) :
    ((runsOf d w).filterMap fun x => coherentRun x N n).length = (d.filter fun row => Audible N w row).length := by
  unfold runsOf
  induction d with
  | nil => rfl
  | cons row d ih =>
    simp only [List.map_cons, List.filterMap_cons, List.filter_cons]
    by_cases h : Audible N w row
    · rw [if_pos (by simpa using h)]
      have : ∃ Y, coherentRun (fun n => row.getD n 0 * w n) N n = some Y := by
        unfold coherentRun
        simp only
        rw [if_neg (by
          obtain ⟨m, hm, hv⟩ := h
          intro hc
          exact absurd (hc m hm) (not_lt.mpr hv)), if_neg]
        · exact ⟨_, rfl⟩
        · unfold locateFundamental fundamentalBin
          simp only
          rw [if_pos (by simp; omega)]
          omega
      obtain ⟨Y, hY⟩ := this
      rw [hY]
      simp only [List.length_cons]
      rw [ih]
    · rw [if_neg (by simpa using h)]
      have : coherentRun (fun n => row.getD n 0 * w n) N n = none := by
        unfold coherentRun
        rw [if_pos]
        intro m hm
        by_contra hc
        exact h ⟨m, hm, not_lt.mp hc⟩
      rw [this]
      exact ih

private theorem coherentSum_narrow (runs : List (ℕ → ℝ)) (N n k : ℕ) (h : n ≤ 1 ∨ N ≤ 1) : coherentSum runs N n k = 0 := by
  have : ∀ x, coherentRun x N n = none := by
    intro x
    unfold coherentRun
    simp only
    split_ifs with h1 h2
    · rfl
    · rfl
    · exfalso
      apply h2
      unfold locateFundamental fundamentalBin
      simp only
      rw [if_neg]
      simp
      omega
  unfold coherentSum
  simp [this]

private theorem corr_nonneg (lib : WinLib) (win : String) (N : ℕ) :
    0 ≤ powerCorrection (windowGain (windowVector lib win N) N) (windowEnbw (windowVector lib win N) N) := powerCorrection_nonneg _ _

private theorem getD_map_mul (l : List ℝ) (c : ℝ) (k : ℕ) : (l.map (· * c)).getD k 0 = l.getD k 0 * c := by
  rw [List.getD_eq_getElem?_getD, List.getD_eq_getElem?_getD, List.getElem?_map]
  cases l[k]? <;> simp

private theorem cutoff_getD (p : List ℝ) (c fs : ℝ) (N k : ℕ) :
    (applyCutoff p c fs N).getD k 0 = if 0 < c ∧ k < min ⌈c / fs * N⌉.toNat p.length then 1 / 10 ^ 20 else p.getD k 0 := by
  unfold applyCutoff
  by_cases hc : 0 < c
  · rw [if_pos hc]
    simp only [hc, true_and]
    rw [List.getD_eq_getElem?_getD, List.getElem?_mapIdx, List.getD_eq_getElem?_getD]
    by_cases hk : k < p.length
    · rw [List.getElem?_eq_getElem hk]
      simp
    · rw [List.getElem?_eq_none (by omega)]
      rw [if_neg (by omega)]
      rfl
  · rw [if_neg hc, if_neg (by tauto)]

open Classical in
/-- **C162 (no bin is raised).** Take any data and arguments and compute the spectrum twice, power-averaged and coherently averaged. If `U` of the `M` runs have
a windowed sample of at least `1e-10`, then every bin of the coherent spectrum is at most `M/U` times the same bin of the power-averaged one. -/
theorem C162_no_bin_raised (lib : WinLib) (data : List (List ℝ)) (a : SpectrumArgs) (d : List (List ℝ)) (hd : prepareFftInput data a.scale = .ok d)
    (rc rp : SpectrumResult) (hc : computeSpectrum lib data { a with coherent := true } = .ok rc)
    (hp : computeSpectrum lib data { a with coherent := false } = .ok rp) (k : ℕ) :
    ((d.filter fun row => Audible (d.headD []).length (windowVector lib a.win (d.headD []).length) row).length : ℝ) * rc.power.getD k 0 ≤
      d.length * rp.power.getD k 0 := by
  obtain ⟨d1, n, hd1, hn, hn1, hnl, hl, hN, -, -, hpw, -⟩ := computeSpectrum_ok lib data _ rc hc
  obtain ⟨d2, n', hd2, hn', -, -, hl', -, -, -, hpw', -⟩ := computeSpectrum_ok lib data _ rp hp
  rw [show ({ a with coherent := true } : SpectrumArgs).scale = a.scale from rfl, hd] at hd1
  rw [show ({ a with coherent := false } : SpectrumArgs).scale = a.scale from rfl, hd] at hd2
  injection hd1 with hd1
  injection hd2 with hd2
  subst hd1
  subst hd2
  rw [show ({ a with coherent := false } : SpectrumArgs).osr = ({ a with coherent := true } : SpectrumArgs).osr from rfl, hn] at hn'
  injection hn' with hn'
  subst hn'
  have hle : (d.filter fun row => Audible (d.headD []).length (windowVector lib a.win (d.headD []).length) row).length ≤ d.length := List.length_filter_le _ _
  have hle' : ((d.filter fun row => Audible (d.headD []).length (windowVector lib a.win (d.headD []).length) row).length : ℝ) ≤ d.length := by exact_mod_cast hle
  rw [hpw, hpw', cutoff_getD, cutoff_getD, rawSpectrum_length, rawSpectrum_length]
  generalize (d.headD []).length = N at *
  by_cases hcut : 0 < a.cutoff ∧ k < min ⌈a.cutoff / a.fs * N⌉.toNat (N / 2 + 1)
  · rw [if_pos hcut, if_pos hcut]
    exact mul_le_mul_of_nonneg_right hle' (by positivity)
  · rw [if_neg hcut, if_neg hcut]
    unfold rawSpectrum
    simp only [if_true, Bool.false_eq_true, if_false]
    rw [getD_map_mul, getD_map_mul]
    have hcorr := corr_nonneg lib a.win N
    generalize powerCorrection (windowGain (windowVector lib a.win N) N) (windowEnbw (windowVector lib a.win N) N) = c at *
    by_cases hk : k ≤ N / 2
    · have hpn : 0 ≤ (powerAverage (runsOf d (windowVector lib a.win N)) N).getD k 0 := getD_nonneg _ (powerAverage_nonneg _ _) k
      rw [← mul_assoc, ← mul_assoc]
      apply mul_le_mul_of_nonneg_right _ hcorr
      by_cases hw : 1 < n ∧ 1 < N
      · have h1 := coherent_le (runsOf d (windowVector lib a.win N)) N n k hN hk 1 (by
          intro x _ Y hY
          rw [one_mul]
          exact run_le x N n k Y hY)
        rw [used_count d _ N n hw.1 hw.2, one_pow, one_mul, show (runsOf d (windowVector lib a.win N)).length = d.length by simp [runsOf]] at h1
        exact h1
      · rw [(average_getD _ N n k hk).1, coherentSum_narrow _ _ _ _ (by omega)]
        simp only [norm_zero]
        rw [zero_pow (by norm_num), zero_mul, mul_zero]
        positivity
    · rw [List.getD_eq_getElem?_getD, List.getElem?_eq_none (by rw [coherentAverage_length]; omega), List.getD_eq_getElem?_getD,
        List.getElem?_eq_none (by rw [powerAverage_length]; omega)]
      simp

/-! ### Runs of one carrier -/

namespace Spec

/-- Every windowed run has the same magnitude `c` at bin `b`, above all other in-band bins, and is not silent. -/
def SameCarrier (N n : ℕ) (w : ℕ → ℝ) (d : List (List ℝ)) (b : ℕ) (c : ℝ) : Prop :=
  ∀ row ∈ d, Audible N w row ∧ binLevel N w row b = c ∧ ∀ k, 0 < k → k < n → k ≠ b → binLevel N w row k < c

end Spec

private theorem bin_of_peak (p : List ℝ) (n b : ℕ) (hn : n ≤ p.length) (hb : 0 < b) (hbn : b < n) (h : ∀ k, 0 < k → k < n → k ≠ b → p.getD k 0 < p.getD b 0) :
    fundamentalBin p n = b := by
  obtain ⟨f1, f2, f3, -⟩ := C27_fundamental_strongest p n hn (by omega)
  by_contra hc
  exact absurd (f3 b hb hbn) (not_le.mpr (h _ f1 f2 hc))

/-- The aligned run: every bin keeps at most the fraction `s` of its magnitude, the carrier bin keeps exactly that and becomes real. -/
private theorem carrier_run (N n b : ℕ) (x : ℕ → ℝ) (c : ℝ) (hc : 0 < c) (hb : 0 < b) (hbn : b < n) (hn : n ≤ N / 2 + 1) (hb2 : 2 * b < N)
    (hcop : Nat.Coprime b N) (hx : ‖dft N (fun m => (x m : ℂ)) b‖ = c)
    (hdom : ∀ k, 0 < k → k < n → k ≠ b → ‖dft N (fun m => (x m : ℂ)) k‖ < c) (Y : ℕ → ℂ) (hY : coherentRun x N n = some Y) :
    Y b = ((c / (c + 1 / 10 ^ 20) * c : ℝ) : ℂ) ∧ ∀ k, k ≤ N / 2 → ‖Y k‖ ≤ c / (c + 1 / 10 ^ 20) * ‖dft N (fun m => (x m : ℂ)) k‖ := by
  unfold coherentRun at hY
  simp only at hY
  have hfb : fundamentalBin ((List.range (N / 2 + 1)).map fun (k : ℕ) => ‖dft N (fun m => (x m : ℂ)) k‖ ^ 2) n = b := by
    have hg : ∀ k < N / 2 + 1, ((List.range (N / 2 + 1)).map fun (k : ℕ) => ‖dft N (fun m => (x m : ℂ)) k‖ ^ 2).getD k 0 = ‖dft N (fun m => (x m : ℂ)) k‖ ^ 2 := by
      intro k hk
      rw [List.getD_eq_getElem?_getD, List.getElem?_map, List.getElem?_range hk]
      rfl
    apply bin_of_peak _ _ _ (by simp; omega) hb hbn
    intro k h0 hk hkb
    rw [hg k (by omega), hg b (by omega), hx]
    exact pow_lt_pow_left₀ (hdom k h0 hk hkb) (norm_nonneg _) (by norm_num)
  split_ifs at hY with h1 h2
  injection hY with hY
  unfold locateFundamental at hY
  simp only [hfb] at hY
  generalize refineBin _ b = bR at hY
  obtain ⟨X, hX⟩ : ∃ X : ℕ → ℂ, X = fun k : ℕ => dft N (fun m => (x m : ℂ)) k := ⟨_, rfl⟩
  have hXk : ∀ k : ℕ, dft N (fun m => (x m : ℂ)) (k : ℤ) = X k := fun k => by rw [hX]
  rw [← hX] at hY
  simp only [hXk] at hx ⊢
  clear h1 h2 hfb hdom hXk hX
  subst hY
  have hn1 := alignPhasor_norm X b
  rw [hx] at hn1
  have hs0 : 0 ≤ c / (c + 1 / 10 ^ 20) := by positivity
  have hs1 : c / (c + 1 / 10 ^ 20) ≤ 1 := by
    rw [div_le_one (by positivity)]
    have : (0 : ℝ) < 1 / 10 ^ 20 := by positivity
    linarith
  constructor
  · obtain ⟨h, g1, g2, g3, g4⟩ := C34_harmonic_bins X b bR N hb b hb (by omega) (by rw [hcop]; exact one_dvd _)
    have hh : h = 1 := by
      by_contra hne
      exact (g3 1 le_rfl (by omega)).2 (by rw [mul_one])
    subst hh
    rcases g4 with ⟨-, g⟩ | ⟨g, -⟩
    · rw [g, pow_one]
      unfold alignPhasor
      rw [map_div₀, Complex.conj_ofReal, ← mul_div_assoc, Complex.mul_conj, Complex.normSq_eq_norm_sq, hx]
      push_cast
      ring
    · exfalso
      have := Nat.le_of_dvd (by omega) g
      omega
  · intro k hk
    by_cases h0 : k = 0
    · subst h0
      rw [align_eq _ _ _ _ _ hb, if_pos rfl, norm_zero]
      positivity
    · obtain ⟨h, g1, g2, -, g4⟩ := C34_harmonic_bins X b bR N hb k (by omega) (by omega) (by rw [hcop]; exact one_dvd _)
      have hle : ‖alignPhasor X b ^ h‖ ≤ c / (c + 1 / 10 ^ 20) := by
        rw [norm_pow, hn1]
        exact pow_le_of_le_one hs0 hs1 (by omega)
      rw [mul_comm (c / (c + 1 / 10 ^ 20))]
      rcases g4 with ⟨-, g⟩ | ⟨-, g⟩
      · rw [g, norm_mul]
        exact mul_le_mul_of_nonneg_left hle (norm_nonneg _)
      · rw [g, norm_mul, RCLike.norm_conj]
        exact mul_le_mul_of_nonneg_left hle (norm_nonneg _)

/-- Coherent and power average of runs of one carrier. -/
private theorem carrier_average (N n b : ℕ) (w : ℕ → ℝ) (d : List (List ℝ)) (hne : d ≠ []) (c : ℝ) (hc : 0 < c) (hb : 0 < b) (hbn : b < n)
    (hn : n ≤ N / 2 + 1) (hb2 : 2 * b < N) (hcop : Nat.Coprime b N) (h : SameCarrier N n w d b c) :
    (powerAverage (runsOf d w) N).getD b 0 = (c / N) ^ 2 ∧
    (coherentAverage (runsOf d w) N n).getD b 0 = (c / (c + 1 / 10 ^ 20)) ^ 2 * (c / N) ^ 2 ∧
    (∀ k, k ≤ N / 2 → (coherentAverage (runsOf d w) N n).getD k 0 ≤ (c / (c + 1 / 10 ^ 20)) ^ 2 * (powerAverage (runsOf d w) N).getD k 0) ∧
    ∀ k, 0 < k → k < n → k ≠ b → (powerAverage (runsOf d w) N).getD k 0 < (c / N) ^ 2 := by
  have hN : 0 < N := by omega
  have hNR : (0 : ℝ) < N := by exact_mod_cast hN
  have hM : (0 : ℝ) < d.length := by
    have := List.length_pos_iff.mpr hne
    exact_mod_cast this
  have hob : oneSided N b 1 = 1 := by
    unfold oneSided
    simp only
    rw [if_neg (by omega), if_neg (by omega)]
  have hused : ((runsOf d w).filterMap fun x => coherentRun x N n).length = d.length := by
    classical
    rw [used_count d w N n (by omega) (by omega), List.filter_eq_self.mpr]
    intro row hr
    simpa using (h row hr).1
  have hrun : ∀ x ∈ runsOf d w, ∀ Y, coherentRun x N n = some Y →
      Y b = ((c / (c + 1 / 10 ^ 20) * c : ℝ) : ℂ) ∧ ∀ k, k ≤ N / 2 → ‖Y k‖ ≤ c / (c + 1 / 10 ^ 20) * ‖dft N (fun m => (x m : ℂ)) k‖ := by
    intro x hx Y hY
    unfold runsOf at hx
    obtain ⟨row, hr, rfl⟩ := List.mem_map.mp hx
    exact carrier_run N n b _ c hc hb hbn hn hb2 hcop (h row hr).2.1 (h row hr).2.2 Y hY
  have hlen : (runsOf d w).length = d.length := by simp [runsOf]
  refine ⟨?_, ?_, ?_, ?_⟩
  · rw [(average_getD (runsOf d w) N n b (by omega)).2, hob, mul_one, hlen]
    have : ((runsOf d w).map fun x => ‖dft N (fun n => (x n : ℂ)) b‖ ^ 2) = List.replicate d.length (c ^ 2) := by
      rw [List.eq_replicate_iff]
      refine ⟨by simp [runsOf], ?_⟩
      intro v hv
      obtain ⟨x, hx, rfl⟩ := List.mem_map.mp hv
      unfold runsOf at hx
      obtain ⟨row, hr, rfl⟩ := List.mem_map.mp hx
      have := (h row hr).2.1
      unfold binLevel at this
      rw [this]
    rw [this, List.sum_replicate, nsmul_eq_mul]
    field_simp
  · rw [(average_getD (runsOf d w) N n b (by omega)).1, hob, mul_one]
    unfold coherentSum
    simp only
    rw [hused, if_pos (List.length_pos_iff.mpr hne)]
    have : (((runsOf d w).filterMap fun x => coherentRun x N n).map fun X => X b) = List.replicate d.length (((c / (c + 1 / 10 ^ 20) * c : ℝ) : ℂ)) := by
      rw [List.eq_replicate_iff]
      refine ⟨by simp [hused], ?_⟩
      intro v hv
      obtain ⟨Y, hY, rfl⟩ := List.mem_map.mp hv
      obtain ⟨x, hx, hxY⟩ := List.mem_filterMap.mp hY
      exact (hrun x hx Y hxY).1
    rw [this, List.sum_replicate, nsmul_eq_mul, norm_div, norm_mul, norm_mul, Complex.norm_natCast, Complex.norm_natCast, Complex.norm_real,
      Real.norm_eq_abs, abs_of_nonneg (by positivity)]
    field_simp
  · intro k hk
    have h1 := coherent_le (runsOf d w) N n k hN hk (c / (c + 1 / 10 ^ 20)) (fun x hx Y hY => (hrun x hx Y hY).2 k hk)
    rw [hused, hlen] at h1
    have : (d.length : ℝ) * (coherentAverage (runsOf d w) N n).getD k 0 ≤ d.length * ((c / (c + 1 / 10 ^ 20)) ^ 2 * (powerAverage (runsOf d w) N).getD k 0) := by
      linarith
    exact le_of_mul_le_mul_left this hM
  · intro k h0 hk hkb
    rw [(average_getD (runsOf d w) N n k (by omega)).2, hlen]
    have ho1 : oneSided N k 1 ≤ 1 := by
      unfold oneSided
      simp only
      split_ifs <;> norm_num
    have ho0 := oneSided_one_nonneg N k
    have hsum : ((runsOf d w).map fun x => ‖dft N (fun n => (x n : ℂ)) k‖ ^ 2).sum < d.length * c ^ 2 := by
      have : ∀ l : List (List ℝ), l ≠ [] → (∀ row ∈ l, binLevel N w row k < c) →
          ((runsOf l w).map fun x => ‖dft N (fun n => (x n : ℂ)) k‖ ^ 2).sum < l.length * c ^ 2 := by
        intro l hl hlt
        have h2 : ∀ l : List (List ℝ), (∀ row ∈ l, binLevel N w row k < c) →
            ((runsOf l w).map fun x => ‖dft N (fun n => (x n : ℂ)) k‖ ^ 2).sum ≤ l.length * c ^ 2 := by
          intro l
          induction l with
          | nil => simp [runsOf]
          | cons row l ih =>
            intro hl
            have := ih fun r hr => hl r (by simp [hr])
            have h3 := pow_le_pow_left₀ (norm_nonneg _) (hl row (by simp)).le 2
            unfold runsOf binLevel at *
            simp only [List.map_cons, List.sum_cons, List.length_cons]
            push_cast at *
            linarith
        cases l with
        | nil => exact absurd rfl hl
        | cons row l =>
          have := h2 l fun r hr => hlt r (by simp [hr])
          have h3 := pow_lt_pow_left₀ (hlt row (by simp)) (norm_nonneg _) (by norm_num : (2 : ℕ) ≠ 0)
          unfold runsOf binLevel at *
          simp only [List.map_cons, List.sum_cons, List.length_cons]
          push_cast at *
          linarith
      exact this d hne fun row hr => (h row hr).2.2 k h0 hk hkb
    have hnn : 0 ≤ ((runsOf d w).map fun x => ‖dft N (fun n => (x n : ℂ)) k‖ ^ 2).sum := by
      apply List.sum_nonneg
      intro v hv
      obtain ⟨x, -, rfl⟩ := List.mem_map.mp hv
      positivity
    calc _ ≤ ((runsOf d w).map fun x => ‖dft N (fun n => (x n : ℂ)) k‖ ^ 2).sum / d.length / (N : ℝ) ^ 2 :=
          mul_le_of_le_one_right (by positivity) ho1
      _ < (c / N) ^ 2 := by
        rw [div_pow, div_lt_div_iff_of_pos_right (by positivity), div_lt_iff₀ hM]
        linarith

private theorem nad_mono (p q : List ℝ) (n f : ℕ) (hp : n ≤ p.length) (hq : n ≤ q.length) (t : ℝ) (h : ∀ k, k < n → p.getD k 0 ≤ t * q.getD k 0) :
    noiseAndDistortion p n 0 f ≤ t * noiseAndDistortion q n 0 f := by
  rw [C28_noise_and_distortion_spec p n 0 f hp, C28_noise_and_distortion_spec q n 0 f hq]
  unfold power
  rw [mul_sum]
  apply sum_le_sum
  intro i hi
  unfold nadBins at hi
  simp only [mem_sdiff, mem_range] at hi
  exact h i hi.1.1

private theorem spur_zero (p : List ℝ) (n f : ℕ) (hn : n ≤ p.length) (idx : ℕ) (v : ℝ) (h : extractHighestSpur p 0 n (f - 0) (min (f + 0 + 1) n) = .ok (idx, v)) :
    v = 0 ∨ (idx ∈ nadBins n 0 f ∧ v = p.getD idx 0) := by
  unfold extractHighestSpur at h
  simp only at h
  split_ifs at h with hne
  injection h with h
  injection h with h1 h2
  rw [h1] at h2
  rw [← h2, slice_sum, cleared_length, min_eq_left hn]
  by_cases hi : idx < n
  · rw [show min (min (idx + 0 + 1) n) n = idx + 1 by omega, Nat.sub_zero, Finset.sum_Ico_succ_top (by omega)]
    simp only [Finset.Ico_self, Finset.sum_empty, zero_add]
    rw [cleared_getD]
    split_ifs with hc
    · right
      refine ⟨?_, rfl⟩
      unfold nadBins dcLobe lobe
      simp only [mem_sdiff, mem_range, mem_Icc]
      omega
    · left; rfl
  · left
    rw [show Ico (idx - 0) (min (min (idx + 0 + 1) n) n) = ∅ by
      apply Finset.Ico_eq_empty
      omega]
    rfl

/-- **C162 (SNDR and SFDR).** Let all runs hold the same carrier: equal magnitude `c` at a bin `b` coprime with the record length, above every other in-band bin.
With the signal taken as that one bin (`side_bin=0`), coherent averaging finds the same fundamental, keeps its power up to the factor `(c/(c+1e-20))²` of the
division guard, never lowers SFDR, and lowers SNDR by no more than that same factor in decibels - whatever else differs between the runs. -/
theorem C162_sndr_sfdr (lib : WinLib) (data : List (List ℝ)) (a : SpectrumArgs) (d : List (List ℝ)) (hd : prepareFftInput data a.scale = .ok d) (n b : ℕ) (c : ℝ)
    (hn : rfftInbandBinCount (((d.headD []).length : ℕ) : ℤ) a.osr = .ok n) (hside : a.sideBin = some 0) (hcut : a.cutoff ≤ 0) (hass : a.assumed = none)
    (hb : 0 < b) (hbn : b < n) (hb2 : 2 * b < (d.headD []).length) (hcop : Nat.Coprime b (d.headD []).length)
    (hw : ∑ m ∈ range (d.headD []).length, windowVector lib a.win (d.headD []).length m ≠ 0) (hc : 0 < c)
    (h : SameCarrier (d.headD []).length n (windowVector lib a.win (d.headD []).length) d b c)
    (rc rp : SpectrumResult) (hrc : computeSpectrum lib data { a with coherent := true } = .ok rc)
    (hrp : computeSpectrum lib data { a with coherent := false } = .ok rp) :
    rp.fundamentalBin = b ∧ rc.fundamentalBin = b ∧ 0 < rp.power.getD b 0 ∧ rc.power.getD b 0 = (c / (c + 1 / 10 ^ 20)) ^ 2 * rp.power.getD b 0 ∧
    rp.sndr + ((20 * Real.logb 10 (c / (c + 1 / 10 ^ 20)) : ℝ) : EReal) ≤ rc.sndr ∧
    ∃ vp vc, rp.sfdr = some vp ∧ rc.sfdr = some vc ∧ vp ≤ vc := by
  obtain ⟨d1, n1, hd1, hn1, -, hnl, hl, hN, -, hnn, hpw, hm⟩ := computeSpectrum_ok lib data _ rc hrc
  obtain ⟨d2, n2, hd2, hn2, -, hnl', hl', -, -, hnn', hpw', hm'⟩ := computeSpectrum_ok lib data _ rp hrp
  rw [show ({ a with coherent := true } : SpectrumArgs).scale = a.scale from rfl, hd] at hd1
  rw [show ({ a with coherent := false } : SpectrumArgs).scale = a.scale from rfl, hd] at hd2
  injection hd1 with hd1
  injection hd2 with hd2
  subst hd1
  subst hd2
  rw [show ({ a with coherent := true } : SpectrumArgs).osr = a.osr from rfl, hn] at hn1
  rw [show ({ a with coherent := false } : SpectrumArgs).osr = a.osr from rfl, hn] at hn2
  injection hn1 with hn1
  injection hn2 with hn2
  subst hn1
  subst hn2
  have hne : d ≠ [] := by
    rintro rfl
    simp at hN
  generalize (d.headD []).length = N at *
  have hNR : (0 : ℝ) < N := by exact_mod_cast hN
  obtain ⟨w, hwdef⟩ : ∃ w, w = windowVector lib a.win N := ⟨_, rfl⟩
  rw [← hwdef] at hw h
  obtain ⟨k1, k2, k3, k4⟩ := carrier_average N n b w d hne c hc hb hbn (by omega) hb2 hcop h
  have hcorr : 0 < powerCorrection (windowGain w N) (windowEnbw w N) := by
    unfold powerCorrection windowGain windowEnbw
    have h1 : 0 < (∑ m ∈ range N, w m) ^ 2 := by positivity
    have h2 : 0 < ∑ m ∈ range N, w m ^ 2 := by
      rcases (sum_nonneg fun m _ => sq_nonneg (w m) : 0 ≤ ∑ m ∈ range N, w m ^ 2).lt_or_eq with h3 | h3
      · exact h3
      · exfalso
        apply hw
        apply sum_eq_zero
        intro m hm
        have := (sum_eq_zero_iff_of_nonneg fun m _ => sq_nonneg (w m)).mp h3.symm m hm
        exact pow_eq_zero_iff (by norm_num) |>.mp this
    positivity
  have gc : ∀ k, rc.power.getD k 0 = (coherentAverage (runsOf d w) N n).getD k 0 * powerCorrection (windowGain w N) (windowEnbw w N) := by
    intro k
    rw [hpw, cutoff_getD, if_neg (by intro hx; exact absurd hx.1 (not_lt.mpr hcut))]
    unfold rawSpectrum
    simp only [if_true]
    rw [getD_map_mul, hwdef]
  have gp : ∀ k, rp.power.getD k 0 = (powerAverage (runsOf d w) N).getD k 0 * powerCorrection (windowGain w N) (windowEnbw w N) := by
    intro k
    rw [hpw', cutoff_getD, if_neg (by intro hx; exact absurd hx.1 (not_lt.mpr hcut))]
    unfold rawSpectrum
    simp only [Bool.false_eq_true, if_false]
    rw [getD_map_mul, hwdef]
  generalize powerCorrection (windowGain w N) (windowEnbw w N) = K at *
  have hs0 : 0 < c / (c + 1 / 10 ^ 20) := by positivity
  have hs1 : c / (c + 1 / 10 ^ 20) ≤ 1 := by
    rw [div_le_one (by positivity)]
    have : (0 : ℝ) < 1 / 10 ^ 20 := by positivity
    linarith
  generalize c / (c + 1 / 10 ^ 20) = s at *
  have hs2 : s ^ 2 ≤ 1 := pow_le_one₀ hs0.le hs1
  have hPb : rp.power.getD b 0 = (c / N) ^ 2 * K := by rw [gp, k1]
  have hCb : rc.power.getD b 0 = s ^ 2 * rp.power.getD b 0 := by rw [gc, k2, hPb]; ring
  have hS : 0 < rp.power.getD b 0 := by rw [hPb]; positivity
  have hmono : ∀ k, k < n → rc.power.getD k 0 ≤ s ^ 2 * rp.power.getD k 0 := by
    intro k hk
    rw [gc, gp, ← mul_assoc]
    exact mul_le_mul_of_nonneg_right (k3 k (by omega)) hcorr.le
  have hdom : ∀ k, 0 < k → k < n → k ≠ b → rp.power.getD k 0 < rp.power.getD b 0 := by
    intro k h0 hk hkb
    rw [gp, hPb]
    exact mul_lt_mul_of_pos_right (k4 k h0 hk hkb) hcorr
  have fp : fundamentalBin rp.power n = b := bin_of_peak _ _ _ hnl' hb hbn hdom
  have fc : fundamentalBin rc.power n = b := by
    apply bin_of_peak _ _ _ hnl hb hbn
    intro k h0 hk hkb
    rw [hCb]
    exact (hmono k hk).trans_lt (mul_lt_mul_of_pos_left (hdom k h0 hk hkb) (by positivity))
  have lp : (locateFundamental rp.power n).1 = b := by unfold locateFundamental; exact fp
  have lc : (locateFundamental rc.power n).1 = b := by unfold locateFundamental; exact fc
  clear gc gp k1 k2 k3 k4 hPb hpw hpw' hwdef
  obtain ⟨bins, spur, noise, -, hsp, -, hass1⟩ := spectrumMetrics_ok lib _ _ _ n rc.power rc hm
  obtain ⟨bins', spur', noise', -, hsp', -, hass2⟩ := spectrumMetrics_ok lib _ _ _ n rp.power rp hm'
  have sbc : sideBinOf lib { a with coherent := true } N n rc.power = 0 := by unfold sideBinOf; simp only [hside]
  have sbp : sideBinOf lib { a with coherent := false } N n rp.power = 0 := by unfold sideBinOf; simp only [hside]
  rw [sbc] at hsp hass1
  rw [sbp] at hsp' hass2
  rw [lc] at hsp
  rw [lp] at hsp'
  have sigc : signalPower rc.power n 0 b = s ^ 2 * rp.power.getD b 0 := by
    unfold signalPower
    rw [slice_sum, show min (min (b + 0 + 1) n) rc.power.length = b + 1 by omega, Nat.sub_zero, Finset.sum_Ico_succ_top (by omega)]
    simp only [Finset.Ico_self, Finset.sum_empty, zero_add]
    exact hCb
  have sigp : signalPower rp.power n 0 b = rp.power.getD b 0 := by
    unfold signalPower
    rw [slice_sum, show min (min (b + 0 + 1) n) rp.power.length = b + 1 by omega, Nat.sub_zero, Finset.sum_Ico_succ_top (by omega)]
    simp only [Finset.Ico_self, Finset.sum_empty, zero_add]
  have hsc : rc.sndr = dB (s ^ 2 * rp.power.getD b 0 / (noiseAndDistortion rc.power n 0 b + 1 / 10 ^ 20)) := by
    rw [← sigc, ← lc]
    conv_lhs => rw [hass1]
    unfold assemble sigLinear
    simp only [hass]
  have hsp0 : rp.sndr = dB (rp.power.getD b 0 / (noiseAndDistortion rp.power n 0 b + 1 / 10 ^ 20)) := by
    rw [← sigp, ← lp]
    conv_lhs => rw [hass2]
    unfold assemble sigLinear
    simp only [hass]
  have hfc : rc.sfdr = some (if spur.2 ≤ 0 then ⊤ else dB (s ^ 2 * rp.power.getD b 0 / spur.2)) := by
    have hpos : 0 < s ^ 2 * rp.power.getD b 0 := by positivity
    rw [← sigc, ← lc] at hpos ⊢
    conv_lhs => rw [hass1]
    unfold assemble sigLinear
    simp only [hass]
    rw [if_pos hpos]
  have hfp : rp.sfdr = some (if spur'.2 ≤ 0 then ⊤ else dB (rp.power.getD b 0 / spur'.2)) := by
    have hpos := hS
    rw [← sigp, ← lp] at hpos ⊢
    conv_lhs => rw [hass2]
    unfold assemble sigLinear
    simp only [hass]
    rw [if_pos hpos]
  refine ⟨by rw [hass2]; exact lp, by rw [hass1]; exact lc, hS, hCb, ?_, _, _, hfp, hfc, ?_⟩
  · have n1 := noiseAndDistortion_nonneg rc.power hnn n 0 b hnl
    have n2 := noiseAndDistortion_nonneg rp.power hnn' n 0 b hnl'
    have n3 := nad_mono rc.power rp.power n b hnl hnl' (s ^ 2) hmono
    have n4 : noiseAndDistortion rc.power n 0 b ≤ noiseAndDistortion rp.power n 0 b := n3.trans (mul_le_of_le_one_left n2 hs2)
    rw [hsc, hsp0]
    generalize noiseAndDistortion rc.power n 0 b = x at *
    generalize noiseAndDistortion rp.power n 0 b = y at *
    generalize rp.power.getD b 0 = S at *
    rw [dB_pos (by positivity), dB_pos (by positivity), ← EReal.coe_add, EReal.coe_le_coe_iff]
    have e : 10 * Real.logb 10 (S / (y + 1 / 10 ^ 20)) + 20 * Real.logb 10 s = 10 * Real.logb 10 (s ^ 2 * S / (y + 1 / 10 ^ 20)) := by
      rw [mul_div_assoc, Real.logb_mul (by positivity) (by positivity), Real.logb_pow]
      push_cast
      ring
    rw [e]
    apply mul_le_mul_of_nonneg_left _ (by norm_num)
    apply Real.logb_le_logb_of_le (by norm_num) (by positivity)
    gcongr
  · have hle : spur.2 ≤ s ^ 2 * spur'.2 := by
      obtain ⟨-, -, b3⟩ := C28_spur_between rp.power hnn' n 0 b hnl' spur'.1 spur'.2 hsp'
      have hsp'nn : 0 ≤ spur'.2 := by
        rcases spur_zero rp.power n b hnl' spur'.1 spur'.2 hsp' with hz | ⟨-, hz⟩
        · rw [hz]
        · rw [hz]; exact getD_nonneg _ hnn' _
      rcases spur_zero rc.power n b hnl spur.1 spur.2 hsp with hz | ⟨hi, hz⟩
      · rw [hz]; positivity
      · rw [hz]
        have hi' : spur.1 < n := by
          unfold nadBins at hi
          simp only [mem_sdiff, mem_range] at hi
          exact hi.1.1
        exact (hmono _ hi').trans (mul_le_mul_of_nonneg_left (b3 _ hi) (by positivity))
    by_cases h1 : spur.2 ≤ 0
    · rw [if_pos h1]; exact le_top
    · have h1' : 0 < spur.2 := not_le.mp h1
      have h2' : 0 < spur'.2 := by
        by_contra hcx
        have : s ^ 2 * spur'.2 ≤ 0 := mul_nonpos_of_nonneg_of_nonpos (by positivity) (not_lt.mp hcx)
        linarith
      rw [if_neg h1, if_neg (not_le.mpr h2'), dB_pos (by positivity), dB_pos (by positivity), EReal.coe_le_coe_iff]
      apply mul_le_mul_of_nonneg_left _ (by norm_num)
      apply Real.logb_le_logb_of_le (by norm_num) (by positivity)
      rw [div_le_div_iff₀ h2' h1']
      calc rp.power.getD b 0 * spur.2 ≤ rp.power.getD b 0 * (s ^ 2 * spur'.2) := mul_le_mul_of_nonneg_left hle hS.le
        _ = _ := by ring

/-! ### Two captures of one carrier with different interference -/

private theorem cis_four (k n : ℕ) : cis (-(((k : ℤ) : ℝ) * n / ((4 : ℕ) : ℝ))) = (-Complex.I) ^ (k * n) := by
  have c1 : cis (-(1 / 4)) = -Complex.I := by
    apply Complex.ext
    · rw [cis_re, show 2 * Real.pi * (-(1 / 4)) = -(Real.pi / 2) by ring, Real.cos_neg, Real.cos_pi_div_two]; simp
    · rw [cis_im, show 2 * Real.pi * (-(1 / 4)) = -(Real.pi / 2) by ring, Real.sin_neg, Real.sin_pi_div_two]; simp
  rw [← c1, ← cis_nat_mul]
  congr 1
  push_cast
  ring

private theorem level_four (w x y z : ℝ) : binLevel 4 (fun _ => 1) [w, x, y, z] 1 = Real.sqrt ((w - y) ^ 2 + (x - z) ^ 2) ∧
    binLevel 4 (fun _ => 1) [w, x, y, z] 2 = |w - x + y - z| := by
  have e1 : dft 4 (fun n => ((([w, x, y, z] : List ℝ).getD n 0 * 1 : ℝ) : ℂ)) (1 : ℕ) = ⟨w - y, z - x⟩ := by
    unfold dft
    simp only [sum_range_succ, sum_range_zero, List.getD_cons_zero, List.getD_cons_succ]
    rw [cis_four 1 0, cis_four 1 1, cis_four 1 2, cis_four 1 3]
    apply Complex.ext <;> simp [pow_succ] <;> ring
  have e2 : dft 4 (fun n => ((([w, x, y, z] : List ℝ).getD n 0 * 1 : ℝ) : ℂ)) (2 : ℕ) = ((w - x + y - z : ℝ) : ℂ) := by
    unfold dft
    simp only [sum_range_succ, sum_range_zero, List.getD_cons_zero, List.getD_cons_succ]
    rw [cis_four 2 0, cis_four 2 1, cis_four 2 2, cis_four 2 3]
    apply Complex.ext <;> simp [pow_succ] <;> ring
  unfold binLevel
  rw [e1, e2]
  constructor
  · rw [Complex.norm_def, Complex.normSq_apply]
    congr 1
    ring
  · rw [Complex.norm_real, Real.norm_eq_abs]

/-- A carrier of amplitude 4 captured a quarter period apart, each time with the same disturbance `1, -1, 1, -1`: the hypotheses hold with `c = 8`. -/
example (lib : WinLib) : ∃ rc rp, computeSpectrum lib [[5, -1, -3, -1], [1, 3, 1, -5]] { scale := .scalar 1, win := "boxcar", sideBin := some 0, coherent := true } = .ok rc ∧
    computeSpectrum lib [[5, -1, -3, -1], [1, 3, 1, -5]] { scale := .scalar 1, win := "boxcar", sideBin := some 0, coherent := false } = .ok rp ∧
    rc.fundamentalBin = 1 ∧ rp.sndr + ((20 * Real.logb 10 (8 / (8 + 1 / 10 ^ 20)) : ℝ) : EReal) ≤ rc.sndr := by
  have hprep : prepareFftInput [[(5 : ℝ), -1, -3, -1], [1, 3, 1, -5]] (.scalar 1) = .ok [[5, -1, -3, -1], [1, 3, 1, -5]] := by
    unfold prepareFftInput
    simp only [orient, peakAmplitude, removeDc]
    norm_num
  have hwv : ∀ N, windowVector lib "boxcar" N = fun _ => 1 := by
    intro N
    funext n
    unfold windowVector
    rw [if_pos (Or.inl rfl)]
  have hok : ∀ co, ∃ r, computeSpectrum lib [[5, -1, -3, -1], [1, 3, 1, -5]] { scale := .scalar 1, win := "boxcar", sideBin := some 0, coherent := co } = .ok r :=
    fun co => (C63_compute_spectrum_total lib _ { scale := .scalar 1, win := "boxcar", sideBin := some 0, coherent := co } _ hprep (by simp)).mpr
      ⟨by norm_num, by norm_num, by norm_num, by norm_num⟩
  obtain ⟨rc, hrc⟩ := hok true
  obtain ⟨rp, hrp⟩ := hok false
  have s8 : Real.sqrt 64 = 8 := by rw [show (64 : ℝ) = 8 ^ 2 by norm_num]; exact Real.sqrt_sq (by norm_num)
  have hcar : SameCarrier 4 3 (fun _ => 1) [[5, -1, -3, -1], [1, 3, 1, -5]] 1 8 := by
    intro row hrow
    have hr : row = [5, -1, -3, -1] ∨ row = [1, 3, 1, -5] := by simpa using hrow
    rcases hr with rfl | rfl
    · refine ⟨⟨0, by norm_num, by norm_num⟩, ?_, ?_⟩
      · rw [(level_four 5 (-1) (-3) (-1)).1]
        norm_num [s8]
      · intro k h0 hk hne
        obtain rfl : k = 2 := by omega
        rw [(level_four 5 (-1) (-3) (-1)).2]
        norm_num
    · refine ⟨⟨0, by norm_num, by norm_num⟩, ?_, ?_⟩
      · rw [(level_four 1 3 1 (-5)).1]
        norm_num [s8]
      · intro k h0 hk hne
        obtain rfl : k = 2 := by omega
        rw [(level_four 1 3 1 (-5)).2]
        norm_num
  have main := C162_sndr_sfdr lib [[5, -1, -3, -1], [1, 3, 1, -5]] { scale := .scalar 1, win := "boxcar", sideBin := some 0 } _ hprep 3 1 8
    (C25_osr_one (K := ℝ) 4 (by norm_num)) rfl le_rfl rfl (by norm_num) (by norm_num) (by simp) (by simp) (by simp [hwv]) (by norm_num)
    (by rw [hwv]; exact hcar) rc rp hrc hrp
  exact ⟨rc, rp, hrc, hrp, main.2.1, main.2.2.2.2.1⟩

end Verif
