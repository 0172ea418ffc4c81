import Verif.Model.PlotspecThd
import Verif.Theorems.MatlabReport
import Verif.Theorems.SpectrumReport

/-!
# C161: the unused single-bin THD and noise-figure helpers against the ones in use
-/

namespace Verif

open Model Spec Finset

section

variable {K : Type} [Field K] [LinearOrder K] [IsStrictOrderedRing K] [FloorRing K]

/-- A harmonic that collides neither with the fundamental nor with DC. -/
def Spec.ClearHarmonic (f sb : ℕ) (h : ℤ) : Prop := 2 * (sb : ℤ) < |h - f| ∧ (sb : ℤ) < h

instance (f sb : ℕ) : DecidablePred (Spec.ClearHarmonic f sb) := fun h => by unfold Spec.ClearHarmonic; infer_instance

private theorem fold_error (p : List K) (f sb : ℕ) : ∀ (hs : List ℤ) (k : ℕ) (acc : K × List K × List ℕ),
    (∃ h ∈ hs, Spec.ClearHarmonic f sb h ∧ (p.length : ℤ) ≤ h) → (hs.zipIdx k).foldlM (plotspecStep p f sb) acc = .error .indexError := by
  intro hs
  induction hs with
  | nil => rintro _ _ ⟨_, h, _⟩; cases h
  | cons a l ih =>
    rintro k acc ⟨h, hm, hc, hlen⟩
    rw [List.zipIdx_cons, List.foldlM_cons]
    rcases List.mem_cons.mp hm with rfl | hm
    · unfold plotspecStep
      rw [if_neg (not_le.mpr hc.1), if_neg (not_le.mpr hc.2), List.getElem?_eq_none (by simp only; omega)]
      rfl
    · cases hstep : plotspecStep p f sb acc (a, k) with
      | error e =>
        unfold plotspecStep at hstep
        split_ifs at hstep
        revert hstep
        cases p[(a, k).1.toNat]? with
        | none => intro h; injection h with h; rw [← h]; rfl
        | some v => intro h; cases h
      | ok r => exact ih _ r ⟨h, hm, hc, hlen⟩

private theorem fold_ok (p : List K) (f sb : ℕ) : ∀ (hs : List ℤ) (k : ℕ) (acc : K × List K × List ℕ),
    (∀ h ∈ hs, Spec.ClearHarmonic f sb h → h < (p.length : ℤ)) → (hs.zipIdx k).foldlM (plotspecStep p f sb) acc =
      .ok (acc.1 + ((hs.filter fun h => decide (Spec.ClearHarmonic f sb h)).map fun h => p.getD h.toNat 0).sum,
        acc.2.1 ++ hs.map (fun h => if Spec.ClearHarmonic f sb h then max (p.getD h.toNat 0) pFloor else pFloor),
        acc.2.2 ++ ((hs.zipIdx k).filter fun (hi : ℤ × ℕ) => decide (|hi.1 - (f : ℤ)| ≤ 2 * sb)).map fun (hi : ℤ × ℕ) => hi.2 + 2) := by
  intro hs
  induction hs with
  | nil => intro k acc _; simp; rfl
  | cons a l ih =>
    intro k acc hlt
    have ih' := fun acc => ih (k + 1) acc fun h hm => hlt h (List.mem_cons_of_mem _ hm)
    rw [List.zipIdx_cons, List.foldlM_cons]
    unfold plotspecStep
    by_cases h1 : |a - (f : ℤ)| ≤ 2 * sb
    · rw [if_pos h1]
      have hn : ¬ Spec.ClearHarmonic f sb a := fun h => absurd h.1 (not_lt.mpr h1)
      refine (ih' _).trans ?_
      simp [hn, h1]
    · rw [if_neg h1]
      by_cases h2 : a ≤ sb
      · rw [if_pos h2]
        have hn : ¬ Spec.ClearHarmonic f sb a := fun h => absurd h.2 (not_lt.mpr h2)
        refine (ih' _).trans ?_
        simp [hn, h1]
      · rw [if_neg h2]
        have hc : Spec.ClearHarmonic f sb a := ⟨not_le.mp h1, not_le.mp h2⟩
        have hl : a.toNat < p.length := by have := hlt a List.mem_cons_self hc; have := hc.2; omega
        simp only
        rw [List.getElem?_eq_getElem hl]
        refine (ih' _).trans ?_
        simp [hc, h1, hl, add_assoc]

/-- **C161 (when it fails).** The single-bin helper raises `IndexError` exactly if a harmonic clear of the fundamental and of DC lies beyond the end of the spectrum, and nothing else. -/
theorem C161_error (p : List K) (hs : List ℤ) (f sb : ℕ) :
    ((∃ h ∈ hs, Spec.ClearHarmonic f sb h ∧ (p.length : ℤ) ≤ h) → harmonicPowerPlotspec p hs f sb = .error .indexError) ∧
      ((∀ h ∈ hs, Spec.ClearHarmonic f sb h → h < (p.length : ℤ)) → ∃ r, harmonicPowerPlotspec p hs f sb = .ok r) := by
  constructor
  · intro h
    unfold harmonicPowerPlotspec
    rw [fold_error p f sb hs 0 _ h]
  · intro h
    unfold harmonicPowerPlotspec
    rw [fold_ok p f sb hs 0 _ h]
    exact ⟨_, rfl⟩

private theorem ok_lt (p : List K) (hs : List ℤ) (f sb : ℕ) (r : K × List K × List ℕ) (h : harmonicPowerPlotspec p hs f sb = .ok r) :
    ∀ x ∈ hs, Spec.ClearHarmonic f sb x → x < (p.length : ℤ) := by
  intro x hx hc
  by_contra hcon
  rw [(C161_error p hs f sb).1 ⟨x, hx, hc, not_lt.mp hcon⟩] at h
  cases h

private theorem ok_value (p : List K) (hs : List ℤ) (f sb : ℕ) (r : K × List K × List ℕ) (h : harmonicPowerPlotspec p hs f sb = .ok r) :
    r = (max (((hs.filter fun h => decide (Spec.ClearHarmonic f sb h)).map fun h => p.getD h.toNat 0).sum) pFloor,
      hs.map (fun h => if Spec.ClearHarmonic f sb h then max (p.getD h.toNat 0) pFloor else pFloor),
      (hs.zipIdx.filter fun (hi : ℤ × ℕ) => decide (|hi.1 - (f : ℤ)| ≤ 2 * sb)).map fun (hi : ℤ × ℕ) => hi.2 + 2) := by
  have hlt := ok_lt p hs f sb r h
  unfold harmonicPowerPlotspec at h
  rw [fold_ok p f sb hs 0 _ hlt] at h
  injection h with h
  rw [← h]
  simp

/-- **C161 (what it returns).** THD is the sum of one bin per clear harmonic, a bin reached by two harmonics counting twice; each clear harmonic has the power of its one bin, every
other one the floor `1e-15`; the collided harmonics are the ones that the helper in use names. -/
theorem C161_result (p : List K) (hs : List ℤ) (f sb : ℕ) (r : K × List K × List ℕ) (h : harmonicPowerPlotspec p hs f sb = .ok r) :
    r.1 = max (((hs.filter fun h => decide (Spec.ClearHarmonic f sb h)).map fun h => p.getD h.toNat 0).sum) (1 / 10 ^ 15) ∧
    r.2.1.length = hs.length ∧
    (∀ i < hs.length, r.2.1.getD i 0 = if Spec.ClearHarmonic f sb (hs.getD i 0) then max (p.getD (hs.getD i 0).toNat 0) (1 / 10 ^ 15) else 1 / 10 ^ 15) ∧
    r.2.2 = (calculateHarmonicPower p f hs sb).2.2 := by
  rw [ok_value p hs f sb r h]
  refine ⟨rfl, by simp, fun i hi => ?_, ?_⟩
  · have e : hs.getD i 0 = hs[i] := by rw [List.getD_eq_getElem?_getD, List.getElem?_eq_getElem hi]; rfl
    simp only
    rw [e, List.getD_eq_getElem?_getD, List.getElem?_map, List.getElem?_eq_getElem hi]
    rfl
  · unfold calculateHarmonicPower
    simp only
    congr 1
    apply List.filter_congr
    rintro ⟨a, i⟩ _
    simp only
    congr 1
    unfold harmonicCase
    apply propext
    constructor
    · intro h1; rw [if_pos h1]
    · intro h1; split_ifs at h1 with h2; exact h2

private theorem lobe_zero (p : List K) (x : ℤ) (h0 : 0 < x) (hx : x < (p.length : ℤ)) :
    ((range p.length).filter fun j : ℕ => |(j : ℤ) - x| ≤ ((0 : ℕ) : ℤ)) = {x.toNat} := by
  ext j
  rw [mem_filter, mem_range, mem_singleton, abs_le]
  omega

private theorem bins_zero (len f : ℕ) (hs : List ℤ) (hlt : ∀ x ∈ hs, Spec.ClearHarmonic f 0 x → x < (len : ℤ)) :
    thdBins len f 0 hs = ((hs.filter fun h => decide (Spec.ClearHarmonic f 0 h)).map Int.toNat).toFinset := by
  ext i
  rw [C29_thd_bins_spec, List.mem_toFinset, List.mem_map]
  constructor
  · rintro ⟨_, h, hm, h1, h2, h3⟩
    refine ⟨h, List.mem_filter.mpr ⟨hm, decide_eq_true ⟨h1, h2⟩⟩, ?_⟩
    rw [abs_le] at h3
    omega
  · rintro ⟨h, hm, rfl⟩
    rw [List.mem_filter, decide_eq_true_eq] at hm
    have := hlt h hm.1 hm.2
    have h0 := hm.2.2
    exact ⟨by omega, h, hm.1, hm.2.1, h0, by rw [abs_le]; omega⟩

/-- A sum over the distinct entries of a list of bins is at most the sum over the list. -/
private theorem toFinset_le (g : ℕ → K) (hg : ∀ i, 0 ≤ g i) : ∀ l : List ℕ, ∑ i ∈ l.toFinset, g i ≤ (l.map g).sum := by
  intro l
  induction l with
  | nil => simp
  | cons a l ih =>
    rw [List.toFinset_cons, List.map_cons, List.sum_cons]
    by_cases h : a ∈ l.toFinset
    · rw [insert_eq_self.mpr h]
      have := hg a
      linarith
    · rw [sum_insert h]
      linarith

/-- **C161 (against the helper in use).** With no side bins the powers of the harmonics are the ones of the helper in use, and so is THD if no two clear harmonics alias to the same
bin; for a non-negative spectrum it is never smaller. -/
theorem C161_no_side_bins (p : List K) (hs : List ℤ) (f : ℕ) (r : K × List K × List ℕ) (h : harmonicPowerPlotspec p hs f 0 = .ok r) :
    r.2.1 = (calculateHarmonicPower p f hs 0).2.1 ∧
    ((hs.filter fun h => decide (Spec.ClearHarmonic f 0 h)).Nodup → r = calculateHarmonicPower p f hs 0) ∧
    (NonnegSpec p → (calculateHarmonicPower p f hs 0).1 ≤ r.1) := by
  have hlt := ok_lt p hs f 0 r h
  obtain ⟨r1, r2, r3, r4⟩ := C161_result p hs f 0 r h
  have hp : r.2.1 = (calculateHarmonicPower p f hs 0).2.1 := by
    have hlen : (calculateHarmonicPower p f hs 0).2.1.length = hs.length := by unfold calculateHarmonicPower; simp
    apply List.ext_getElem (by rw [r2, hlen])
    intro i h1 h2
    have hi : i < hs.length := by rw [← r2]; exact h1
    have a1 := r3 i hi
    have a2 := (C29_harmonic_power_spec p f 0 hs i hi).2
    rw [List.getD_eq_getElem?_getD, List.getElem?_eq_getElem h1, Option.getD_some] at a1
    rw [List.getD_eq_getElem?_getD, List.getElem?_eq_getElem h2, Option.getD_some] at a2
    rw [a1, a2]
    by_cases hc : Spec.ClearHarmonic f 0 (hs.getD i 0)
    · rw [if_pos hc, if_pos (show _ ∧ _ from hc)]
      have hm : hs.getD i 0 ∈ hs := by
        rw [List.getD_eq_getElem?_getD, List.getElem?_eq_getElem hi]
        exact List.getElem_mem hi
      have h0 := hc.2
      unfold power
      rw [lobe_zero p _ (by omega) (hlt _ hm hc), sum_singleton]
    · rw [if_neg hc, if_neg (show ¬ (_ ∧ _) from hc)]
  have hb := bins_zero p.length f hs hlt
  refine ⟨hp, fun hnd => ?_, fun hnn => ?_⟩
  · refine Prod.ext ?_ (Prod.ext hp r4)
    rw [r1, C29_thd_power, hb]
    congr 1
    unfold power
    rw [List.sum_toFinset]
    · rw [List.map_map]
      rfl
    · refine hnd.map_on fun x hx y hy hxy => ?_
      rw [List.mem_filter, decide_eq_true_eq] at hx hy
      have h1 := hx.2.2
      have h2 := hy.2.2
      omega
  · rw [r1, C29_thd_power, hb]
    apply max_le_max_right
    have hg : ∀ i, 0 ≤ p.getD i 0 := by
      intro i
      rw [List.getD_eq_getElem?_getD]
      by_cases hi : i < p.length
      · rw [List.getElem?_eq_getElem hi]
        exact hnn _ (List.getElem_mem hi)
      · rw [List.getElem?_eq_none (by omega)]
        exact le_rfl
    have := toFinset_le (fun i => p.getD i 0) hg ((hs.filter fun h => decide (Spec.ClearHarmonic f 0 h)).map Int.toNat)
    rw [List.map_map] at this
    exact this

/-- **C161 (side bins).** With side bins and a non-negative spectrum every harmonic power is at most the one of the helper in use, the difference being the rest of the lobe. So is
THD if no two clear harmonics alias to the same bin. -/
theorem C161_side_bins (p : List K) (hp : NonnegSpec p) (hs : List ℤ) (f sb : ℕ) (r : K × List K × List ℕ) (h : harmonicPowerPlotspec p hs f sb = .ok r) :
    (∀ i < hs.length, r.2.1.getD i 0 ≤ (calculateHarmonicPower p f hs sb).2.1.getD i 0) ∧
    ((hs.filter fun h => decide (Spec.ClearHarmonic f sb h)).Nodup → r.1 ≤ (calculateHarmonicPower p f hs sb).1) := by
  have hlt := ok_lt p hs f sb r h
  obtain ⟨r1, r2, r3, r4⟩ := C161_result p hs f sb r h
  have hg : ∀ i, 0 ≤ p.getD i 0 := by
    intro i
    rw [List.getD_eq_getElem?_getD]
    by_cases hi : i < p.length
    · rw [List.getElem?_eq_getElem hi]
      exact hp _ (List.getElem_mem hi)
    · rw [List.getElem?_eq_none (by omega)]
      exact le_rfl
  constructor
  · intro i hi
    rw [r3 i hi, (C29_harmonic_power_spec p f sb hs i hi).2]
    by_cases hc : Spec.ClearHarmonic f sb (hs.getD i 0)
    · rw [if_pos hc, if_pos (show _ ∧ _ from hc)]
      have hm : hs.getD i 0 ∈ hs := by
        rw [List.getD_eq_getElem?_getD, List.getElem?_eq_getElem hi]
        exact List.getElem_mem hi
      have h1 := hlt _ hm hc
      have h0 := hc.2
      apply max_le_max_right
      unfold power
      exact single_le_sum (f := fun j => p.getD j 0) (fun j _ => hg j) (by rw [mem_filter, mem_range, abs_le]; omega)
    · rw [if_neg hc, if_neg (show ¬ (_ ∧ _) from hc)]
  · intro hnd
    rw [r1, C29_thd_power]
    apply max_le_max_right
    unfold power
    have e : ((hs.filter fun h => decide (Spec.ClearHarmonic f sb h)).map fun h => p.getD h.toNat 0).sum
        = ∑ i ∈ ((hs.filter fun h => decide (Spec.ClearHarmonic f sb h)).map Int.toNat).toFinset, p.getD i 0 := by
      rw [List.sum_toFinset]
      · rw [List.map_map]
        rfl
      · refine hnd.map_on fun x hx y hy hxy => ?_
        rw [List.mem_filter, decide_eq_true_eq] at hx hy
        have h1 := hx.2.2
        have h2 := hy.2.2
        omega
    rw [e]
    apply sum_le_sum_of_subset_of_nonneg
    · intro i hi
      rw [List.mem_toFinset, List.mem_map] at hi
      obtain ⟨x, hx, rfl⟩ := hi
      rw [List.mem_filter, decide_eq_true_eq] at hx
      rw [C29_thd_bins_spec]
      have h1 := hlt x hx.1 hx.2
      have h0 := hx.2.2
      exact ⟨by omega, x, hx.1, hx.2.1, hx.2.2, by rw [abs_le]; omega⟩
    · intro i _ _
      exact hg i

end

/-- **C161 (noise figures).** In every successful `compute_spectrum` result that reports an SNR, with a signal power that is assumed or above the `-300 dBFS` clip, the helper applied
to the signal power, the estimated noise power, `fs` and `osr` returns the reported SNR, noise floor and noise spectral density, whatever equivalent noise bandwidth it is given. -/
theorem C161_noise_metrics (lib : WinLib) (data : List (List ℝ)) (a : SpectrumArgs) (r : SpectrumResult) (h : computeSpectrum lib data a = .ok r)
    (hlev : a.assumed ≠ none ∨ -300 < r.sigPwr) (hsnr : r.snr ≠ none) (enbw : ℝ) :
    ∃ (n : ℕ) (noise : ℝ), rfftInbandBinCount (r.N : ℤ) a.osr = .ok n ∧
      estimateNoisePower r.power a.nfMethod n r.M r.fundamentalBin r.harmonicBins (sideBinOf lib a r.N n r.power) = .ok (some noise) ∧
      r.snr = some ((noiseMetrics ((10 : ℝ) ^ (r.sigPwr / 10)) noise r.sigPwr a.fs a.osr enbw).1 : EReal) ∧
      r.noiseFloor = some ((noiseMetrics ((10 : ℝ) ^ (r.sigPwr / 10)) noise r.sigPwr a.fs a.osr enbw).2.1 : EReal) ∧
      r.nsd = some (noiseMetrics ((10 : ℝ) ^ (r.sigPwr / 10)) noise r.sigPwr a.fs a.osr enbw).2.2 := by
  obtain ⟨d, n, hd, hn, hN, hnl, hM, hpn, hosr, hnn, hpow, hm⟩ := computeSpectrum_ok lib data a r h
  obtain ⟨bins, spur, noise, h1, h2, h3, hr⟩ := spectrumMetrics_ok _ _ _ _ _ _ _ hm
  have eN : r.N = (d.headD []).length := by rw [hr]; rfl
  have eM : r.M = d.length := by rw [hr]; rfl
  have eH : r.harmonicBins = bins := by rw [hr]; rfl
  have eF : r.fundamentalBin = (locateFundamental r.power n).1 := by
    conv_lhs => rw [hr]
    rfl
  obtain ⟨m, hmdef⟩ : ∃ m, m = signalPower r.power n (sideBinOf lib a r.N n r.power) r.fundamentalBin := ⟨_, rfl⟩
  have e3 : r.sigPwr = sigPwrDbfs a m := by
    rw [hmdef, eN, eF]
    conv_lhs => rw [hr]
    rfl
  have hsig : sigLinear a m = (10 : ℝ) ^ (r.sigPwr / 10) := by
    have hmeas : a.assumed = none → 1 / 10 ^ 30 ≤ m := by
      intro ha
      have hsp := hlev.resolve_left (by simp [ha])
      by_contra hc
      rw [e3] at hsp
      unfold sigPwrDbfs at hsp
      rw [ha] at hsp
      simp only at hsp
      rw [max_eq_right (not_le.mp hc).le, one_div, Real.logb_inv, Real.logb_pow, Real.logb_self_eq_one (by norm_num)] at hsp
      norm_num at hsp
    rw [e3]
    unfold sigLinear sigPwrDbfs
    cases ha : a.assumed with
    | some v => rfl
    | none =>
      have hm0 : 0 < m := lt_of_lt_of_le (by positivity) (hmeas ha)
      simp only
      rw [max_eq_left (hmeas ha), mul_div_cancel_left₀ _ (by norm_num), Real.rpow_logb (by norm_num) (by norm_num) hm0]
  have e5 : r.snr = noise.map fun w => dB (sigLinear a m / w) := by
    rw [hmdef, eN, eF]
    conv_lhs => rw [hr]
    rfl
  cases noise with
  | none => rw [e5] at hsnr; exact absurd rfl hsnr
  | some w =>
    have hw : 0 < w := lt_of_lt_of_le (by positivity) (C37_estimate_floor _ _ _ _ _ _ _ _ h3)
    have hs : r.snr = some ((noiseMetrics ((10 : ℝ) ^ (r.sigPwr / 10)) w r.sigPwr a.fs a.osr enbw).1 : EReal) := by
      rw [e5, hsig, Option.map_some, dB_pos (by positivity)]
      rfl
    obtain ⟨i1, i2, _⟩ := C62_noise_floor_identities lib data a r h
    have hf : r.noiseFloor = some ((noiseMetrics ((10 : ℝ) ^ (r.sigPwr / 10)) w r.sigPwr a.fs a.osr enbw).2.1 : EReal) := by
      rw [i1 _ hs, ← EReal.coe_sub]
      rfl
    exact ⟨n, w, by rw [eN]; exact hn, by rw [eN, eM, eF, eH]; exact h3, hs, hf, i2 _ hf⟩

/-- A quarter-rate sine with the signal level set to -6 dBFS and the median noise estimate. -/
example (lib : WinLib) : ∃ r noise, computeSpectrum lib [[0, 1, 0, -1]] { scale := .scalar 1, assumed := some (-6), nfMethod := 1 } = .ok r ∧
    r.noiseFloor = some ((noiseMetrics ((10 : ℝ) ^ (r.sigPwr / 10)) noise r.sigPwr 1 1 0).2.1 : EReal) := by
  have hd : prepareFftInput [[(0 : ℝ), 1, 0, -1]] (.scalar 1) = .ok [[0, 1, 0, -1]] := by
    norm_num [prepareFftInput, orient, peakAmplitude, removeDc]
  obtain ⟨r, hr⟩ := (C63_compute_spectrum_total lib _ { scale := .scalar 1, assumed := some (-6), nfMethod := 1 } _ hd (by decide)).mpr
    ⟨by norm_num, by norm_num, by norm_num, by norm_num⟩
  have hsnr : r.snr ≠ none := by
    obtain ⟨d, n, hd', _, _, _, _, _, _, _, _, hm⟩ := computeSpectrum_ok lib _ _ r hr
    obtain ⟨_, _, noise, _, _, h3, e⟩ := spectrumMetrics_ok _ _ _ _ _ _ _ hm
    cases noise with
    | none =>
      unfold estimateNoisePower at h3
      simp at h3
    | some w => rw [e]; simp [assemble]
  obtain ⟨_, w, _, _, _, h, _⟩ := C161_noise_metrics lib _ _ r hr (Or.inl (by simp)) hsnr 0
  exact ⟨r, w, hr, h⟩

/-- **C161 (not what `plotspec.m` computes).** The docstring says "like MATLAB plotspec: single FFT bin per harmonic". `plotspec.m` adds whole lobes, each bin once. One record where the
single bin misses distortion (THD 4 against 6 with one side bin) and one where a bin shared by two harmonics is counted twice (8 against 4); the helper in use agrees with `plotspec.m` on both. -/
theorem C161_not_plotspec :
    harmonicPowerPlotspec ([0, 0, 0, 9, 0, 0, 0, 1, 4, 1, 0, 0] : List ℚ) [8] 3 1 = .ok (4, [4], []) ∧ mlThd ([0, 0, 0, 9, 0, 0, 0, 1, 4, 1, 0, 0] : List ℚ) 12 1 3 [8] = 6 ∧
    (calculateHarmonicPower ([0, 0, 0, 9, 0, 0, 0, 1, 4, 1, 0, 0] : List ℚ) 3 [8] 1).1 = 6 ∧
    locateHarmonicBins (3 : ℚ) 8 15 = .ok [6, 6, 3, 0, 3, 6, 6] ∧
    harmonicPowerPlotspec ([0, 0, 0, 9, 0, 0, 4, 0] : List ℚ) [6, 6] 3 0 = .ok (8, [4, 4], []) ∧ mlThd ([0, 0, 0, 9, 0, 0, 4, 0] : List ℚ) 8 0 3 [6, 6] = 4 ∧
    (calculateHarmonicPower ([0, 0, 0, 9, 0, 0, 4, 0] : List ℚ) 3 [6, 6] 0).1 = 4 := by
  refine ⟨by decide +kernel, by decide +kernel, by decide +kernel, by decide +kernel, by decide +kernel, by decide +kernel, by decide +kernel⟩

/-- Fundamental in bin 3 of a 15-point record, harmonics up to the eighth: four harmonics share bin 6, two collide, one falls on DC. -/
example : harmonicPowerPlotspec ([0, 0, 0, 9, 0, 0, 4, 0] : List ℚ) [6, 6, 3, 0, 3, 6, 6] 3 0 = .ok (16, [4, 4, 1 / 10 ^ 15, 1 / 10 ^ 15, 1 / 10 ^ 15, 4, 4], [4, 6]) := by decide +kernel

/-- A harmonic at the end of the spectrum fails. -/
example : harmonicPowerPlotspec ([0, 0, 0, 9] : List ℚ) [4] 3 0 = .error .indexError := by decide +kernel

end Verif
