import Verif.Model.Compat
import Verif.Theorems.HarmonicSplit
import Verif.Theorems.ErrorAcf
import Verif.Theorems.SineFit
import Verif.Theorems.SpectrumEngine
import Verif.Theorems.Units
import Verif.Theorems.Mismatch

/-!
# C85: the compatibility wrappers
-/

namespace Verif.Spec

/-- Metric names used before version 0.8 and the names in use now. -/
def renamedMetrics : List (String × String) :=
  [("sndr_db", "sndr_dbc"), ("sfdr_db", "sfdr_dbc"), ("snr_db", "snr_dbc"), ("thd_db", "thd_dbc"), ("noise_floor_db", "noise_floor_dbfs")]

/-- The autocorrelation of a record at a non-negative lag: the mean product of samples that far apart. -/
noncomputable def recordAcf (n : ℕ) (e : ℕ → ℝ) (lag : ℕ) : ℝ := (∑ t ∈ Finset.range (n - lag), e t * e (t + lag)) / ((n : ℝ) - lag)

end Verif.Spec

namespace Verif

open Model Spec Finset

/-! ## Metric names -/

theorem addAlias_get {α : Type} (d : Dict α) (a : String × String) (k : String) :
    (addAlias d a).get? k = if k = a.1 ∧ d.get? a.1 = none then d.get? a.2 else d.get? k := by
  unfold addAlias
  cases h2 : d.get? a.2 with
  | none =>
    cases h1 : d.get? a.1 with
    | none =>
      simp only [and_true]
      split_ifs with h
      · rw [h, h1]
      · rfl
    | some w => simp
  | some v =>
    cases h1 : d.get? a.1 with
    | some w => simp
    | none =>
      simp only [and_true]
      unfold Dict.get? at h1 ⊢
      rw [List.find?_append]
      split_ifs with h
      · subst h
        rw [Option.map_eq_none_iff] at h1
        rw [h1]
        simp
      · have : ([(a.1, v)] : List (String × α)).find? (fun e => e.1 == k) = none := by
          rw [List.find?_singleton]
          have : ¬ a.1 = k := fun e => h e.symm
          simp [this]
        rw [this, Option.or_none]

/-- **C85 (metric names).** Adding the old names leaves every current entry as it is; an old name that is not yet present gets the value
of its current name, one that is present keeps its own. -/
theorem C85_legacy_names {α : Type} (d : Dict α) :
    (∀ k, (∀ p ∈ renamedMetrics, k ≠ p.1) → (withLegacyKeys d).get? k = d.get? k) ∧
    ∀ p ∈ renamedMetrics, (withLegacyKeys d).get? p.1 = (d.get? p.1 <|> d.get? p.2) := by
  unfold withLegacyKeys legacyAliases
  simp only [List.foldl_cons, List.foldl_nil]
  constructor
  · intro k hk
    simp only [renamedMetrics, List.mem_cons, List.not_mem_nil, or_false, forall_eq_or_imp, forall_eq] at hk
    obtain ⟨h1, h2, h3, h4, h5⟩ := hk
    simp only [addAlias_get, h1, h2, h3, h4, h5, false_and, if_false]
  · intro p hp
    simp only [renamedMetrics, List.mem_cons, List.not_mem_nil, or_false] at hp
    rcases hp with rfl | rfl | rfl | rfl | rfl <;>
    · simp only [addAlias_get, String.reduceEq, false_and, if_false, true_and]
      split_ifs with h
      · rw [h]; rfl
      · obtain ⟨v, hv⟩ := Option.ne_none_iff_exists'.mp h
        rw [hv]; rfl

/-- **C85 (old names twice).** Adding the old names to a dictionary that already has them changes nothing. -/
theorem C85_legacy_idempotent {α : Type} (d : Dict α) (k : String) : (withLegacyKeys (withLegacyKeys d)).get? k = (withLegacyKeys d).get? k := by
  obtain ⟨a, b⟩ := C85_legacy_names (withLegacyKeys d)
  by_cases h : ∀ p ∈ renamedMetrics, k ≠ p.1
  · exact a k h
  · push Not at h
    obtain ⟨p, hp, rfl⟩ := h
    rw [b p hp]
    obtain ⟨a', b'⟩ := C85_legacy_names d
    have hnew : (withLegacyKeys d).get? p.2 = d.get? p.2 := by
      apply a'
      simp only [renamedMetrics, List.mem_cons, List.not_mem_nil, or_false] at hp ⊢
      rcases hp with rfl | rfl | rfl | rfl | rfl <;> simp
    rw [hnew, b' p hp]
    cases d.get? p.1 <;> cases d.get? p.2 <;> rfl

/-- **C85 (spectrum wrapper).** `adctoolbox.aout.analyze_spectrum` returns the metrics of `compute_spectrum` under the current names and the
same values under the old ones; `n_thd` sets the number of harmonics unless `max_harmonic` is given too. -/
theorem C85_spectrum_wrapper (lib : WinLib) (data : List (List ℝ)) (a : SpectrumArgs) (nThd maxHarmonic : Option ℕ) :
    (∀ e, aoutAnalyzeSpectrum lib data a nThd maxHarmonic = .error e ↔
      computeSpectrum lib data { a with cutoff := 0, maxHarmonic := (maxHarmonic <|> nThd).getD 5 } = .error e) ∧
    ∀ d, aoutAnalyzeSpectrum lib data a nThd maxHarmonic = .ok d →
      ∃ r, computeSpectrum lib data { a with cutoff := 0, maxHarmonic := (maxHarmonic <|> nThd).getD 5 } = .ok r ∧
        d.get? "enob" = some (.num (some r.enob)) ∧ d.get? "sndr_dbc" = some (.num (some r.sndr)) ∧ d.get? "sndr_db" = some (.num (some r.sndr)) ∧
        d.get? "sfdr_dbc" = some (.num r.sfdr) ∧ d.get? "sfdr_db" = some (.num r.sfdr) ∧ d.get? "snr_dbc" = some (.num r.snr) ∧
        d.get? "snr_db" = some (.num r.snr) ∧ d.get? "thd_dbc" = some (.num r.thd) ∧ d.get? "thd_db" = some (.num r.thd) ∧
        d.get? "noise_floor_dbfs" = some (.num r.noiseFloor) ∧ d.get? "noise_floor_db" = some (.num r.noiseFloor) := by
  have hg : aoutAnalyzeSpectrum lib data a nThd maxHarmonic
      = match computeSpectrum lib data { a with cutoff := 0, maxHarmonic := (maxHarmonic <|> nThd).getD 5 } with
        | .error e => .error e
        | .ok r => .ok (withLegacyKeys (withLegacyKeys (metricsDict r))) := by
    have key : ∀ x : Py SpectrumResult, (match (match x with | .error e => .error e | .ok r => .ok (withLegacyKeys (metricsDict r)) : Py (Dict MetricVal)) with
          | .error e => .error e
          | .ok d => .ok (withLegacyKeys d) : Py (Dict MetricVal))
        = match x with | .error e => .error e | .ok r => .ok (withLegacyKeys (withLegacyKeys (metricsDict r))) := by
      intro x; cases x <;> rfl
    cases nThd <;> cases maxHarmonic <;> exact key _
  rw [hg]
  cases hc : computeSpectrum lib data { a with cutoff := 0, maxHarmonic := (maxHarmonic <|> nThd).getD 5 } with
  | error e => simp
  | ok r =>
    refine ⟨by simp, ?_⟩
    intro d hd
    simp only at hd
    injection hd with hd
    refine ⟨r, rfl, ?_⟩
    rw [← hd]
    simp only [C85_legacy_idempotent]
    obtain ⟨p, q⟩ := C85_legacy_names (metricsDict r)
    have cur : ∀ k, (∀ p ∈ renamedMetrics, k ≠ p.1) → (withLegacyKeys (metricsDict r)).get? k = (metricsDict r).get? k := p
    refine ⟨?_, ?_, ?_, ?_, ?_, ?_, ?_, ?_, ?_, ?_, ?_⟩
    · rw [cur _ (by simp [renamedMetrics])]; rfl
    · rw [cur _ (by simp [renamedMetrics])]; rfl
    · rw [q ("sndr_db", "sndr_dbc") (by simp [renamedMetrics])]; rfl
    · rw [cur _ (by simp [renamedMetrics])]; rfl
    · rw [q ("sfdr_db", "sfdr_dbc") (by simp [renamedMetrics])]; rfl
    · rw [cur _ (by simp [renamedMetrics])]; rfl
    · rw [q ("snr_db", "snr_dbc") (by simp [renamedMetrics])]; rfl
    · rw [cur _ (by simp [renamedMetrics])]; rfl
    · rw [q ("thd_db", "thd_dbc") (by simp [renamedMetrics])]; rfl
    · rw [cur _ (by simp [renamedMetrics])]; rfl
    · rw [q ("noise_floor_db", "noise_floor_dbfs") (by simp [renamedMetrics])]; rfl

/-! ## Windows and polar view -/

/-- **C85 (rectangular window).** The Virtuoso variant with its default window reports what `analyze_spectrum` reports for `boxcar`, and with
a given window exactly what `analyze_spectrum` reports for it. -/
theorem C85_virtuoso (lib : WinLib) (data : List (List ℝ)) (a : SpectrumArgs) (w : String) :
    analyzeSpectrumVirtuoso lib data a none = analyzeSpectrum lib data { a with win := "boxcar" } ∧
    analyzeSpectrumVirtuoso lib data a (some w) = analyzeSpectrum lib data { a with win := w } := by
  refine ⟨?_, rfl⟩
  have hw : ∀ N, windowVector lib "rectangular" N = windowVector lib "boxcar" N := by
    intro N; unfold windowVector; simp
  unfold analyzeSpectrumVirtuoso analyzeSpectrum
  simp only [Option.getD_none]
  have : computeSpectrum lib data { a with win := "rectangular", cutoff := 0 } = computeSpectrum lib data { a with win := "boxcar", cutoff := 0 } := by
    unfold computeSpectrum spectrumMetrics rawSpectrum sideBinOf
    simp only [hw]
    rfl
  rw [this]

/-- **C85 (polar view).** The polar analysis reports the coherently averaged metrics of `compute_spectrum` with at least three harmonics:
asking for fewer changes nothing. -/
theorem C85_polar (lib : WinLib) (data : List (List ℝ)) (maxCode : ScaleRange ℝ) (harmonic : ℕ) (osr fs : ℝ) (win : String) :
    (∀ d, analyzeSpectrumPolar lib data maxCode harmonic osr 0 fs win = .ok d →
      ∃ d', analyzeSpectrum lib data { scale := maxCode, osr := osr, fs := fs, win := win, coherent := true, maxHarmonic := max 3 harmonic } = .ok d' ∧
        ∀ k, (∀ p ∈ renamedMetrics, k ≠ p.1) → d.get? k = d'.get? k) ∧
    (harmonic ≤ 3 → ∀ cutoff, analyzeSpectrumPolar lib data maxCode harmonic osr cutoff fs win = analyzeSpectrumPolar lib data maxCode 3 osr cutoff fs win) := by
  constructor
  · intro d hd
    unfold analyzeSpectrumPolar at hd
    unfold analyzeSpectrum
    simp only at hd ⊢
    cases hc : computeSpectrum lib data { scale := maxCode, osr := osr, cutoff := 0, fs := fs, win := win, coherent := true, maxHarmonic := max 3 harmonic } with
    | error e => rw [hc] at hd; cases hd
    | ok r =>
      rw [hc] at hd
      injection hd with hd
      refine ⟨_, rfl, ?_⟩
      intro k hk
      rw [(C85_legacy_names _).1 k hk, ← hd]
  · intro h cutoff
    unfold analyzeSpectrumPolar
    rw [max_eq_left h, max_self]

/-! ## Decomposition -/

/-- **C85 (decomposition tuple).** The four records of `decompose_harmonics`: the error is harmonics plus noise, and fundamental plus error is the
record (the average of the runs) at every sample. A given frequency is used as it is. -/
theorem C85_decompose_tuple (solve : Lstsq) (hs : IsLstsq solve) (runs n : ℕ) (hn : n ≠ 1) (x : ℕ → ℕ → ℝ) (freq : Option ℝ) (H : ℤ)
    (fund err harm noise : ℕ → ℝ) (h : decomposeHarmonics solve runs n x freq H = .ok (fund, err, harm, noise)) :
    (∀ t, err t = harm t + noise t) ∧ (∀ t, fund t + err t = averageRecord runs x t) ∧
    (∀ f, freq = some f → ∀ k : ℕ, k < H → ∑ t ∈ range n, noise t * Real.cos (((k : ℝ) + 1) * (2 * Real.pi * f * t)) = 0 ∧
      ∑ t ∈ range n, noise t * Real.sin (((k : ℝ) + 1) * (2 * Real.pi * f * t)) = 0) := by
  unfold decomposeHarmonics at h
  cases hd : decomposeHarmonic solve runs n x H freq (if freq.isSome then 0 else 1) (1 / 10 ^ 9) with
  | error e => rw [hd] at h; cases h
  | ok r =>
    rw [hd] at h
    injection h with h
    simp only [Prod.mk.injEq] at h
    obtain ⟨rfl, rfl, rfl, rfl⟩ := h
    obtain ⟨h1, _, _, h4, _⟩ := C51_split solve hs runs n hn x H freq _ _ r hd
    refine ⟨fun _ => rfl, fun t => by rw [← h1 t]; ring, ?_⟩
    intro f hf k hk
    subst hf
    have hH : 0 < H := lt_of_le_of_lt (Int.natCast_nonneg k) hk
    obtain ⟨r', hr', hff⟩ := (C51_frequency solve runs n x H f (1 / 10 ^ 9) 0).2.1 hH
    simp only [Option.isSome_some, if_true] at hd
    rw [hd] at hr'
    injection hr' with hr'
    subst hr'
    have := h4 k hk
    rwa [hff rfl] at this

/-! ## Autocorrelation of an error record -/

/-- **C85 (autocorrelation wrapper, refuted).** `plot_error_autocorr` is documented to take a precomputed error record. It removes a fitted
sine from it first: for an error that is a tone on FFT bin `k` it returns zero at every lag (undefined values when normalising),
although the autocorrelation of that record at lag zero is half the squared amplitude. -/
theorem C85_autocorr_refits (solve : Lstsq) (hs : IsLstsq solve) (n k : ℕ) (hn : 5 ≤ n) (hbig : n ≤ 10 ^ 9) (hk : 0 < k) (hlast : k < n / 2)
    (A θ : ℝ) (hA : 0 < A) (ht0 : -Real.pi < θ) (ht1 : θ ≤ Real.pi) (e : ℕ → ℝ) (he : ∀ t < n, e t = sineAt A ((k : ℝ) / n) θ 0 t)
    (L : ℕ) (hL : L < n) :
    recordAcf n e 0 = A ^ 2 / 2 ∧
    (∃ lags, plotErrorAutocorr solve n e L false = .ok (List.replicate (2 * L + 1) (some 0), lags)) ∧
    (∃ lags, plotErrorAutocorr solve n e L true = .ok (List.replicate (2 * L + 1) none, lags)) := by
  obtain ⟨fit, hfit, _, _, _, _, hres, _⟩ := C58_coherent_recovery solve hs n k hn hbig hk hlast A θ 0 hA ht0 ht1 1 (1 / 10 ^ 9) e he
  have htot : ∀ b, ∃ r, errorAutocorr solve n e none L b 1 (1 / 10 ^ 9) = .ok r := by
    intro b
    obtain ⟨r, hr⟩ := (C52_errors solve n e fit.initialFrequency L b 1 (1 / 10 ^ 9)).1 hL
    refine ⟨r, ?_⟩
    unfold errorAutocorr at hr ⊢
    rw [show fitCore solve n e none 1 (1 / 10 ^ 9) = fitCore solve n e (some fit.initialFrequency) 1 (1 / 10 ^ 9) from ?_]
    · exact hr
    · have hfit' : fitCore solve n e none 1 (1 / 10 ^ 9) = .ok fit := by exact_mod_cast hfit
      have hfit'' := hfit'
      unfold fitCore at hfit'' ⊢
      cases hf0 : estimateFreq n e with
      | error er => simp only [hf0] at hfit''; cases hfit''
      | ok f0 =>
        simp only [hf0] at hfit''
        injection hfit'' with hfit''
        have : fit.initialFrequency = f0 := by rw [← hfit'']; rfl
        rw [this]
  have hzero : ∀ b r, errorAutocorr solve n e none L b 1 (1 / 10 ^ 9) = .ok r → r.acf = List.replicate (2 * L + 1) (if b then none else some 0) := by
    intro b r hr
    obtain ⟨raw, fit', hfit', herr, _⟩ := acf_ok solve n e none L b 1 (1 / 10 ^ 9) r hr
    have hsame : fit' = fit := by
      have : fitCore solve n e none 1 (1 / 10 ^ 9) = .ok fit := by exact_mod_cast hfit
      rw [this] at hfit'
      injection hfit' with h
      exact h.symm
    have hz : ∀ t < n, centred n r.err t = 0 := by
      have h0 : ∀ t < n, r.err t = 0 := by
        intro t ht
        have : r.err t = e t - fit.fitted t := by rw [herr, hsame]
        rw [this, (hres t ht).1]; ring
      intro t ht
      unfold centred
      rw [h0 t ht]
      have : ∑ t ∈ range n, r.err t = 0 := sum_eq_zero fun t ht => h0 t (mem_range.mp ht)
      simp [this]
    obtain ⟨_, hlen, hv⟩ := C52_values solve n e none L hL b 1 (1 / 10 ^ 9) r hr
    apply List.ext_getElem?
    intro i
    by_cases hi : i < 2 * L + 1
    · rw [(hv i hi).2, List.getElem?_replicate, if_pos hi]
      have hc : ∀ m, autocov n (centred n r.err) m = 0 := by
        intro m
        unfold autocov
        rw [sum_eq_zero, zero_div]
        intro t ht
        rw [hz t (by have := mem_range.mp ht; omega), zero_mul]
      simp only [hc, if_true]
    · rw [List.getElem?_eq_none (by omega), List.getElem?_replicate, if_neg hi]
  refine ⟨?_, ?_, ?_⟩
  · have hnR : (n : ℝ) ≠ 0 := by exact_mod_cast (by omega : n ≠ 0)
    have hz := sum_cos_zero n (by omega) (2 * k : ℤ) (by
      intro ⟨c, hc⟩
      have h2 : 2 * (k : ℤ) < n := by exact_mod_cast (by omega : 2 * k < n)
      have h3 : 0 < (n : ℤ) * c := by rw [← hc]; positivity
      have h4 : 0 < c := by
        by_contra hneg
        have : (n : ℤ) * c ≤ 0 := mul_nonpos_of_nonneg_of_nonpos (by positivity) (by omega)
        omega
      nlinarith) (2 * θ)
    unfold recordAcf
    simp only [Nat.sub_zero, add_zero, Nat.cast_zero, sub_zero]
    have hsum : ∑ t ∈ range n, e t * e t = n * (A ^ 2 / 2) := by
      have : ∀ t ∈ range n, e t * e t = A ^ 2 / 2 + A ^ 2 / 2 * Real.cos (2 * Real.pi * (((2 * k : ℤ) : ℝ) * t / n) + 2 * θ) := by
        intro t ht
        rw [he t (mem_range.mp ht)]
        unfold sineAt
        have h := Real.cos_sq (2 * Real.pi * ((k : ℝ) / n) * t + θ)
        have harg : 2 * (2 * Real.pi * ((k : ℝ) / n) * t + θ) = 2 * Real.pi * (((2 * k : ℤ) : ℝ) * t / n) + 2 * θ := by
          push_cast; ring
        rw [harg] at h
        linear_combination A ^ 2 * h
      rw [sum_congr rfl this, sum_add_distrib, ← mul_sum, hz]
      simp
    rw [hsum]
    field_simp
  · obtain ⟨r, hr⟩ := htot false
    refine ⟨r.lags, ?_⟩
    unfold plotErrorAutocorr
    rw [hr]
    simp only
    rw [hzero false r hr]
    rfl
  · obtain ⟨r, hr⟩ := htot true
    refine ⟨r.lags, ?_⟩
    unfold plotErrorAutocorr
    rw [hr]
    simp only
    rw [hzero true r hr]
    rfl

/-! ## Histogram tuples -/

/-- **C85 (histogram tuples).** Every entry of the tuple of `plot_error_hist_phase` is present in the dictionary it reads. The last entry of the
tuple of `plot_error_hist_code` never is: it is `None` for every input. -/
theorem C85_histogram_tuples {α : Type} (d d' : Dict α) (b b' : Bool) (hd : d.map Prod.fst = phaseKeys b) (hd' : d'.map Prod.fst = valueKeys b') :
    (∀ v ∈ histPhaseTuple d, v ≠ none) ∧ (histCodeTuple d').length = 5 ∧ (∀ i < 4, (histCodeTuple d')[i]? ≠ some none) ∧ (histCodeTuple d')[4]? = some none := by
  have hget : ∀ (x : Dict α) (k : String), x.get? k = none ↔ k ∉ x.map Prod.fst := by
    intro x k
    unfold Dict.get?
    rw [Option.map_eq_none_iff, List.find?_eq_none]
    simp only [beq_iff_eq, List.mem_map, not_exists, not_and]
  have h1 : ∀ k ∈ ["bin_error_mean_v", "bin_error_rms_v", "phase_bin_centers_rad", "am_noise_rms_v", "pm_noise_rms_v", "error", "phase"], d.get? k ≠ none := by
    intro k hk
    rw [Ne, hget, hd, not_not]
    simp only [List.mem_cons, List.not_mem_nil, or_false] at hk
    unfold phaseKeys
    rw [List.mem_append]
    left
    rcases hk with rfl | rfl | rfl | rfl | rfl | rfl | rfl <;> simp
  have h2 : ∀ k ∈ ["error_mean", "error_rms", "bin_centers", "error"], d'.get? k ≠ none := by
    intro k hk
    rw [Ne, hget, hd', not_not]
    simp only [List.mem_cons, List.not_mem_nil, or_false] at hk
    unfold valueKeys
    rw [List.mem_append]
    left
    rcases hk with rfl | rfl | rfl | rfl <;> simp
  have h3 : d'.get? "value" = none := by
    rw [hget, hd']
    unfold valueKeys
    cases b' <;> simp
  refine ⟨?_, rfl, ?_, ?_⟩
  · intro v hv
    unfold histPhaseTuple at hv
    obtain ⟨k, hk, rfl⟩ := List.mem_map.mp hv
    exact h1 k hk
  · intro i hi
    unfold histCodeTuple
    interval_cases i <;> simp [h2]
  · unfold histCodeTuple
    simp [h3]

/-! ## Calibration tuple and level arguments -/

/-- **C85 (harmonic order).** In the old calibration call `order` counts unless `harmonic_order` is given too; without both the order is one. -/
theorem C85_calibration_order (lib : WinLib) (solve : Lstsq) (argsort : List ℕ → List ℕ) (segs : List (List (List ℝ))) (freq : FreqArg)
    (force : Option Bool) (given : Option (List ℝ)) (order harmonicOrder : Option ℕ) (lr reltol : ℝ) (maxIter : ℕ) :
    doutCalibrate lib solve argsort segs freq force given order harmonicOrder lr reltol maxIter
      = calibrateAuto lib solve argsort segs freq force given ((harmonicOrder <|> order).getD 1) lr reltol maxIter := by
  unfold doutCalibrate
  cases order <;> cases harmonicOrder <;> rfl

/-- **C85 (signal level).** With the old argument name the two conversions are inverse to each other at any signal level, and the result is
`level - snr - 10 log10(fs / (2 osr))`; when both names are given the old one counts. -/
theorem C85_signal_level (snr fs osr level : ℝ) (hfs : 0 < fs) (ho : 0 < osr) (p : Option ℝ) :
    commonSnrToNsd snr fs osr p (some level) = level - snr - 10 * Real.logb 10 (fs / (2 * osr)) ∧
    commonNsdToSnr (commonSnrToNsd snr fs osr p (some level)) fs osr p (some level) = snr ∧
    commonSnrToNsd snr fs osr (some level) none = commonSnrToNsd snr fs osr p (some level) ∧
    commonSnrToNsd snr fs osr none none = commonSnrToNsd snr fs osr p (some 0) := by
  refine ⟨?_, ?_, rfl, rfl⟩
  · show snrToNsd snr fs osr level = _
    rw [← (C08_nsd_implementations_agree snr fs osr level hfs ho).1]
    unfold unitsSnrToNsd log10
    ring
  · exact (C08_nsd_round_trips snr fs osr level hfs ho).2.2.1

/-! ## Concrete cases -/

/-- A dictionary from an older release: `snr_db` is kept, `sndr_db` is filled in, a missing metric stays missing. -/
example : (withLegacyKeys [("enob", 12), ("sndr_dbc", 74), ("snr_dbc", 75), ("snr_db", 1)] : Dict ℕ)
    = [("enob", 12), ("sndr_dbc", 74), ("snr_dbc", 75), ("snr_db", 1), ("sndr_db", 74)] := by decide +kernel

/-- The value tuple of a two-bin result without its `value` entry. -/
example : histCodeTuple ((valueKeys false).map fun k => (k, k.length)) = [some 10, some 9, some 11, some 5, none] := by decide +kernel

/-- A tone on bin 3 of 16 samples passed as an error record: its power is 2, the wrapper reports 0 at all five lags. -/
example : ∃ (solve : Lstsq) (lags : List ℤ), recordAcf 16 (sineAt 2 ((3 : ℕ) / (16 : ℕ)) 1 0) 0 = 2 ∧
    plotErrorAutocorr solve 16 (sineAt 2 ((3 : ℕ) / (16 : ℕ)) 1 0) 2 false = .ok ([some 0, some 0, some 0, some 0, some 0], lags) := by
  obtain ⟨solve, hs⟩ := exists_lstsq
  have h3 := Real.pi_gt_three
  obtain ⟨h0, ⟨lags, h⟩, _⟩ := C85_autocorr_refits solve hs 16 3 (by norm_num) (by norm_num) (by norm_num) (by norm_num) 2 1 (by norm_num) (by linarith) (by linarith)
    (sineAt 2 ((3 : ℕ) / (16 : ℕ)) 1 0) (fun _ _ => rfl) 2 (by norm_num)
  exact ⟨solve, lags, by rw [h0]; norm_num, h⟩

/-- A decomposition the tuple theorem applies to: a given frequency and one harmonic. -/
example : ∃ (solve : Lstsq) (r : (ℕ → ℝ) × (ℕ → ℝ) × (ℕ → ℝ) × (ℕ → ℝ)), IsLstsq solve ∧
    decomposeHarmonics solve 1 8 (fun _ t => (t : ℝ)) (some (1 / 8)) 1 = .ok r := by
  obtain ⟨solve, hs⟩ := exists_lstsq
  obtain ⟨r, hr, _⟩ := (C51_frequency solve 1 8 (fun _ t => (t : ℝ)) 1 (1 / 8) (1 / 10 ^ 9) 0).2.1 (by norm_num)
  have h : ∃ q, decomposeHarmonics solve 1 8 (fun _ t => (t : ℝ)) (some (1 / 8)) 1 = .ok q := by
    unfold decomposeHarmonics
    simp only [Option.isSome_some, if_true]
    rw [hr]
    exact ⟨_, rfl⟩
  obtain ⟨q, hq⟩ := h
  exact ⟨solve, q, hs, hq⟩

/-- A 40 dB signal-to-noise ratio at -6 dBFS over a 0.5 Hz band: `-46 - 10 log10 0.5`. -/
example : commonSnrToNsd 40 1 1 (some 3) (some (-6)) = -6 - 40 - 10 * Real.logb 10 (1 / (2 * 1)) :=
  (C85_signal_level 40 1 1 (-6) (by norm_num) (by norm_num) (some 3)).1

end Verif
