import Verif.Model.AutoFreq
import Verif.Model.ErrorDecomp
import Verif.Model.Units

/-!
# Model of the compatibility wrappers

`aout/__init__.py`, `dout/__init__.py`, `common.py`, `spectrum/analyze_spectrum.py`, `spectrum/analyze_spectrum_polar.py`, without drawing.
A dictionary is the list of its entries in insertion order, each key once. Keyword arguments that may be omitted are options.
-/

namespace Verif.Model

open Verif

/-- A dictionary with string keys. -/
abbrev Dict (α : Type) := List (String × α)

/-- `d.get(k)`; `none` when the key is missing. -/
def Dict.get? {α : Type} (d : Dict α) (k : String) : Option α := (d.find? fun e => e.1 == k).map Prod.snd

/-- The old and current metric names. `spectrum/analyze_spectrum.py:17-23`, `aout/__init__.py:56-62`. -/
def legacyAliases : List (String × String) :=
  [("sndr_db", "sndr_dbc"), ("sfdr_db", "sfdr_dbc"), ("snr_db", "snr_dbc"), ("thd_db", "thd_dbc"), ("noise_floor_db", "noise_floor_dbfs")]

/-- One pass of the alias loop. `spectrum/analyze_spectrum.py:24-26`, `aout/__init__.py:63-65`. -/
def addAlias {α : Type} (d : Dict α) (a : String × String) : Dict α :=
  match d.get? a.2, d.get? a.1 with
  | some v, none => d ++ [(a.1, v)]
  | _, _ => d

/-- `_with_legacy_metric_keys` and `_with_legacy_spectrum_keys`. `spectrum/analyze_spectrum.py:15-27`, `aout/__init__.py:54-66`. -/
def withLegacyKeys {α : Type} (d : Dict α) : Dict α := legacyAliases.foldl addAlias d

/-- A metric: a number (`none` for NaN) or the array of harmonic levels. -/
inductive MetricVal where
  | num (v : Option EReal)
  | arr (v : Option (List EReal))

/-- `results['metrics']`. `spectrum/compute_spectrum.py:192-202`. -/
noncomputable def metricsDict (r : SpectrumResult) : Dict MetricVal :=
  [("enob", .num (some r.enob)), ("sndr_dbc", .num (some r.sndr)), ("sfdr_dbc", .num r.sfdr), ("snr_dbc", .num r.snr),
   ("sig_pwr_dbfs", .num (some (r.sigPwr : EReal))), ("noise_floor_dbfs", .num r.noiseFloor),
   ("nsd_dbfs_hz", .num (r.nsd.map fun (v : ℝ) => (v : EReal))), ("thd_dbc", .num r.thd), ("harmonics_dbc", .arr r.harmonics)]

/-- `analyze_spectrum` of the spectrum package without a plot. `spectrum/analyze_spectrum.py:30-104`; it has no `cutoff_freq`. -/
noncomputable def analyzeSpectrum (lib : WinLib) (data : List (List ℝ)) (a : SpectrumArgs) : Py (Dict MetricVal) :=
  match computeSpectrum lib data { a with cutoff := 0 } with
  | .error e => .error e
  | .ok r => .ok (withLegacyKeys (metricsDict r))

/-- `analyze_spectrum_virtuoso`: the same with another default window. `spectrum/analyze_spectrum.py:107-154`. -/
noncomputable def analyzeSpectrumVirtuoso (lib : WinLib) (data : List (List ℝ)) (a : SpectrumArgs) (win : Option String) : Py (Dict MetricVal) :=
  analyzeSpectrum lib data { a with win := win.getD "rectangular" }

/-- `analyze_spectrum_polar`. `spectrum/analyze_spectrum_polar.py:16-64`. The remaining arguments of `compute_spectrum` keep their
defaults. -/
noncomputable def analyzeSpectrumPolar (lib : WinLib) (data : List (List ℝ)) (maxCode : ScaleRange ℝ) (harmonic : ℕ) (osr cutoff fs : ℝ)
    (win : String) : Py (Dict MetricVal) :=
  match computeSpectrum lib data { scale := maxCode, osr := osr, cutoff := cutoff, fs := fs, win := win, coherent := true, maxHarmonic := max 3 harmonic } with
  | .error e => .error e
  | .ok r => .ok (metricsDict r)

/-- `adctoolbox.aout.analyze_spectrum(..., n_thd=..., max_harmonic=...)`. `aout/__init__.py:69-79`. -/
noncomputable def aoutAnalyzeSpectrum (lib : WinLib) (data : List (List ℝ)) (a : SpectrumArgs) (nThd maxHarmonic : Option ℕ) : Py (Dict MetricVal) :=
  let given : Option ℕ := match nThd, maxHarmonic with
    | some n, none => some n
    | _, m => m
  match analyzeSpectrum lib data { a with maxHarmonic := given.getD 5 } with
  | .error e => .error e
  | .ok d => .ok (withLegacyKeys d)

/-- `decompose_harmonics(signal, freq, harmonic)`. `aout/__init__.py:82-96` through `aout/analyze_decomposition_time.py:8-70`; the
tolerance keeps its default. -/
noncomputable def decomposeHarmonics (solve : Lstsq) (runs n : ℕ) (x : ℕ → ℕ → ℝ) (freq : Option ℝ) (H : ℤ) :
    Py ((ℕ → ℝ) × (ℕ → ℝ) × (ℕ → ℝ) × (ℕ → ℝ)) :=
  match decomposeHarmonic solve runs n x H freq (if freq.isSome then 0 else 1) (1 / 10 ^ 9) with
  | .error e => .error e
  | .ok r => .ok (r.fundamental, (fun t => r.harmonic t + r.noiseResidual t), r.harmonic, r.noiseResidual)

/-- `plot_error_autocorr(error_signal, max_lag, normalize)`. `aout/__init__.py:113-121`; frequency, iterations and tolerance keep the
defaults of `analyze_error_autocorr` (`aout/analyze_error_autocorr.py:15-17`). -/
noncomputable def plotErrorAutocorr (solve : Lstsq) (n : ℕ) (e : ℕ → ℝ) (maxLag : ℤ) (normalize : Bool) : Py (List (Option ℝ) × List ℤ) :=
  match errorAutocorr solve n e none maxLag normalize 1 (1 / 10 ^ 9) with
  | .error er => .error er
  | .ok r => .ok (r.acf, r.lags)

/-- The keys of the dictionary that `rearrange_error_by_value` returns. `aout/rearrange_error_by_value.py:101-116`. -/
def valueKeys (returnFit : Bool) : List String :=
  ["error_mean", "error_rms", "bin_centers", "value_bin_centers", "count_per_bin", "bin_indices", "error", "fitted_signal", "n_bins", "norm_freq"]
    ++ if returnFit then ["fit"] else []

/-- The keys of the dictionary that `rearrange_error_by_phase` returns. `aout/rearrange_error_by_phase.py:191-226`. -/
def phaseKeys (returnFit : Bool) : List String :=
  ["am_noise_rms_v", "am_relative", "pm_noise_rms_v", "pm_noise_rms_rad", "base_noise_rms_v", "total_rms_v", "r_squared_raw", "r_squared_binned",
   "bin_error_rms_v", "bin_error_mean_v", "phase_bin_centers_rad", "bin_counts", "amplitude", "dc_offset", "norm_freq", "fitted_signal", "error",
   "phase", "_coeffs_raw", "_coeffs_plot", "_include_base_noise"] ++ if returnFit then ["fit"] else []

/-- The tuple `plot_error_hist_code` builds from the result dictionary. `aout/__init__.py:158-164`. -/
def histCodeTuple {α : Type} (d : Dict α) : List (Option α) :=
  ["error_mean", "error_rms", "bin_centers", "error", "value"].map d.get?

/-- The tuple `plot_error_hist_phase` builds from the result dictionary. `aout/__init__.py:138-146`. -/
def histPhaseTuple {α : Type} (d : Dict α) : List (Option α) :=
  ["bin_error_mean_v", "bin_error_rms_v", "phase_bin_centers_rad", "am_noise_rms_v", "pm_noise_rms_v", "error", "phase"].map d.get?

/-- `adctoolbox.dout.calibrate_weight_sine(..., order=..., harmonic_order=...)`: the historical tuple. `dout/__init__.py:28-40`; without
either the order keeps its default of one (`calibration/calibrate_weight_sine.py:28-38`). -/
noncomputable def doutCalibrate (lib : WinLib) (solve : Lstsq) (argsort : List ℕ → List ℕ) (segs : List (List (List ℝ))) (freq : FreqArg)
    (force : Option Bool) (given : Option (List ℝ)) (order harmonicOrder : Option ℕ) (lr reltol : ℝ) (maxIter : ℕ) : Py CalResult :=
  let H : Option ℕ := match order, harmonicOrder with
    | some n, none => some n
    | _, m => m
  calibrateAuto lib solve argsort segs freq force given (H.getD 1) lr reltol maxIter

/-- `adctoolbox.common.snr_to_nsd(snr, fs, osr, psignal_dbfs=..., signal_pwr_dbfs=...)` called with keywords. `common.py:23-27`. -/
noncomputable def commonSnrToNsd (snr fs osr : ℝ) (psignal signalPwr : Option ℝ) : ℝ := snrToNsd snr fs osr ((signalPwr <|> psignal).getD 0)

/-- `adctoolbox.common.nsd_to_snr` called with keywords. `common.py:30-34`. -/
noncomputable def commonNsdToSnr (nsd fs osr : ℝ) (psignal signalPwr : Option ℝ) : ℝ := nsdToSnr nsd fs osr ((signalPwr <|> psignal).getD 0)

end Verif.Model
