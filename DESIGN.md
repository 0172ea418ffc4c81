# Formal model of ADCToolbox (python package) in Lean 4

Source: `/repo` (pinned), package `python/src/adctoolbox`. All paths below are relative to it.

## Layout

* `lean/Verif/Np/*`       – the Python and numpy primitives the code uses (rounding, slicing, lists, DFT, argmax, median, ...).
* `lean/Verif/Model/*`    – the code, function by function; every definition cites file and lines and says where it simplifies.
* `lean/Verif/Spec/*`     – small specifications, written without the model's helpers. Some specifications live at the top of the theorem file that uses them.
* `lean/Verif/Proofs/*`   – helper lemmas.
* `lean/Verif/Theorems/*` – the property theorems (names start with the property id), with non-vacuity `example`s.
* `properties.jsonl`, `MANIFEST.json` – the properties and the theorems that settle them.
* `seeded/LOG.jsonl` – wrong programs tried against the theorems.

## Trusted base

* Lean 4.33.0's kernel and the Mathlib library text (re-checked by the kernel).
* Axioms: only `propext`, `Classical.choice`, `Quot.sound`, for every theorem in `MANIFEST.json`. No project axioms, no `sorry`, no
  `native_decide`/`bv_decide`.
* The reading of the Python source. The code is not executed here.

### What the numbers are

* Floats are modelled as exact numbers: an arbitrary linearly ordered field where possible, ℝ or ℂ where sines or transforms occur, `EReal` for dB
  values that may be ±∞. Rounding, overflow, NaN and infinities are **not** modelled, except in `Model/Validate.lean`, whose inputs carry NaN and infinity
  explicitly. Numpy `int64` is unbounded `Int`.
* C106 is the exception: `Model/Float64Ops.lean` repeats the functions that turn numbers into bins, codes and indices with every operation rounded to a 53-bit
  significand, ties to even (`Np/Float64.lean`). The exponent is unbounded there, so overflow and subnormal numbers are left out. Sums (`@`, `np.sum`) may be
  evaluated in any order and grouping (`FlSum`).
* Division by zero gives 0 in the model. Numpy would give inf or NaN. Where this matters a definition comment says so: the overflow report with zero weight sum,
  the sine DNL with an empty interior, `log` of zero signal power in the real-valued metrics, a zero nominal founder weight in the rank patch (the code also sets
  ratio 0 there).

### Library calls

* `numpy.fft`: the defining sums. `numpy.linalg.lstsq`/`scipy.linalg.lstsq`: a parameter; theorems hold for every solver that returns some least-squares
  solution (`IsLstsq`), or for any function at all where the theorem says so. C105 alone also uses that numpy picks the solution of smallest norm (`IsMinNormLstsq`). `matrix_rank`: exact rank. `polyfit` of degree 1: its closed form; of
  higher degree: the solver applied to the scaled Vandermonde columns, without the `rcond` cut-off.
* `scipy.signal.lfilter`, `numpy.percentile`, `filecmp.dircmp`, `shutil.copytree`: from their documentation.
* `argparse` for the one parser of `skill_cli.py`: from the Python 3.11 source; lines with `--` or letters glued to `-h` are outside the model (`Model/SkillCli`).
* `scipy.signal.butter(2, Wn)` by its formula (prewarped bilinear map of the analog prototype) and `scipy.signal.filtfilt` step by step for a filter of second order (odd extension by 9 samples, `lfilter_zi`, forward and backward `lfilter`, refusal of short records): `Model/Drift.lean`.
* `scipy.interpolate.CubicSpline`: any routine that returns a not-a-knot spline as documented (`IsSplineLib`); C142 shows that there is one and that the result does not depend on which.
* Windows: the cosine-sum windows by formula; `kaiser` and `chebwin` are arbitrary weight vectors. Non-zero mean is a hypothesis where needed.
* Random draws: an arbitrary sequence; theorems quantify over every draw. Statistical claims (C86, C87, C141, C144) take the draws as random variables on an arbitrary
  probability space with the stated moments or law; that numpy's generator behaves so is an assumption.
* Sine fit inside the OSR sweep: a parameter in `Model/Osr.lean`, the model of `fit_sine_4param` in `Model/OsrPlot.lean`. The automatic frequency estimate is a parameter of `calibrate` and its own model in `Model/AutoFreq.lean`, which
  `calibrateAuto` puts together. `np.argsort` there: any sorting permutation.
* `side_bin` given by the user is a natural number in `compute_spectrum` (a negative one is covered for `quick_sndr` only). `fs > 0` is a hypothesis.
* File system: a map from directory paths to entries. Different paths are different, non-nested directories. Permissions, crashes and races are not modelled.

### Coverage

MATLAB code (`/repo/matlab/src`) is modelled only where the Python documentation or tests name it as the original or counterpart (C115 to C138, C169), plus the sine fit they share and the dashboard `adcpanel.m` (C153), the argument conversion of the legacy `errHistSine.m` (C170), the legacy `bitact.m` (C171), `bitsweep.m` (C172) and the aliased parameters of `plotspec.m` (C173) and the four bit-level data generators (C164, C165) and the sine generators (C166 to C168; not `gen_sinewave_jitter.m`, `gen_sinewave_am_noise.m` and `gen_jitter_sweep_data.m`, whose Python counterparts are C87) of `/repo/matlab/data_generation`; its `error(...)` is `none`.

All paths below `python/src/adctoolbox`. Every function that computes a returned value is modelled, except where listed.

* Modelled in full as computation, without plots: `fundamentals`, `siggen` (except as below), `spectrum` (`compute_spectrum`, `_harmonics`, `_windows` and the
  other helpers, `analyze_spectrum*`), `aout` (`compute_*`, `rearrange_*`, `decompose_*`, `fit_*`, `analyze_*`), `dout`, `calibration`, `oversampling`, `models`,
  `timeinterleave`, `examples/08_time_interleave` (delay line, sampler, calibration loop of `exp_ti02`), `examples/09_downsample`, helper functions of `exp_g05`, `exp_s09`, `exp_s13`, `exp_a33`, `exp_d16` to `exp_d18`, `exp_t04`, `common.py`, `skill_cli.py`, `cli.py`, `utils/vpp_for_target_dbfs.py`.
* Thin wrappers that call a modelled function and then plot (`aout/analyze_error_by_value.py`, `analyze_error_by_phase.py`, `analyze_decomposition_polar.py`, `_fit_diagnostics.py`): identified with the function they call.
* The `toolset` dashboards are the collection of their panels' results (`Model/DoutDashboard`, `Model/AoutDashboard`).
* Plots: the numbers they show are modelled - texts, axis limits, marker lists, label positions of the spectrum plots, the polar plots, the decomposition
  plots, the DNL/INL plot, the OSR plot, the `dout` plots and the error-by-phase and error-by-value plots (`Model/Plots`, `Model/SpectrumFigure`, `Model/Polar`, `Model/Residual`,
  `Model/OsrPlot`, `Model/DoutPlots`, `Model/ErrorPlots`, `Model/InlPlot`); drawing, colours and `matplotlib` state are not.
* Not modelled: the other `plot_*` functions; printing and warning texts; the other `examples` scripts; report texts; the remaining MATLAB code.

## Plan per property

| id | modelled | method | theorem file |
|----|----------|--------|------|
| C01 | `find_coherent_frequency`: candidate list, filters, stable sort, head | list membership + sortedness; eligibility spec stated separately | Frequency |
| C02 | same, error branch | emptiness of filtered list ↔ no eligible bin | Frequency |
| C03 | same | coprimality ⇒ injective multiplication mod n | Frequency |
| C04 | `fold_frequency_to_nyquist` with half-even rounding | bounds of rounding; uniqueness; cosine periodicity | Frequency |
| C05 | `fold_bin_to_nyquist` | floor-mod bounds; counterexample for odd n; partial theorems | Frequency |
| C06 | `units.py` | log/exp identities over ℝ | Units |
| C07 | `bin_to_freq`, `freq_to_bin` | rounding bounds | Units |
| C08 | `units.snr_to_nsd`, `snr_nsd.snr_to_nsd` and inverses | log identities; positional mismatch by witness | Units |
| C09 | `convert_cap_to_weight` loop | induction over sections against nodal charge balance | CapWeight |
| C10, C11 | `sar_ideal_weights`, `sar_convert`, `sar_reconstruct` | greedy invariant: residue = x·2^j − code | Sar |
| C12–C14 | `sar_convert` with any weights and noise | induction on weights with two-sided invariant; converse by explicit input | Sar |
| C15 | `sar_ideal_weights` | geometric sum, list insertion lemmas | Sar |
| C16 | quantizer vs SAR | C10/C11 + floor algebra | Sar |
| C17, C18 | `deinterleave`, `interleave` | index arithmetic on lists of lists | Interleave |
| C19 | `calibrate_foreground` | pointwise algebra + C17 | Interleave |
| C20 | `extract_mismatch_sine` | sums over finite index sets; phase wrapping | Mismatch |
| C21 | `fractional_delay_farrow` | Lagrange interpolation, convolution index lemma | Farrow |
| C22 | `fractional_delay_fft` | discrete Fourier inversion over ℂ | FftDelay |
| C23, C24 | `predict_spurs` | fold bounds, sortedness; DFT of periodic sequences | Spurs |
| C25 | `rfft_inband_bin_count` | floor lemmas | BinRanges |
| C26 | `_power_average`, window power correction | Parseval, one-sided folding; DFT of a windowed tone | Parseval, Tone |
| C27 | `_locate_fundamental` | argmax lemma, parabola vertex bound | Fundamental |
| C28–C30 | signal/noise/spur/THD accounting; `quick_sndr` | finite sums over index sets | SpectrumBins, SpectrumEngine |
| C31 | `_prepare_fft_input` | list algebra | Prepare |
| C32 | `_power_average`, coherent averaging | permutation invariance of sums | Prepare |
| C33 | `_detect_side_bin_auto` | loop invariant | Fundamental |
| C34 | `_align_spectrum_phase` | partition of bins by alias zone; multiplicative invariants | Align |
| C35, C64 | `sweep_performance_vs_osr` | accumulator invariant over the sorted sweep; Parseval | Osr |
| C36 | `extract_freq_components` | Hermitian masks; odd-length counterexample | BandFilter |
| C37 | `_estimate_noise_power` | order lemmas; gamma density for the median ratio | Noise, NoiseFloor, SpectrumEngine |
| C38 | `_patch_rank_deficiency`, `_recover_rank_deficiency` | linear algebra over a field | RankPatch |
| C39 | column scaling | algebra | Calibration |
| C40 | full and lite calibration at known frequency | uniqueness of least squares; trigonometric independence; stuck bits by the links of the rank patch | Calibration, CalibrationExact, CalibrationStuck |
| C41 | result post-processing | algebra | Calibration |
| C42 | coefficient layout, frequency search | index arithmetic; defects by witness | CalibrationLayout, CalibrationMulti, CalibrationSearch |
| C65 | `_prepare_input` and frequency guard | decision table | CalibrationInput |
| C43, C44 | `analyze_bit_activity`, `analyze_overflow` | finite sums | Dout |
| C45 | `analyze_weight_radix` | scaling search invariant | WeightRadix |
| C66 | `plot_residual_scatter` data part | finite sums; SAR residue bound | Residual |
| C46, C47, C67 | `compute_inl_from_ramp` | histogram and prefix-sum lemmas; counting of ramp samples | RampInl, RampAccuracy |
| C48 | `compute_inl_from_sine` | arccos transform of histogram | SineInl |
| C49 | `rearrange_error_by_value` | binning lemmas | ErrorByValue |
| C50 | `rearrange_error_by_phase` | 2×2 regression, trigonometric identities | ErrorByPhase |
| C51 | `decompose_harmonic_error` | least squares on harmonic columns | HarmonicSplit |
| C52 | `analyze_error_autocorr` | sums, Cauchy–Schwarz | ErrorAcf |
| C53 | `apply_quantization_noise` | floor/clip lemmas | Sar |
| C54 | `apply_static_nonlinearity_hd` | multiple-angle formulas, independence of harmonics | Distortion |
| C55 | `apply_noise_shaping` | filter recursion = difference operator | NoiseShaping |
| C56, C72 | incomplete sampling, reference droop | recursions | Settling |
| C68, C69, C71 | residue amplifier, memory, AM, jitter, glitch | pointwise algebra, trigonometry | Pipeline |
| C70 | `apply_clipping` | order statistics | Clipping |
| C57 | `validate_aout_data`, `validate_dout_data` | decision tables | Validate |
| C58 | `fit_sine_4param` | loop invariant over an arbitrary solver; least squares | SineFit |
| C59, C60, C74 | skills and examples commands | list dedup lemmas; file-system state machine invariants | Skills, SkillStatus |
| C61–C63 | `compute_spectrum` end to end | rewriting along the pipeline | SpectrumEngine, SpectrumReport (C62) |
| C82 | cutoff in `compute_spectrum` | ceiling lemma per bin | SpectrumReport |
| C83 | `analyze_error_spectrum`, `analyze_error_envelope_spectrum` without drawing; `scipy.signal.hilbert` by its definition | mirror symmetry of the multiplier; linearity; orthogonality of bins; C31, C58 | ErrorEnvelope |
| C84 | `_estimate_frequencies` with spectra and sine fit; `np.argsort` any sorting permutation; `calibrate_weight_sine` with its estimator | uniqueness of a strictly sorted permutation; sine-fit exactness (C58); independence of `calibrate` from its estimate argument | AutoFreq |
| C85 | compatibility wrappers of `aout`, `dout`, `common`, `spectrum`; dictionaries as association lists, keyword arguments as optional values | lookup lemma for added aliases; C51, C52, C58 and C08 for the wrapped calls; sum of squares of a sampled tone | Compat |
| C86 | `sar_apply_cap_mismatch`, `sar_apply_mismatch`; draws an arbitrary sequence, then random variables | pointwise algebra of roots; variance of affine maps and of independent sums (Mathlib probability); list surgery for the redundant bit | CapMismatch |
| C87 | `apply_thermal_noise`, `apply_drift` (filter: any linear map), `apply_am_noise`, `apply_jitter` of the clean sine, `apply_glitch`; draws as random variables | expectation and variance of affine maps; characteristic function of the normal law; orthogonality of a coherent sine; volume of an interval | RandomImpairments |
| C88 | `_coherent_average` and `compute_spectrum`: complex spectrum; `_calculate_harmonic_phases`; the angles printed by `plot_spectrum_polar` | DFT of a finite cosine series; uniqueness of aliases below N/2; the alignment theorem C34; cosine series of a polynomial by induction | Polar |
| C89 | `format_freq`, `txt_fin`, `_format_value_with_unit` | rounding error times unit, by cases | NumText |
| C90 | `_noise_floor_axis_min`, axis floors, `_should_label_harmonic`, harmonic marker lists of both styles, `_refresh_max_spur_annotation` | floor and min/max arithmetic; list membership; C29 for the bins; DFT of three tones for the failing record | SpectrumPlot |
| C91 | radii, ticks and labels of `plot_spectrum_polar` and `plot_decomposition_polar` | rounding; fold of max/min | PlotAxes |
| C92 | window and limits of `plot_decomposition_time`, limits of `plot_dnl_inl` | integer arithmetic; C46 for ramp curves | PlotAxes |
| C93 | `VariableDelayLine`, `TIMultiSampler` of `examples/08_time_interleave/variable_delay_line.py`; draws are arbitrary sequences | induction on codes; C20 for the capture; `cos 3x` | DelayLine |
| C94 | calibration loop of `exp_ti02_...py` (capture, row stack, cumulative decision, trim update) | exact `|sin|` sums over coherent phases, second-order sine bound, telescoping, contraction of the skew bound | SkewLoop |
| C95 | `compute_spectrum` with rectangular window, side bin 0; `fit_sine_4param`; `sar_convert`/`sar_reconstruct`; ideal quantizer | Parseval and orthogonality of the bin's cosine and sine, Pythagoras for the least-squares sine, residue bound of C13 | Sinad |
| C96 | `compute_spectrum` with any cosine-sum window, averaging, OSR and automatic side bins; `quick_sndr` | l2 triangle inequality on the bins of each run, Parseval for the errors, lobe energy of the window, averaging over runs | WindowedSinad |
| C97 | `sweep_performance_vs_osr` with its sine fit, axis limits, vertical lines and slope panel | C35 loop invariant, monotone logarithm, folding uniqueness (C04), band count (C25) at the default OSR values | OsrPlot |
| C98 | marks, texts, axis limits, dots and grids of the plots in `analyze_bit_activity`, `analyze_enob_sweep`, `analyze_overflow`, `analyze_weight_radix`, `plot_residual_scatter` | order lemmas for argmax, text rounding (C89), C43-C45 results | DoutPlots |
| C99 | curves, bars, dots and limits of `plot_rearranged_error_by_phase` and `plot_rearranged_error_by_value` | C49/C50 bin membership, sums of cosines over bins and samples, median of a constant list | ErrorPlots |
| C100 | the loop of `fit_sine_4param` around the true parameters; `estimate_frequency` | least squares is stable under a change of the columns (`lstsq_stable`), second-order expansion of the sine in frequency, the frequency clamp never moves away from `f`, induction over the passes | SineFitConverge |
| C101 | calibration at known frequency on codes that do not fit a sine exactly | the solved side is the minimiser with one quadrature coefficient fixed; the better of the two sides is compared with any competitor; injectivity on a finite-dimensional space gives the constant | CalibrationNoise |
| C102 | `plot_dnl_inl`, `analyze_inl_from_ramp`, `analyze_inl_from_sine` | the bookkeeping of C46/C48, axis limits of C92, rounding of texts of C89 | InlPlot |
| C103 | `generate_dout_dashboard` as the results of its six panels | the panels are traced to one calibration result (C41, C81); scale invariance of spectrum, overflow and radix (C31, C44, C45); C40 for noise-free data | DoutDashboard |
| C104 | `generate_aout_dashboard` and its 3x4 variant as the results of their panels | the panels are traced to one `fit_sine_4param` result (C49, C50, C79, C83); success through C49, C52; C58 and orthogonality of bins for the wrong frequency | AoutDashboard |
| C105 | `fit_sine_4param`, `estimate_frequency` and the error analyses on a record and on its affine image | the minimum-norm solution commutes with scaling and with shifts along the constant column; induction over the passes; the analyses are homogeneous in the error except for their absolute thresholds | SineFitUnits |
| C106 | bin/frequency and LSB/volt conversion, coherent-bin search, frequency folding, cut-off bin, in-band bin count, trimmed-mean indices, quantizer, SAR conversion and reconstruction, overflow rails, in float64 arithmetic | relative-error factors; exactness of dyadic sums and scalings; monotone rounding; concrete counterexamples evaluated by the kernel | Float64 |
| C107 | `compute_spectrum`, `quick_sndr` on rearranged records | rotation multiplies every DFT bin by a unit number, reversal conjugates it; the report depends on magnitudes only; a concrete Hann counterexample | TriggerShift |
| C108 | plot arrays of `compute_spectrum`; lines, marks and text positions of `plot_spectrum` | report identities of C62, strongest-bin lemmas of C23/C27, monotone logarithm; a concrete square wave | SpectrumFigure |
| C109 | `compute_spectrum`, `quick_sndr` on sums of coherent tones | the DFT of a cosine-sum window has support in the main lobe, so the lobes do not overlap; ledger of C28 on disjoint lobes | MultiTone |
| C110 | `subsample`, `alias_freq` of `examples/09_downsample` | slices as index maps; cosine periodicity; C04 and C109 on both sides of the subsampler; a concrete collision | Subsample |
| C111 | `apply_static_nonlinearity(_hd)`, `calculate_k_mag` of `exp_g05`, `compute_spectrum` | Chebyshev expansion of the powers of a cosine (C54), then C109; alias bins as an injective map on the present orders | DistortionReadout |
| C112 | `coherent_odd_bin`, `near_nyquist_bin`, `coherent_train_bin`, `quantize_ideal`, `noise_rms_for_enob` of the example scripts | parity and coprimality; the search list is sorted by distance; C53 and C06 for the quantizer and the ENOB | TestBench |
| C113 | weight lists, margin and MSB error of `exp_d17`, radix-1.8 list of `exp_d16`/`exp_d18`, bit generators of `exp_t04` | coverage of each weight by the later ones (C13) in both directions; a tolerance version by induction; residue invariant of the bipolar loop | SarBench |
| C114 | `simulate_ramp_codes` of `exp_a33`; `np.searchsorted` as a count of edges | the codes are a ramp record in the sense of C67, whose bounds then apply | RampBench |
| C115 | `fold_frequency_to_nyquist`, `convert_cap_to_weight`; `alias.m`, `cdacwgt.m`, `cap2weight.m` | both folds satisfy the alias specification, which is unique; ladder recursion by induction | Matlab |
| C116 | `analyze_overflow`; `bitchk.m` (behind `ovfchk.m`, `overflowChk.m`) | column by column equality; negation for wide records and positions above `M` | Matlab |
| C117 | `ifilter`/`extract_freq_components`; `ifilter.m` | equality of the bin masks, then of the filters; negation for odd lengths and half-way edges | MatlabFilter |
| C118 | `compute_inl_from_sine`; `inlsin.m` | the two histograms count the same samples; negation by counting codes | MatlabInl |
| C119 | sweep of `perfosr`, `ntf_analyzer`; `perfosr.m`, `ntfperf.m` | sweep invariant as in C35 for the MATLAB loop, comparison of the bin counts; counting grid points | MatlabOsr |
| C120 | sums and bins behind the report; `plotspec.m:515-582` | both cleared spectra bin by bin, sets of counted bins compared | MatlabReport |
| C121 | `prepareFftInput`, `rawSpectrum`, `fundamentalBin`, `computeSpectrum`; `plotspec.m:148, 277, 304-317, 367-395` | the two normalisations cancel per run; arg max of two proportional lists; `computeSpectrum` taken apart | MatlabSpectrum |
| C122 | `alignSpectrumPhase`; `plotspec.m:320-361` | the two loops run side by side with states equal up to the guard gain | MatlabAlign |
| C123 | `detectSideBinAuto`; `plotspec.m:414-464` | the two searches agree step by step clear of DC; lobe of a coherent tone | MatlabSide |
| C124 | `fitCore`, `estimateFrequency`; `sinfit.m`, `findfreq.m` | uniqueness of the least-squares solution makes the two passes comparable; local analysis of the damped iteration | MatlabFit |
| C125 | `errorAutocorr`; `errac.m` | both averages are the sum over pairs a lag apart | MatlabAcf |
| C126 | `fitStaticNonlin`, `staticNonlinCore`; `fitstaticnl.m` | uniqueness of the best polynomial; projection onto the fundamental; normal equations of the refinement | MatlabNonlin |
| C127 | `polarSpectrum`, `coherentRun`, `alignSpectrumPhase`, `refineBin`; `plotphase.m` FFT mode | the two rotation loops side by side; logarithms of scaled spectra; sums over runs | MatlabPhase |
| C128 | `Gen.noiseShaping`, `lfilter`; `noiseshape.m` and MATLAB's `filter` | registers of the transposed form summed into the difference equation; uniqueness of its solution | MatlabShape |
| C129 | `findCoherentFrequency`; `findbin.m` | least distance of the search loop; comparison of offsets from the rounded-down target | MatlabFind |
| C130 | `analyzeWeightRadix`; `plotwgt.m` | candidate scales as integer multiples; fold keeps a best one | MatlabRadix |
| C131 | `decomposeHarmonicError`; `tomdec.m` | projection and uniqueness of least squares; independence of harmonics | MatlabDecomp |
| C132 | `rearrangeByPhase`, `rearrangeByValue`; `errsin.m` | bins as floor classes; split of the mean square; uniqueness of least squares | MatlabErrsin |
| C133 | `calibrate`; `wcalsin.m` | transfer of least squares between column scalings; orthogonality gives MATLAB's figure as distance of the targets less the residual; parity of a coherent record | MatlabCal |
| C134 | `decomposeHarmonic`; `plotphase.m` LMS mode | residual of one fit is orthogonal to the columns of the other; harmonics sum to zero over whole periods; independence of harmonics | MatlabLms |
| C135 | `residualScatter`; `plotres.m`, `plotressin.m` | list equalities; shape of the calibration result; C133 and C40 for noise-free records | MatlabRes |
| C136 | `errsin_hp.m` against `rearrange_error_by_phase` | two solvers on the same independent columns agree (`lstsq_same`); projection onto cos 2φ for the base-noise fit; bin equality by floor arithmetic; explicit record for R2 | MatlabHp |
| C137 | cutoff, `assumedSignal`, negative `harmonic` of `plotspec.m` | spectrum equality of C121 plus `C82_cutoff_bins`; pointwise comparison of the cleared sums; a two-tone record for the refutation | MatlabCutoff |
| C138 | cell-array path of `wcalsin.m`; `calibrate` | one relation up to a factor gives the fitted vector; coefficients by dataset and harmonic; induction over the datasets for the checks; the record `0, 1, 0` twice | MatlabMulti |
| C139 | `extractMismatch`, `calibrateForeground` with `fftDelay` | channel rows as tone sums folded to the channel rate; `C20_recovers_parameters` and `C22_bandlimited_delay_exact` composed through the row loop; Lipschitz bound of the cosine; two channels with a sine at 0.3 fs | TiCalibration |
| C140 | `calibrate` followed by `computeSpectrum` | normal equations of the fit from its optimality give the projection of the error on the tone; best sine of C95; the one-bit record of six samples for the refutation | CalibrationReport |
| C141 | `Gen.thermal`, `Gen.jitter` followed by `computeSpectrum` | Chebyshev for the sum of squares and for the projections on tone and mean; best sine of C95; fourth moment of the normal law from its moment generating function; the sine is Lipschitz | NoiseReport |
| C142 | `apply_jitter` on a record; `CubicSpline` by its conditions | equations of the second derivatives, diagonal dominance for existence, uniqueness and size; convexity for the error of a chord; bounds of the cosine | JitterChain |
| C143 | `predict_spurs`, `compute_spectrum` without window, `calculate_jitter_limit` | sums over channels, Parseval over the channels, then C95 | InterleaveReport |
| C144 | `apply_am_tone`, `apply_am_noise`, `apply_glitch`, `compute_spectrum` | C69 and C109 for the tone; Chebyshev on the sum of squares and C95 for the noise; C95 for glitches | ModulationReport |
| C145 | `apply_drift` with `butter` and `filtfilt` | linearity by induction on the filter state; steady state plus a remainder that contracts with the poles; transfer function on the unit circle | Drift |
| C146 | `compute_spectrum`, `quick_sndr`, Hann and rectangular windows on a sine between the bins | closed form of the windows' spectra; one of the two bins around the region is always outside; Parseval for the total; lower bound by C95 with the nearest whole sine | OffBin |
| C147 | `apply_noise_shaping` into `compute_spectrum` with `osr` | spectrum of the backward difference of a finite record (response of the difference plus its last sample), Minkowski over the band, Parseval for the quantization error | ShapedReport |
| C148 | `apply_ra_gain_error`, `apply_memory_effect`, `apply_incomplete_sampling`, `apply_reference_error` into `compute_spectrum` | each output is a coherent sine plus an error in a band, of bounded rms, or decaying geometrically (steady state of the one-pole filter in closed form); C95 | ImpairmentReport |
| C149 | `apply_clipping` into `compute_spectrum` | coprime bin: the record visits N equally spaced phases, so K + 1 samples lie near each peak and the percentile is at least the lowest of them; error supported on at most 2 K samples (C70); C95 | ClippingReport |
| C150 | `compute_inl_from_sine` on the codes of a coherent sine with bounded noise | the record visits N equally spaced phases; an arc holds its share of them up to one; cosine is 1-Lipschitz; perturbation of a quotient; telescoping | SineInlAccuracy |
| C151 | `analyze_bit_activity` on the codes of a coherent sine, `sar_convert` with ideal weights | ones of a bit from the cumulative histogram, each count known up to one sample (C150), sums antisymmetric about the middle | BitActivity |
| C152 | `decompose_harmonic_error` on a coherent record with noise; `compute_spectrum` on the same record | orthogonality of the harmonics, the fit as the projection, Bessel; second moments of uncorrelated noise; aliases of the harmonics as distinct bins; Parseval | HarmonicNoise, HarmonicReport |
| C153 | `adcpanel.m`: classification, dec2bin route, calibration, the sine and other pipelines, the zoom window | binary digits by division; width from the ceiling of the logarithm; the pipeline depends on each function only through one field; sum of 0/1 bits against magnitudes; rounding within one half | MatlabPanel |
| C154 | `rearrange_error_by_value`, `fit_sine_4param` | nearest bin; mean of a set within a band; sums of sines over threshold arcs telescope to at most 1, layer-cake over the thresholds bounds the quadrature of the fit; C100 for the refined fit | ErrorByValueInl |
| C155 | `decompose_harmonic_error` | residual orthogonality and exact correlations of harmonics give the projection; sums of sin(K theta) over threshold arcs are at most 1 for 2K <= N, layer-cake over the two monotone parts; rotation by the phase of the fundamental | StaticPhase |
| C156 | `main`, `_build_parser`, `_require_dest`, `_print_status` and argparse for this parser | words classified by table and prefix (finite check over all beginnings), loop over words in three phases, both directions by induction; text by indices of fixed-size blocks; C60, C73 for the files | SkillCommand |
| C157 | `analyze_error_autocorr` | residual = noise less its projection onto constant, cosine and sine (kernel (1+2cos)/N, idempotent); second moments of linear combinations; row-sum bound for general covariances | AcfNoise |
| C158 | `rearrange_error_by_phase`, `apply_am_noise`, `apply_thermal_noise`, `apply_jitter` | the fit's error in phase and amplitude is bounded by the projection of the noise; the two sums over the squared residual differ from those over the squared noise by terms of that size; second and fourth moments, Markov's inequality | PhaseNoise |
| C159 | `calibrate_weight_sine_lite`, `calibrate_weight_sine` | the residual of one fit is orthogonal to the columns of the other, so both are projections on the same space; the independence of the columns gives the coefficients; sign from the sum | CalibrationRecode |
| C160 | `compute_spectrum` with `osr`, `apply_thermal_noise` | the power in the band as a quadratic form in the draws; its diagonal is the mean square of the draws, the sum over pairs has mean square N^2 M/4 by orthogonality of the bins and independence of each draw from the earlier ones; Markov's inequality; exact report in terms of in-band error | OversampledNoise |
| C161 | `_calculate_harmonic_power_plotspec`, `_calculate_noise_metrics`, `plotspec.m` THD | closed form of the loop by induction; C29 for the helper in use; C37 and C62 for the noise figures; witnesses | PlotspecThd |
| C162 | `compute_spectrum` with both averaging modes | alignment phasors have modulus at most one, Cauchy-Schwarz over the runs; monotonicity of the SNDR and spur sums | CoherentGain |
| C163 | `compute_spectrum` on noisy runs | windowed transform after mean removal as a linear form in the samples, second moments, Parseval of the coefficients; variance of a sum of independent runs | NoiseDensity |
| C164 | MATLAB generators `gen_pipeline2s_dout.m`, `gen_pipeline3s_dout.m`, `gen_sar_dout.m`, one sample, parameters free | stage ranges by floor bounds, binary digits of a code, induction over the capacitors; counterexample inputs for the converse | DoutGen |
| C165 | MATLAB generator `gen_pipeline8s_dout.m`, one sample, parameters free | induction over the stages; closed form of the weights; two inputs for the fall | DoutGen |
| C166 | MATLAB sine generators: two-step errors, HD2/HD3, file names of the zone and dynamic-nonlinearity files; noise after the formula left out | floor of a shifted argument; triple-angle formula; ceiling bounds; induction over the targets | SineDataGen |
| C167 | MATLAB sine generators: settling loop, static polynomial, drift, amplitude tone, clipping, glitch, number in the file name | induction over the samples; multiple-angle formulas; monotone exponential | SineImpair |
| C168 | MATLAB noise files: thermal, phase, amplitude, one random variable per sample | second moments; characteristic function of the normal law (C87); sum of cosines | SineNoise |
| C169 | `errpdf.m` and `analyze_error_pdf` | both models side by side; scaling of mean and spread; sums of cosines | MatlabErrpdf |
| C170 | the loop over `varargin` in `errHistSine.m` | induction over the argument list | ErrHistSine |
| C171 | `bitact.m` beside `analyze_bit_activity` | finite sums (C43), argmax (C98), text rounding (C89) | Bitact |
| C172 | `bitsweep.m`, with `wcalsin` and `plotspec` as parameters | case analysis on failures; equality of column prefixes | Bitsweep |
| C173 | alias handling in `plotspec.m` | case analysis over the arguments | PlotspecArgs |
| C73 | `_dirs_equal`, `skill_status` | mutual induction over trees against a path-based specification | SkillStatus |
| C75 | `ntf_analyzer`, `ntfperf` on a rational transfer function | polynomial evaluation on the unit circle, sums over the grid | Ntf |
| C76 | `analyze_phase_plane` without drawing | median lemmas; fold invariant for the lag search | PhasePlane |
| C77 | `fit_static_nonlin` | least squares; uniqueness of interpolating polynomials | StaticNonlin |
| C78 | `fundamentals/metrics.py` figures of merit and limits | monotonicity of logarithms; jitter bound of C71 | Metrics |
| C79 | `analyze_error_pdf` without drawing | Gaussian integrals; log inequality; C58 recovery | ErrorPdf |
| C80 | `analyze_error_phase_plane` without drawing (`np.gradient`, `np.percentile`, `np.polyfit` on masks) | percentile count bounds; uniqueness of the polynomial fit | ErrorPhasePlane |
| C81 | `analyze_enob_sweep` without drawing: calibration, weighted prefix sums, spectrum engine | C40/C41 (weights, signal), C38 (dead bits), C31 (gain invariance) | EnobSweep |

Everything is stated for all inputs; there are no size bounds. Where the code violates a property, the negation is
proved on a concrete witness, the true part is kept as a `_partial` theorem, and the disagreement is recorded below.

## Disagreements between code and documented/expected behaviour

Each line names the theorem that proves it, where there is one.

Frequencies and units
* `fold_bin_to_nyquist` with odd `n_fft` and a fractional bin can exceed `n_fft/2` (`C05_fold_bin_range_false`).
* `utils/vpp_for_target_dbfs.py` imports `adctoolbox.common.unit_conversions`; `common.py` is a module, so the import fails. (Not modelled.)
* The two public `snr_to_nsd` take the same quantities in a different positional order (`C08_positional_arguments_disagree`).

Float64 rounding
* The quantizer of `apply_quantization_noise` is not idempotent for ranges other than powers of two: with (0, 3.3) and 4 bits the level of code 3 is requantized
  to code 2 (`C106_quantizer_idempotent_false`). `volts_to_lsb(lsb_to_volts(k))` need not be `k` (`C106_lsb_round_trip_false`).
* `cutoff_freq` on a bin can remove that bin too: 70 kHz at 1 MHz with 100 points clears 8 bins instead of 7 (`C106_cutoff_false`).
* `fold_frequency_to_nyquist` can return the float after fs/2 (`C106_fold_false`).
* `find_coherent_frequency` may decide a near-tie differently from exact arithmetic (`C106_coherent_choice_false`).
* `analyze_overflow` can miss a word of ones when the weights are not binary fractions, because the product and the weight sum may be added in different orders
  (`C106_overflow_false`).

SAR models
* Upward comparator noise is not absorbed by redundancy (`C14_symmetric_noise_false`).
* Redundant position −1 is accepted and puts the duplicate first (`C15_minus_one_breaks_order`). Bad positions raise `IndexError`, not `ValueError`.
* `sar_convert` documents a strict comparison `>` and computes `>=`.

Time interleaving
* `calibrate_foreground` accepts an unknown skew method when all skews are zero (`C19_unknown_method_accepted`).
* `fractional_delay_farrow` documents another tap placement than it computes (`C21_documentation_mismatch`).
* Fractional FFT delays do not compose for even length (`C22_compose_false_even`).
* `predict_spurs` without `fin` but with gain errors raises `TypeError` (`C23_errors`). Offset entries are half of the observable tone (`C24_offset_entry_is_half_the_tone`).

Spectrum
* Parabolic interpolation next to DC can move by more than half a bin (`C27_refined_bin_one_fails`).
* THD can include DC-lobe bins and then exceed noise plus distortion (`C29_thd_can_exceed_noise_and_distortion`).
* The median noise estimator divides by a median-to-mean ratio that is not the one of averaged periodograms: for one run it uses 0.72 (true value ln 2), for M
  runs `(1 - 2/(9M))^3`, the ratio for M degrees of freedom instead of 2M (`C37_median_ratio_biased`).
* `quick_sndr` accepts a negative `side_bin` (`C30_negative_side_bin`).
* Noise method 3 ("exclude harmonics") clears only the centre bin of each harmonic. The share 1 - 1/ENBW of its power, a third for the Hann window, stays in the noise
  (`C109_snr_exclude`, `C109_leak_share`).
* The downsampling example states that subsampling preserves spur levels; two spurs with the same alias can add or cancel (`C110_collision_refutes`).
* `apply_static_nonlinearity_hd` documents `hdN_dB` as the level of the N-th harmonic. With `hd4_dB` alone HD2 reads 12.04 dB above the level, with `hd5_dB` alone HD3 reads 13.98 dB above it, and `hd3_dB` reads low by `20·log10(1+3r)`; only `hd2_dB` alone reads back exactly (`C111_hd2_alone` to `C111_hd5_alone`). The sweep of `exp_g05` labels all sign cases with the same |HD3|; the two signs of `k3` read differently (`C111_sign_sweep`).
* `coherent_odd_bin` of `exp_s13` is coherent for powers of two only: 12 points at ratio 1/4 give bin 3 (`C112_odd_bin_not_eligible`). `near_nyquist_bin` of `exp_s09` is not coherent for lengths 2 mod 4 (`C112_near_nyquist`).
* Coherent averaging of windowed captures with opposite phase loses leakage power (`C34_opposite_captures_cancel_even_bins`, `C34_window_leakage_lost`).
* `sweep_performance_vs_osr` reads 10·log10(2) dB low at OSR 1 (`C64_sweep_reads_3dB_low`).
* `sweep_performance_vs_osr` divides by the folded frequency of every harmonic when it plots: a harmonic on DC raises `ZeroDivisionError`, e.g. a tone at fs/4 with the default `harmonic=5` (`C97_quarter_rate_fails`).
* `extract_freq_components` halves the top bin for odd lengths (`C36_odd_top_bin_halved`).

Calibration
* `_estimate_frequencies` documents a bit selection by variance and a coarse FFT peak; it selects by toggle count, and the FFT anchor it computes is not used.
* Rank recovery fails with `IndexError` when every bit is constant (`C38_all_constant_fails`, `C65_succeeds`). Complementary bits cancel (`C38_complementary_bits_cancel`).
* With several datasets the quadrature coefficient, the offsets and the frequency step are read from the wrong columns (`C42_multi_false`). The frequency
  search reads a harmonic column as the frequency step, so it leaves an exact frequency (`C42_search_leaves_exact_frequency`). `max_iter = 0` raises `TypeError`
  (`C42_zero_iterations`).
* The frequency guard accepts negative frequencies (`C65_negative_frequency_accepted`).
* The lite variant needs a non-zero cosine component, because it fixes that coefficient to one (hypothesis of `C40_lite`).

Digital-output reports
* `analyze_overflow` with `ofb` between M+1 and 2M wraps around silently (`C44_errors`).
* `analyze_weight_radix` with all-zero weights fails in `round(nan)` (`C45_errors`).
* `generate_dout_dashboard` does not hand its `weights` to the calibration (`C103_nominal_only`) and fails on every matrix with fewer samples than bits
  (`C103_wide_refused`). Its panel 2 uses the Hann window, its panel 5 the Hamming window, so their full-width ENOB need not agree.

Dashboards
* `generate_aout_dashboard(freq=...)` documents `freq` as "converted to normalized where needed"; it reaches panel 8 only, the other panels estimate their own
  frequency. With a wrong `freq` panel 8 correlates the signal itself while panels 3, 4, 7 show no error (`C104_wrong_frequency`).
* It raises `ValueError` on records of 3 to 49 samples (the default maximum lag of panel 8) and on two-valued code records (panel 3) (`C104_refused`).
* `rearrange_error_by_phase` compares with absolute numbers: `ss_tot > 1e-20` makes `r_squared_raw` 0 for records whose error is small in the unit used, e.g. below
  about 1e-5 for 8 samples, although the same record in another unit gives 1 (`C105_r_squared_unit`); `amplitude > 1e-10` does the same to the relative values.
* Panel 1 uses the Hann and panel 2 the rectangular window; panel 12 of the 3x4 variant refits with three refinements, panels 3 to 10 with one.

INL
* `compute_inl_from_ramp`: endpoint correction changes nothing on the raw sum (`C46_ramp_endpoints`); an invalid `endpoint` name is noticed only at the end
  (`C47_ramp_errors`).
* `compute_inl_from_sine`: DNL is scaled by the full code count although the two end codes are dropped; code labels are shifted by one position
  (`C48_label_shift`); INL need not end at zero; an empty interior gives NaN.

Error analyses
* The inferred signal range can miss data (`C49_inferred_range_misses_data`); constant raw codes are rejected (`C49_errors`).
* `rearrange_error_by_phase` attributes the common AM/PM part to the base (`C50_recovery`); `n_bins = 0` raises `ZeroDivisionError` (`C50_errors`).
* `decompose_harmonic_error` magnitudes are twice the coefficient modulus; `n_harmonics <= 0` fails in `column_stack`.
* Normalized autocorrelation can exceed one (`C52_magnitude_exceeds_one`).
* `fit_sine_4param`: the final sine and cosine coefficients belong to the frequency before the last update, while `fitted_signal` uses the updated one.
* `fit_static_nonlin` documents k2, k3 of the ideal input; it reports k2/g and k3/g^2, g = 1 + 3/4*k3*A^2, because the fitted sine absorbs the compression
  (`C77_compression_bias`, `C77_ideal_fit_gain`).
* `analyze_error_pdf` of a noise-free record is NaN throughout (`C79_noise_free_is_nan`); its divergence is not normalised and can be negative in principle
  (`C79_kl_bound`).
* The error and envelope spectra report "dBFS" levels relative to the error's own range: scaling the error changes no metric
  (`C83_error_size_not_reported`).
* `analyze_error_phase_plane` refuses a record of only two values with a `TypeError` from `np.polyfit` (`C80_two_level_refused`) and never reports hysteresis
  for 201 samples or fewer (`C80_gap_bounds`).

Spectrum of converter outputs
* A reported ENOB is not bounded by the resolution: an error that repeats with the sine counts as signal, and one bit at four samples per period reports
  more than 32 bits (`C95_upper_bound_false`).

Oversampling
* `ntfperf` documents the improvement over a flat transfer function in the same band; a flat function scores the full band ratio, not 0 dB (`C75_flat`).

Time-interleave example
* `capture(hd3_dbc=...)` documents the level relative to the fundamental; the cubic term also raises the fundamental, so the level is lower by the factor
  `1 + 3r` (`C93_third_harmonic_level`; 1/13 instead of 1/10 at -20 dBc).
* The calibration loop is documented per channel; with three or more channels a large skew of one channel can move another one away from the target
  (`C94_coupled_channels`). The proved dead band contains this term (`C94_decision`).

Signal generator and validation
* "dBc" levels of odd harmonics are relative to the input sine, not to the resulting fundamental (`C54_relative_level_false`), and levels interact
  (`C54_levels_interact`).
* `apply_am_noise` documents `strength` as rms relative to the amplitude; the noise is `strength` times the rms value of the sine (`C87_am_noise_power`).
* Incomplete sampling starts at the offset, so the first output can be outside the input range (`C56_first_sample_outside_input_range`).
* Clipping of more than 50 percent per side collapses the record (`C70_above_half`). The memory effect wraps the first sample to the last one (`C68_memory`).
* `analyze_enob_sweep` fails on every matrix with fewer samples than bits, which `calibrate_weight_sine` accepts by transposing (`C81_wide_refused`).
* `validate_dout_data` rejects boolean matrices although a comment allows them (`C57_bool_rejected`).

Compatibility layer
* `plot_error_autocorr` is documented for a precomputed error record but removes a fitted sine from it: a tone in the error disappears
  (`C85_autocorr_refits`). The last entry of `plot_error_hist_code` is always `None` (`C85_histogram_tuples`).
* `utils/vpp_for_target_dbfs.py` imports `adctoolbox.common.unit_conversions`, which does not exist (`common` is a module): the file cannot be imported. Its
  formula is modelled with `units.db_to_mag` (`C06_target_level`).

Command line
* A failing install keeps earlier skills (`C60_partial_install_remains`); `--force` into the bundle deletes the bundled skill
  (`C60_force_into_bundle_destroys`); `--status` with an unknown name ends in an uncaught exception (`C60_status_unknown_uncaught`).
* `_dirs_equal` tests `funny_files` but not `common_funny`, so a file and a directory of the same name count as equal (`C73_kind_conflict_reported_equal`).
* `_calculate_harmonic_phases` documents HD2 of a memoryless nonlinearity at 0°; it is at 180° when the quadratic coefficient is negative (`C88_square_law`).
* The polar spectrum reverses the sign of the relative phase of folded harmonics, so the same device shows +90° or -90° depending on the tone bin
  (`C88_zone_independence_fails`); the docstrings name the relative phase without this exception.

Plots
* `plot_spectrum` prints an input frequency between 1 Hz and 1 kHz divided by 1000 and without unit (`C89_fin_thousandfold`).
* `plot_spectrum` raises `IndexError` for records of odd length whose (interpolated) harmonic falls within half a bin below fs/2: the folded bin is rounded
  up past the end of the spectrum (`C90_odd_length_fails`, `C90_odd_record_exists`).
* `plot_spectrum_polar` without a fixed range labels its radial axis with the rounded noise floor while the radii use the unrounded one
  (`C91_tick_labels`). In `plot_decomposition_polar` the noise circle can lie outside the axis (`C91_noise_circle_outside`).
* `plot_spectrum` ends its level axis at 0 dBFS, but with the automatic range a level can exceed it: the fundamental of a square wave is drawn outside the
  axis (`C108_above_axis`). With a cutoff the `1e-20` floor of the curve is dropped, so an empty bin above the cutoff is at -inf (`C108_curve`).
* The coherent gain printed by `plot_spectrum` counts runs that coherent averaging skipped (`C108_dead_run`).
* `plot_dnl_inl` scales both limits by 1.2, which cuts curves that do not cross zero (`C92_dnl_limits`).
* `analyze_bit_activity` fixes the axis to 40..60 %: a bit that is never 1 shows neither bar nor text (`C98_dead_bit`).
* `analyze_enob_sweep` prints an ENOB loss as `+-x.xx` (`C98_enob_text`).
* `analyze_overflow` with `ofb` above the number of bits silently checks column `ofb - M` (`C98_overflow_dots`); its comment calls the default the LSB, it is the MSB.
* `plot_residual_scatter` without pairs raises `ZeroDivisionError` (`C98_scatter_grid`).
* In `plot_rearranged_error_by_phase` the AM and PM curves include the base noise, so their peaks exceed the AM and PM values of the legend (`C99_curves`).
* `plot_rearranged_error_by_value` cuts the outer bars with 2 to 23 bins (`C99_value_bars`).
* `analyze_inl_from_ramp` with `num_bits` draws negative codes left of its 0..1 axis, where they are not visible (`C102_signed_hidden`).
* `analyze_inl_from_sine` with a plot raises `ValueError` when fewer than three codes remain, though the same call without the plot answers (`C102_sine_narrow`).
* The INL limits of `analyze_inl_from_sine` can cut the curve (`C102_sine_inl_hidden`).
* `analyze_overflow` says it matches MATLAB exactly; it does not for records with fewer samples than bits (`C116_wide_differs`) and silently wraps positions above the MSB (`C116_position_wraps`).
* `ifilter` differs from `ifilter.m` in the highest bin of odd-length records and at half-way edges (`C117_odd_differs`, `C117_tie_differs`).
* `compute_inl_from_sine` reports two codes more than `inlsin.m` for spans 50, 250, 450, ... at the default exclusion (`C118_tie_differs`), and takes floating-point codes spanning at most 2 for volts (`C118_narrow_float_differs`).
* `perfosr` counts one bin more than `perfosr.m` at every OSR up to `N/2` (`C119_one_bin_more`); `ntfperf` returns plus infinity for narrow low-pass bands where `ntfperf.m` returns a number (`C119_ntf_narrow`).
* `compute_spectrum` is documented as aligned with `plotspec.m`; it clears one bin more next to DC (`C120_noise_dist`, `C120_sndr`), counts out-of-band harmonics in THD (`C120_thd_out_of_band`), skips harmonics that touch the signal (`C120_thd_collision`), rounds half-way harmonic bins the other way (`C120_harmonic_tie`), and averages runs of zeros in (`C121_dead_runs`).
* `_align_spectrum_phase` uses the interpolated bin between the harmonics where `plotspec.m` uses the whole bin (`C122_between_harmonics`).
* `_detect_side_bin_auto` says it matches `plotspec.m`; it falls back to a fixed width when the search finds nothing, `plotspec.m` takes the whole band (`C123_no_crossing`).
* The docstring at `_harmonics.py:159` says `plotspec.m` uses a single bin per harmonic; `plotspec.m:575-582` sums `2·sideBin+1` bins.
* `fit_sine_4param` and `sinfit.m` differ: a given frequency is refined only by Python (`C124_given_frequency`), a tone in the last bin starts half a bin higher in MATLAB and a constant record from NaN (`C124_start`, `C124_start_constant`), MATLAB divides its stopping quantity by `N` twice (`C124_pass`) and its default rate converges only linearly (`C124_speed`). MATLAB's phase at half a turn is `-π`.
* `analyze_error_autocorr` raises for lags beyond the record, `errac.m` returns NaN there (`C125_long_lags`).
* `fitstaticnl.m` can be given the frequency; `fit_static_nonlin` cannot, and its refinement leaves an exact coherent frequency when a second harmonic is present (`C126_python_moves`).
* `analyze_spectrum_polar` is said to match `plotphase.m`. Its fractional fundamental bin differs when a neighbour is more than 40 dB down (`C127_weak_neighbours`) and at the band edge (`C127_band_edge`); the angles of bins that are not harmonics then differ. The band of `plotphase.m` lacks the last in-band bin of Python, Python draws all bins when `OSR > 1`, and the default windows differ (Hann there, boxcar here).
* `apply_noise_shaping` and `noiseshape.m` refuse different inputs outside the common domain (`C128_refusals`).
* The parity page lists `findbin` and `find_coherent_frequency` as matched. For a power of two they differ at every even whole bin (`C129_power_of_two`), which includes the example in the Python docstring (`C129_differs`); for other lengths also between the midpoint and the next whole bin, for odd lengths (even bins) and for negative frequencies.
* The parity page lists `plotwgt` and `analyze_weight_radix` as matched. The reported scale differs for some odd or half-way top weights (`C130_differs`): for 5 and 2 MATLAB leaves both whole, Python does not.
* The parity page lists `tomdec` and `analyze_decomposition_time` as matched; a given frequency is refined by Python and not by `tomdec.m` (`C131_refined`).
* The parity page lists `errsin` and `analyze_error_by_phase`/`analyze_error_by_value` as matched. The errors have opposite signs, the phase bins are half a bin apart, MATLAB's RMS is about the bin mean, and the noise figures differ (`C132_noise_differs`). `errsin.m` reports zero noise whenever a bin is empty (`C132_empty`).
* `wcalsin.m:434-441` overwrites `b` before both residuals are computed, so the cosine fit is judged against the sine's right-hand side. Over whole periods it is then never chosen, and a tone in cosine phase gives zero weights (`C133_cosine_phase`). Its fine search (lines 478-495) keeps the residuals apart. The Python solver compares each fit with its own right-hand side.
* `wcalsin.m` reports an error when patching leaves the rank short; `_patch_rank_deficiency` does not check, and calibration returns weights for a constant column (`C133_rank_check`, `C133_rank_check_call`).
* The LMS mode of `plotphase.m` (its default) subtracts the record's mean and fits no constant; `decompose_harmonic_error` fits one. Over broken periods MATLAB reports a residual for an exact sine (`C134_exact_iff`).
* `plotres.m` and `plot_residual_scatter` treat stages outside `0..m` differently: MATLAB stops above `m` and ignores all bits below 0, Python clips and counts from the end (`C135_beyond`, `C135_negative`). The parity page lists plotres as not implemented in Python although plot_residual_scatter computes the same points (`C135_same`).
* C136: `errsin_hp.m` evaluates its curve at the lower edges of the bins and compares it with the spread about the bin mean; with one sample per bin the spread is zero and `R2` is one (`C136_r2_one`, `C136_r2_record`). Python compares at the centres with the raw mean square.
* C137: `plotspec.m` searches the signal in `spec_inband`, copied before the cutoff clears `spec` (lines 386-395), so a strong tone below the cutoff is reported as a signal of power zero (`C137_cutoff_above_false`). `compute_spectrum` searches after the cutoff.
* C137: `plotspec.m` with negative `harmonic` drops the harmonics from the SNDR and reports a THD of minus infinity (`C137_removed`, `C137_thd_false`); `compute_spectrum` has no such mode (`C137_python`).
* C138: with several datasets `calibrate_weight_sine` normalises by a different coefficient than `wcalsin.m:260`; for the same record given twice its weights are smaller by `sqrt 2` (`C138_scale_false`, `C138_python`).
* C138: `wcalsin.m:243-247` fits one offset for all datasets, `_lstsq_solver.py` one per dataset; datasets with different offsets are explained by Python only (`C138_offsets`). A frequency list of length one is accepted by MATLAB and rejected by Python (`C138_one_frequency`).
* C139: `calibrate_foreground` delays each channel by the frequency the tone has inside the channel. For a sine above `fs/(2M)`, which is the usual use of interleaving, the skew is not removed: what is left is `q (fs/M)/fin` times the skew, more than before when the sine lies below `q fs/M` (`C139_upper_zones`; 5/3 for two channels and 0.3 fs). The docstring states the limit for accuracy only.
* C140: with `harmonic_order > 1` the SNR of `calibrate_weight_sine` counts the fitted harmonics as signal (`_post_process.py:62-66`), so it can be 200 dB on a record whose spectrum shows 9 dB (`C140_harmonics_false`).
* C142: at `Fin = Fs/2` `apply_jitter` on a record has no effect on the clean sine (`C142_half_rate_false`); the docstring of the branch says only that it preserves previous errors.
* C143: `dbc` of `predict_spurs` is documented as relative to the fundamental but uses `A mean(gain)`, which exceeds the amplitude of the fundamental when there are skews (`C143_dbc`, `C143_dbc_carrier_false`).
* C145: `apply_drift` raises `ValueError` for generators of at most nine samples (`filtfilt` refuses them); its documentation names no minimum.
* C146: `quick_sndr` reports fewer than 4 bits for an exact sine half a bin off, with its default Hann window: its documentation calls the default of one side bin the coherent one, but not what it costs otherwise.
* C147: the shaped record starts with an empty filter, so the first samples carry an unshaped step; it is part of the in-band noise and falls only with the square root of the record length. The documentation of `apply_noise_shaping` does not mention it.
* C148: with `coeff_k=0` `apply_incomplete_sampling` produces no distortion at all, however short the tracking time; the reported SNDR is limited only by the first samples, because the previous value starts at the offset. The docstring speaks of settling errors in general.
* C151: `analyze_bit_activity` says that deviations from 50% indicate offset or amplitude clipping. Clipping at both ends does not: a centred sine of any amplitude, however far beyond the range, gives 50% in every bit (`C151_sar`).
* C153: with `signalType='other'` and `'values'` `adcpanel.m` sets `rep.spectrum` to empty although its help promises spectral metrics (`C153_other`); the plot is drawn with `'disp',1` even when `disp` is false.
* C153: a misspelt `dataType` is not rejected: the report is empty (`C153_unknown_type`).
* C153: `adcpanel.m` scales the weights to a given `maxCode` by their sum but computes its default from the sum of their magnitudes; with weights of both signs the calibrated record exceeds the given full scale (`C153_full_scale_false`). The help states `2^M` as default.
* C153: for bits the sine analysis is run whatever `signalType` says, and `rep.signalType` keeps what was given.
* C154: the `INL Profile` of `rearrange_error_by_value.py:96-97` is a best-fit-line INL at code centres, not the end-point INL of `compute_inl_from_sine`; it equals the INL only to within half the width of each code.
* C156: names typed on both sides of an option (`user --force dev --dest d`) are refused as unrecognized arguments although `skill_cli.py:183-190` documents a list of names; and because `argparse` accepts beginnings, `--u` and `--f` already replace existing skills.
* C158: with `include_base_noise=True` (the default) `rearrange_error_by_phase` cannot report AM and PM together. Noise with both is reported as the excess of the stronger over the weaker, and the weaker one is added to the noise floor (`C158_estimates`). The code's comments call this redistribution; the docstring lists `am_noise_rms_v` and `pm_noise_rms_v` as if both were measured. The docstring also lists a key `noise_floor_rms_v` (rearrange_error_by_phase.py:48); the key returned is `base_noise_rms_v` (line 197).
* C159: the polarity correction (`_post_process.py:78`, `calibrate_weight_sine_lite.py:40`) makes the sum of the weights non-negative. Two's complement codes have a negative true sum (the sign bit outweighs the rest), so the calibration returns them negated and the corrected record is upside down (`C159_negative_sum_full`, example with the codes -1, 0, 1, 0). The docstring does not say that offset binary is expected.
* C161: `_calculate_harmonic_power_plotspec` (unused) calls itself "like MATLAB plotspec: single FFT bin per harmonic, sum for THD". `plotspec.m:574-582` sums the lobes with de-duplication, as `_calculate_harmonic_power` does (`C161_not_plotspec`).
* C165: `gen_pipeline8s_dout.m:45-46` computes `effective_bits_remaining` too small by `log2(G)` in every stage but the last (4 instead of 6 bits for the last two stages), so `dout*weights'` is not monotone and the printed ENoB and `bitchk` figure are those of wrong weights. The CSV file holds the bits and is right.
* C166: `gen_sinewave_nyquist_zones.m:4-9` calls its two targets Zone 2 and Zone 3; at `Fs = 2.5e9` both are below `Fs/2`, get the same name and the second overwrites the first.
* C166: `gen_sinewave_nonlin_dynamic.m:24-28` computes `J` and `Fin` for the target but builds the sine from the `ideal_phase` of `common_gen_sinewave.m`; the name says 450 MHz, the data is at 1000 MHz.
* C166: `gen_sinewave_nonlin_hd.m:16-20` calls the coefficients corrected to reach the asked HD levels; the cubic term also raises the fundamental, so both levels relative to it come out lower by `20 log10(1 + 3 * 10^(HD3/20))` dB.
* C167: `gen_sinewave_am_noise.m:19` and `gen_sinewave_ref_error.m:17` print their value with three decimals, so the files for 0.0005 and 0.00075 are both called `0P001`.
* C168: `gen_sinewave_am_pm_noise.m:5-6` says 'same value across all noise types for comparison' and stores it as `target_v_rms`; the value is a peak over the phase for two of the files and the rms value for the third, so the thermal file has 3.01 dB more noise.
* C169: `python/tests/integration/test_err_pdf.py:19-21` says that MATLAB `errpdf` takes the raw signal and computes the error itself; `errpdf.m` takes the error (`run_errpdf.m:12-15` passes it), and of a raw sine it reports the spread of the sine.
* C170: `errHistSine.m:77` says outputs 3 and 7 are swapped; line 78 passes all seven on in order, which is what the help text asks for. `'mode', 'phase'` selects the value axis (`C170_text`).
* C170: `errsin.m:86` says `fin=0` makes the fit estimate the frequency; the parser (`errsin.m:103`) refuses a 0 that is passed, so only leaving `fin` out does. `mlErrFit` takes `fin = 0` to mean that it was left out.
* C171: `bitact.m` draws the whole range 0..100 % and labels every extreme bit; `analyze_bit_activity` draws 40..60 % and labels one bit (`C171_highlight`, `C98_dead_bit`).
* C172: `bitsweep.m` calibrates every subset of the bits anew; `analyze_enob_sweep`, which the comparison tests pair with it, calibrates once with all bits and uses the leading weights (C81). In MATLAB a point does not depend on the bits after it (`C172_prefix`); for Python no such theorem is claimed. A matrix with fewer rows than columns is transposed by MATLAB (`C172_transpose`) and refused by Python (`C81_wide_refused`).
* C173: `plotspec.m:156, 196` say that the new names have priority; `'averageMode', 'normal'` with `'coAvg', 1` still averages coherently and `'window', 'hann'` with another `winType` uses that one (`C173_exceptions`). `'averageMode', 0` does override. `'cutoff', 0` is the documented default and is refused when passed (`C173_refused`).
