{"id": "C01", "title": "Coherent bin is eligible and closest", "statement": "When find_coherent_frequency returns, the bin is positive, lies within the search radius of the rounded target bin, is odd if odd bins are forced, is coprime with n_fft, the returned frequency is exactly bin*fs/n_fft, and no other eligible bin in the search window is closer to the target (on a tie the smaller bin wins).", "quantifier": "every target frequency, sampling rate, FFT length, search radius and both settings of force_odd", "why_tests_cant": "The set of (fin, fs, n_fft, radius) is infinite and optimality compares the result against every eligible bin in the window.", "anchors": ["python/src/adctoolbox/fundamentals/frequency.py:12-88 (find_coherent_frequency)"]}
{"id": "C02", "title": "Coherent search fails only when nothing is eligible", "statement": "find_coherent_frequency raises ValueError exactly when no bin in the search window is positive, coprime with n_fft and (when forced) odd.", "quantifier": "every target, rate, FFT length and radius", "why_tests_cant": "It needs the non-existence of an eligible bin over the whole search window, for all inputs.", "anchors": ["python/src/adctoolbox/fundamentals/frequency.py:12-88 (find_coherent_frequency)"]}
{"id": "C03", "title": "Coherent bin visits every phase once", "statement": "A capture of n_fft samples of a tone at the bin returned by find_coherent_frequency visits n_fft pairwise distinct phases, i.e. sample index k -> (k*bin mod n_fft) is a bijection.", "quantifier": "every successful call and every pair of sample indices", "why_tests_cant": "It must hold for every n_fft and every bin the search can return.", "anchors": ["python/src/adctoolbox/fundamentals/frequency.py:12-88 (find_coherent_frequency)"]}
{"id": "C04", "title": "Frequency folding is the true alias", "statement": "fold_frequency_to_nyquist(fin, fs) lies in [0, fs/2] and is the only value there that differs from fin or -fin by a multiple of fs; hence it is even in fin, periodic in fs and idempotent, and a cosine at the folded frequency has exactly the samples of a cosine at fin.", "quantifier": "every real fin and every fs > 0, every sample index", "why_tests_cant": "The inputs form a continuum, with exact ties at odd multiples of fs/2 that random floats do not hit.", "anchors": ["python/src/adctoolbox/fundamentals/frequency.py:90-129 (fold_frequency_to_nyquist)"]}
{"id": "C05", "title": "Bin folding is the true alias", "statement": "fold_bin_to_nyquist(bin, n_fft) lies in [0, n_fft/2] and differs from bin or -bin by a multiple of n_fft.", "quantifier": "every (possibly fractional, possibly negative) bin and every n_fft >= 1", "why_tests_cant": "Bins and FFT lengths are unbounded; the boundary for odd lengths and fractional bins is easy to miss, and indeed the claim fails there.", "anchors": ["python/src/adctoolbox/fundamentals/frequency.py:131-168 (fold_bin_to_nyquist)"]}
{"id": "C06", "title": "dB and physical unit conversions invert each other", "statement": "db_to_mag/mag_to_db, db_to_power/power_to_db, dbm_to_vrms/vrms_to_dbm, dbm_to_mw/mw_to_dbm, lsb_to_volts/volts_to_lsb and snr_to_enob/enob_to_snr are mutually inverse on their natural domains.", "quantifier": "every real dB value, every positive magnitude/power/voltage, every impedance > 0, every resolution and full scale", "why_tests_cant": "A round trip has to hold for every real level and every impedance; a table of sample values cannot show that the two formulas are inverse functions, only that they agree at those values.", "anchors": ["python/src/adctoolbox/fundamentals/units.py:1-136"]}
{"id": "C07", "title": "Bin/frequency conversion round trip", "statement": "freq_to_bin(bin_to_freq(b)) = b for every integer bin, and bin_to_freq(freq_to_bin(f)) is within half a bin of f for every f.", "quantifier": "every integer bin, every real frequency, every fs > 0 and n_fft >= 1", "why_tests_cant": "The error bound of rounding to a bin must hold for every real frequency, including the half-way points between bins, and for every FFT length; there is no finite set of frequencies that covers it.", "anchors": ["python/src/adctoolbox/fundamentals/units.py:31-33 (bin_to_freq)", "python/src/adctoolbox/fundamentals/units.py:35-37 (freq_to_bin)"]}
{"id": "C08", "title": "SNR/NSD conversions are inverse and the two public implementations agree", "statement": "nsd_to_snr inverts snr_to_nsd in both modules, and the two public snr_to_nsd implementations return the same value when called with the same named quantities (SNR, fs, OSR, signal level). With the same positional arguments they do not in general agree.", "quantifier": "every SNR, fs > 0, OSR > 0 and signal level", "why_tests_cant": "It is the equality of two functions written in different modules with different argument orders; agreement on samples does not exclude a disagreement in another argument.", "anchors": ["python/src/adctoolbox/fundamentals/units.py:47-76 (snr_to_nsd)", "python/src/adctoolbox/fundamentals/units.py:78-108 (nsd_to_snr)", "python/src/adctoolbox/fundamentals/snr_nsd.py:98-178 (snr_to_nsd)", "python/src/adctoolbox/fundamentals/snr_nsd.py:180-256 (nsd_to_snr)"]}
{"id": "C09", "title": "Capacitor-to-weight equals charge redistribution", "statement": "The weights returned by convert_cap_to_weight are the exact voltage transfer coefficients of the bridged capacitor ladder: for every choice of bottom-plate voltages, the output node voltage that satisfies charge conservation at every section node is the weighted sum of those voltages. All weights are non-negative and sum to at most 1, and mismatched lengths raise ValueError.", "quantifier": "every number of sections and every non-negative bit/bridge/parasitic capacitor vector", "why_tests_cant": "The claim is about charge balance in a ladder with any number of sections and any capacitor values; a test fixes one ladder.", "anchors": ["python/src/adctoolbox/fundamentals/convert_cap_to_weight.py:13-87 (convert_cap_to_weight)"]}
{"id": "C10", "title": "Ideal SAR conversion is floor quantization", "statement": "sar_convert with ideal binary weights and no noise returns the N-bit binary expansion (MSB first) of floor((vin-vmin)/fs*2^N) clamped to [0, 2^N-1].", "quantifier": "every resolution N >= 1, every input range vmin<vmax, every real input, in range or not", "why_tests_cant": "The quantisation bound concerns all resolutions and a continuum of inputs, including values arbitrarily close to a threshold, where a test cannot look.", "anchors": ["python/src/adctoolbox/models/sar.py:176-262 (sar_convert)", "python/src/adctoolbox/models/sar.py:42-83 (sar_ideal_weights)"]}
{"id": "C11", "title": "SAR reconstruction error is below one LSB", "statement": "For ideal weights and any input in [vmin, vmax), vin - sar_reconstruct(sar_convert(vin)) lies in [0, LSB); below range the reconstruction is vmin and above it is vmax-LSB.", "quantifier": "every resolution, range and input", "why_tests_cant": "It relates two functions at every code of every resolution; an exhaustive test is impossible already at 24 bits and says nothing about the next resolution.", "anchors": ["python/src/adctoolbox/models/sar.py:176-262 (sar_convert)", "python/src/adctoolbox/models/sar.py:265-298 (sar_reconstruct)"]}
{"id": "C12", "title": "SAR transfer curve is monotone for any weights", "statement": "With zero noise and any non-negative weights (mismatched or redundant included), vin1 <= vin2 implies sar_reconstruct(sar_convert(vin1)) <= sar_reconstruct(sar_convert(vin2)), and the reconstructed value never exceeds the input when the input is at or above vmin.", "quantifier": "every weight vector of every length, every pair of inputs", "why_tests_cant": "Monotonicity quantifies over pairs of inputs and over arbitrary weight vectors; a violation may occur only for one gap of one vector.", "anchors": ["python/src/adctoolbox/models/sar.py:176-262 (sar_convert)", "python/src/adctoolbox/models/sar.py:265-298 (sar_reconstruct)"]}
{"id": "C13", "title": "Redundant weights leave a bounded residue", "statement": "If every weight is at most the sum of the later weights plus eps, then for every input in [0, sum+eps) of the normalized range the noise-free conversion residue lies in [0, eps); conversely if some weight exceeds the later sum by more than eps there is an input whose residue is >= eps.", "quantifier": "every weight vector and every input", "why_tests_cant": "The bound concerns the worst input of an arbitrary weight vector; sampling inputs finds the worst case of a fixed vector only by luck.", "anchors": ["python/src/adctoolbox/models/sar.py:176-262 (sar_convert)"]}
{"id": "C14", "title": "Redundancy absorbs comparator errors", "statement": "Downward comparator noise within the redundancy margin of each trial is fully absorbed: the final residue still lies in the error-free band [0, eps), whatever the noise sequence. With upward noise of at most E (and downward noise within the margin) the residue lies in [-E, eps). The symmetric claim (upward noise within the margin is absorbed too) is false, because the loop can only add weights.", "quantifier": "every weight vector, every input and every noise sequence within the margins", "why_tests_cant": "The noise is adversarial: any sequence within the margin. Random tests never produce the worst sequence.", "anchors": ["python/src/adctoolbox/models/sar.py:176-262 (sar_convert)"]}
{"id": "C15", "title": "Ideal weights are normalized", "statement": "sar_ideal_weights returns n_bits weights (n_bits+1 with a redundant bit), all positive, non-increasing, with sum + last weight equal to 1; the duplicated bit sits next to the original; positions outside [-n_bits, n_bits) and n_bits = 0 raise IndexError. (Position -1 is accepted but puts the duplicate first, breaking the order.)", "quantifier": "every resolution and redundant position", "why_tests_cant": "The weight formula must hold at every resolution and position of the redundant bit.", "anchors": ["python/src/adctoolbox/models/sar.py:42-83 (sar_ideal_weights)"]}
{"id": "C16", "title": "Cross-module quantizer agreement", "statement": "ADC_Signal_Generator.apply_quantization_noise and the ideal SAR model (convert then reconstruct) give the same output for the same resolution and range.", "quantifier": "every resolution, range and input", "why_tests_cant": "Two independently written implementations must agree on all real inputs and all weight vectors.", "anchors": ["python/src/adctoolbox/siggen/nonidealities.py:62-77 (apply_quantization_noise)", "python/src/adctoolbox/models/sar.py:1-298"]}
{"id": "C17", "title": "Interleave and deinterleave are inverse", "statement": "interleave(deinterleave(x, M)) = x whenever deinterleave succeeds and deinterleave(interleave(ch), M) = ch; channel m of the result is x[m], x[m+M], x[m+2M], ... in order.", "quantifier": "every signal, every M and every channel matrix", "why_tests_cant": "Interleaving and de-interleaving must be inverse for every length and channel count, also when the length is not a multiple of the count.", "anchors": ["python/src/adctoolbox/timeinterleave/deinterleave.py:1-50", "python/src/adctoolbox/timeinterleave/interleave.py"]}
{"id": "C18", "title": "Deinterleave input checks", "statement": "deinterleave raises ValueError exactly when the input is not one-dimensional, M <= 0, or the length is not a multiple of M.", "quantifier": "every shape and every integer M", "why_tests_cant": "It is an if-and-only-if over all shapes and all integers M, including zero and negative ones; tests try a few refused and a few accepted calls.", "anchors": ["python/src/adctoolbox/timeinterleave/deinterleave.py:1-50"]}
{"id": "C19", "title": "Foreground calibration inverts offset and gain mismatch", "statement": "When an ideal interleaved signal is distorted by per-channel non-zero gains and offsets, calibrate_foreground with those offsets and gains and zero skews returns the ideal signal exactly.", "quantifier": "every channel count, length, signal, non-zero gains and offsets", "why_tests_cant": "Exact cancellation for every signal and every non-zero gain is an identity between functions, not a statement on sample signals.", "anchors": ["python/src/adctoolbox/timeinterleave/calibrate_foreground.py:1-100"]}
{"id": "C20", "title": "Extracted mismatch is normalized", "statement": "extract_mismatch_sine returns gains with mean exactly 1 and skews with mean exactly 0, and is invariant to scaling every channel amplitude by a common factor.", "quantifier": "every set of per-channel sine-fit results with non-zero mean amplitude", "why_tests_cant": "The means are exact identities for any number of channels and any amplitudes; floats show them only up to rounding and for the values tried.", "anchors": ["python/src/adctoolbox/timeinterleave/extract_mismatch_sine.py:1-103"]}
{"id": "C21", "title": "Farrow delay: integer delays and polynomials are exact", "statement": "fractional_delay_farrow with an integer-sample delay is exactly a zero-padded shift; the Lagrange taps sum to 1 and reproduce every polynomial of degree below the number of taps exactly away from the edges.", "quantifier": "every signal at least as long as the tap count, every order, every delay, every polynomial", "why_tests_cant": "Exactness on polynomials up to the order is a statement over all coefficients and all delays; a test checks a few of each.", "anchors": ["python/src/adctoolbox/timeinterleave/fractional_delay.py:57-111 (fractional_delay_farrow)"]}
{"id": "C22", "title": "FFT delay: zero, integer and composed delays", "statement": "fractional_delay_fft preserves length, is the identity for zero delay, a circular shift for an integer-sample delay, and for odd length delays compose additively.", "quantifier": "every real signal of every length and every delay", "why_tests_cant": "Linearity, energy and periodicity of the delay must hold for every record and delay; rounding noise in a float test hides small violations.", "anchors": ["python/src/adctoolbox/timeinterleave/fractional_delay.py:18-54 (fractional_delay_fft)"]}
{"id": "C23", "title": "Spur prediction is complete, in band and sorted", "statement": "predict_spurs returns exactly 2(M-1) entries sorted by frequency, all frequencies in [0, fs/2]; all amplitudes vanish when offsets are equal and gain/skew are matched.", "quantifier": "every channel count and mismatch vector", "why_tests_cant": "Number, order and range of the entries must hold for any channel count, sample rate and mismatch vector, including fold-over at fs/2.", "anchors": ["python/src/adctoolbox/timeinterleave/predict_spurs.py:1-108"]}
{"id": "C24", "title": "Predicted offset spurs are the true spectral lines", "statement": "The spectrum of an interleaved capture whose channels differ only by offset has lines exactly at the predicted offset-spur positions, and the complete spur list rebuilds the capture exactly: each listed entry carries the complex line amplitude, i.e. half of the observable tone except at fs/2.", "quantifier": "every M, every offset vector, every capture length multiple of M", "why_tests_cant": "It identifies a closed formula with a discrete Fourier transform of any length and rebuilds every capture exactly.", "anchors": ["python/src/adctoolbox/timeinterleave/predict_spurs.py:1-108"]}
{"id": "C25", "title": "In-band bin count", "statement": "rfft_inband_bin_count is between 1 and N//2+1, equals N//2+1 at OSR=1, never grows when OSR grows, and counts exactly the one-sided bins whose frequency does not exceed fs/(2*OSR) (as documented).", "quantifier": "every N >= 1 and OSR >= 1", "why_tests_cant": "The boundaries depend on roundings of N/2/OSR, where errors appear only at particular combinations of N and OSR.", "anchors": ["python/src/adctoolbox/spectrum/_bin_ranges.py:1-27"]}
{"id": "C26", "title": "Total spectrum power is the signal power (Parseval)", "statement": "The sum of the one-sided power spectrum produced by power averaging equals the (window-corrected) mean square of the prepared record, for even and odd N. A coherent tone of amplitude A on any DC level reads 20*log10(A/full scale) dBFS at its true bin with zero noise and distortion, for every cosine-sum window with its default side_bin.", "quantifier": "every real record, window and length", "why_tests_cant": "Parseval's identity for every window and record length, odd lengths included, is an equation between sums, which floats only approximate.", "anchors": ["python/src/adctoolbox/spectrum/_spectrum_averaging.py:9-41 (_power_average)", "python/src/adctoolbox/spectrum/_window.py:1-178"]}
{"id": "C27", "title": "Fundamental is the strongest non-DC in-band bin", "statement": "The located fundamental is never DC, lies in the analysis band and no in-band non-DC bin has larger power; the interpolated bin is within half a bin of it.", "quantifier": "every power spectrum and in-band limit", "why_tests_cant": "The located bin must be the maximum of every spectrum, including ties and peaks at the edge of the band.", "anchors": ["python/src/adctoolbox/spectrum/_locate_fundamental.py:1-75"]}
{"id": "C28", "title": "SFDR is never below SNDR", "statement": "In compute_spectrum's accounting the largest spur power is at most the total noise-and-distortion power, hence SFDR >= SNDR.", "quantifier": "every spectrum, side_bin, cutoff and OSR", "why_tests_cant": "Disjointness of the bins counted as signal, noise and spur must hold for every position of the tone, including wrap-around at the edges.", "anchors": ["python/src/adctoolbox/spectrum/compute_spectrum.py:1-218", "python/src/adctoolbox/spectrum/_harmonics.py:179-220 (_extract_highest_spur)"]}
{"id": "C29", "title": "Harmonic power is not double counted and excludes the signal", "statement": "THD sums each spectrum bin at most once, never uses a bin of the fundamental's own window, and each harmonic is looked up at its true alias bin.", "quantifier": "every fundamental bin, record length, side_bin and number of harmonics", "why_tests_cant": "Alias collisions of harmonics occur for particular combinations of tone bin, length and side bins; tests use a tone chosen to avoid them.", "anchors": ["python/src/adctoolbox/spectrum/_harmonics.py:1-276"]}
{"id": "C30", "title": "quick_sndr agrees with compute_spectrum", "statement": "quick_sndr returns the same SNDR and ENOB as compute_spectrum for the same data, window and side_bin (OSR=1, no cutoff).", "quantifier": "every record and window with the same explicit side_bin", "why_tests_cant": "Two independent implementations must agree on every record; a test compares them on a few.", "anchors": ["python/src/adctoolbox/spectrum/quick_sndr.py:1-68", "python/src/adctoolbox/spectrum/compute_spectrum.py:1-218"]}
{"id": "C31", "title": "Spectrum metrics ignore gain and offset", "statement": "With automatic full scale, scaling the record by any positive constant and adding any constant leaves the normalized record, hence every spectrum and metric, unchanged.", "quantifier": "every record, gain > 0 and offset", "why_tests_cant": "Invariance under every gain and offset is a statement about all affine maps of all records.", "anchors": ["python/src/adctoolbox/spectrum/_prepare_fft_input.py:1-60"]}
{"id": "C32", "title": "Power averaging ignores run order", "statement": "Power-averaged spectra do not depend on the order of the runs, and averaging identical runs equals a single run.", "quantifier": "every list of runs and every permutation", "why_tests_cant": "It quantifies over all permutations of all lists of runs.", "anchors": ["python/src/adctoolbox/spectrum/_spectrum_averaging.py:9-41 (_power_average)"]}
{"id": "C33", "title": "Automatic side_bin stays in band", "statement": "The automatically detected side_bin is non-negative, never smaller than the window default (when it fits) and never makes the signal window exceed the analysis band.", "quantifier": "every spectrum, bin and window", "why_tests_cant": "The search widens over an arbitrary spectrum; that it stays inside the band must hold for every shape and every position of the tone, including the edges.", "anchors": ["python/src/adctoolbox/spectrum/_side_bin_auto.py:1-49"]}
{"id": "C34", "title": "Phase alignment touches every bin exactly once", "statement": "Phase alignment multiplies each one-sided bin other than DC by exactly one unit-modulus rotation (the h-th power of the fundamental's conjugate phasor on the bin of harmonic h, one common rotation elsewhere) and clears DC, so bin magnitudes are preserved; circularly shifting an unwindowed coherent capture does not change the aligned spectrum. Coherently averaging windowed captures of different start phase must keep the signal power.", "quantifier": "every spectrum, fundamental bin coprime with N, every shift", "why_tests_cant": "Alignment depends on the alias pattern of N and the tone bin; each pair has its own order of visits, and there are infinitely many.", "anchors": ["python/src/adctoolbox/spectrum/_align_spectrum_phase.py:1-95"]}
{"id": "C35", "title": "OSR sweep equals direct summation", "statement": "sweep_performance_vs_osr's incremental accumulation reports for every requested OSR the noise power obtained by direct summation over that OSR's band, whatever the order or repetition of the requested OSRs.", "quantifier": "every spectrum and every list of OSR values in any order", "why_tests_cant": "The incremental sums must agree with the direct ones for every order of OSR values, with repetitions.", "anchors": ["python/src/adctoolbox/spectrum/sweep_performance_vs_osr.py:1-182"]}
{"id": "C36", "title": "Band extraction is a real projection", "statement": "extract_freq_components returns a real linear projection of the signal: applying it twice with the same bands equals applying it once, the full band [0, 0.5] is the identity, coherent tones inside a band pass unchanged and tones more than half a bin outside every band vanish; order, repetition and edge order of bands are irrelevant and bad band tables raise ValueError.", "quantifier": "every record length and band list", "why_tests_cant": "Even and odd lengths, bands at the edges and overlapping bands behave differently; the claim covers all of them.", "anchors": ["python/src/adctoolbox/spectrum/extract_freq_components.py:1-73", "python/src/adctoolbox/oversampling/ifilter.py:1-34"]}
{"id": "C37", "title": "Noise estimate is positive and method errors are reported", "statement": "The noise estimate is at least the documented positive floor for every method, unknown methods raise ValueError, and the median-of-three method lies between the other estimates.", "quantifier": "every spectrum and method", "why_tests_cant": "An estimator bound must hold for every spectrum; random test spectra concentrate where the bound is slack.", "anchors": ["python/src/adctoolbox/spectrum/_estimate_noise_power.py:1-140"]}
{"id": "C38", "title": "Rank patching and recovery are exact", "statement": "For any pattern of constant, independent and correlated bits, the reduced bit matrix times reduced weights equals the full bit matrix times the recovered weights up to the contribution of dropped constant bits, and recovered weights of merged bits keep the nominal ratio.", "quantifier": "every bit matrix, nominal weight vector and merge pattern", "why_tests_cant": "Which columns are merged depends on exact linear dependence in the data; all dependence patterns have to be covered.", "anchors": ["python/src/adctoolbox/calibration/_patch_rank_deficiency.py:1-152"]}
{"id": "C39", "title": "Column scaling is undone exactly", "statement": "Scaling columns by powers of ten and un-scaling the solved weights leaves the model output unchanged.", "quantifier": "every matrix and weight vector", "why_tests_cant": "Scaling and undoing it must cancel for every matrix and solution vector.", "anchors": ["python/src/adctoolbox/calibration/_scale_columns_for_conditioning.py:1-75"]}
{"id": "C40", "title": "Noise-free calibration recovers the true weights", "statement": "If the digital codes come from a converter with true weights w whose weighted output is exactly a sine plus offset at the known frequency, calibrate_weight_sine (and the lite variant) recovers w up to the common scale and polarity; bits that never toggle are given weight zero and do not disturb the others.", "quantifier": "every weight vector, bit matrix with one-dimensional null space, frequency and phase", "why_tests_cant": "Exact recovery must hold for every converter whose weights are identifiable; a test shows it for one converter, up to solver rounding.", "anchors": ["python/src/adctoolbox/calibration/calibrate_weight_sine.py:1-182", "python/src/adctoolbox/calibration/calibrate_weight_sine_lite.py:1-43"]}
{"id": "C41", "title": "Calibration decomposition identity and polarity", "statement": "In the returned result, calibrated signal - offset - ideal sine = error, and the sum of the returned weights is non-negative.", "quantifier": "every result", "why_tests_cant": "The decomposition into ideal signal, error and offset is an identity for every result of the solver, not only for good ones.", "anchors": ["python/src/adctoolbox/calibration/_post_process.py:1-137"]}
{"id": "C42", "title": "Coefficient layout is respected", "statement": "Every coefficient the calibration reads back (offsets, quadrature, frequency steps) is read from the column it was fitted for, for any number of datasets and harmonics, with and without frequency search.", "quantifier": "every dataset count K, harmonic count H and bit count W", "why_tests_cant": "Index arithmetic in the coefficient vector must be right for every combination of dataset, harmonic and bit counts; a wrong offset can coincide with the right one for one dataset.", "anchors": ["python/src/adctoolbox/calibration/_lstsq_solver.py:1-363", "python/src/adctoolbox/calibration/calibrate_weight_sine.py:1-182"]}
{"id": "C43", "title": "Bit activity is a percentage", "statement": "analyze_bit_activity returns for every column a value in [0,100] equal to the share of ones, with 100 iff the bit is always one and 0 iff never.", "quantifier": "every 0/1 matrix", "why_tests_cant": "Counts and ratios must hold for every matrix, including empty and constant columns.", "anchors": ["python/src/adctoolbox/dout/analyze_bit_activity.py:1-71"]}
{"id": "C44", "title": "Overflow residue range and rails", "statement": "For positive weights and 0/1 codes, every residue distribution value of analyze_overflow lies in [0,1]; a sample counts as rail-low (rail-high) for a bit iff that bit and all later bits are zero (one). A common positive factor of the weights changes nothing in the report.", "quantifier": "every bit matrix and positive weight vector", "why_tests_cant": "The residue ranges must hold for every code and weight vector, including non-binary and redundant ones.", "anchors": ["python/src/adctoolbox/dout/analyze_overflow.py:1-171"]}
{"id": "C45", "title": "Weight radix report", "statement": "analyze_weight_radix is invariant under a common non-zero scaling of the weights; binary weights give radix 2 everywhere and an effective resolution equal to the number of bits.", "quantifier": "every weight vector", "why_tests_cant": "Invariance under every scale factor and the value for every number of bits are identities; tests use a few vectors.", "anchors": ["python/src/adctoolbox/dout/analyze_weight_radix.py:1-184"]}
{"id": "C46", "title": "Ramp DNL/INL bookkeeping", "statement": "compute_inl_from_ramp returns DNL >= -1 summing to zero, one INL value more than DNL values, raw INL equal to prefix sums of DNL starting and ending at 0; with endpoint correction INL starts and ends at 0; DNL = -1 exactly at the missing codes.", "quantifier": "every integer code record and configuration", "why_tests_cant": "The end points and sums of DNL and INL are identities over all histograms.", "anchors": ["python/src/adctoolbox/aout/compute_inl_from_ramp.py:1-205"]}
{"id": "C47", "title": "Ramp analysis depends only on the histogram", "statement": "compute_inl_from_ramp gives the same result for any reordering of the samples and for any k-fold repetition of the record, and it raises ValueError exactly in the documented situations.", "quantifier": "every record and permutation", "why_tests_cant": "Independence of the sample order quantifies over all permutations of all records.", "anchors": ["python/src/adctoolbox/aout/compute_inl_from_ramp.py:1-205"]}
{"id": "C48", "title": "Sine-histogram DNL bookkeeping", "statement": "compute_inl_from_sine returns DNL >= -1 for codes c_min..c_max-2, INL equal to its running sum, with -1 at every missing code; a record whose transformed histogram is uniform gives zero DNL and INL.", "quantifier": "every code record", "why_tests_cant": "The arcsine transform must be exact for every histogram; a simulated sine gives one histogram with noise.", "anchors": ["python/src/adctoolbox/aout/compute_inl_from_sine.py:1-137"]}
{"id": "C49", "title": "Value-binned error statistics are conservative", "statement": "rearrange_error_by_value assigns each sample to a bin in range, the per-bin counts add up to the number of kept samples, counts times means add up to the kept error sum, and per-bin RMS is at least |mean|. Count, mean and RMS of a kept bin are those of exactly the samples whose nearest centre it is; bins that are clipped or empty report no mean and no RMS.", "quantifier": "every record, bin count and clip fraction", "why_tests_cant": "Binning errors show at bin edges and for degenerate records, which random data never reach.", "anchors": ["python/src/adctoolbox/aout/rearrange_error_by_value.py:1-116"]}
{"id": "C50", "title": "AM/PM separation reproduces the fitted variance curve", "statement": "rearrange_error_by_phase returns non-negative AM, PM and base variances, at most one of AM and PM non-zero (with base noise), and whenever the base is not clipped the reported model am*cos^2+pm*sin^2+base equals the fitted curve at every phase. Count, mean and RMS of a bin are those of exactly the samples whose phase falls in its slot. A record that is a sine plus an error the fit cannot absorb, whose square follows an AM/PM/base model, gets back that sine, that error and the parts of that model.", "quantifier": "every fitted coefficient pair and every phase", "why_tests_cant": "Amplitude and phase noise are extracted by a linear fit; its exactness concerns all coefficient pairs and phases.", "anchors": ["python/src/adctoolbox/aout/rearrange_error_by_phase.py:1-226"]}
{"id": "C51", "title": "Harmonic decomposition is exact", "statement": "decompose_harmonic_error splits the averaged record exactly into fundamental + harmonics + residual, and the relative harmonic phases are in [-pi, pi) and unchanged by a time shift of the record.", "quantifier": "every record, frequency and harmonic count", "why_tests_cant": "The parts must add up to the record and be orthogonal for every record and frequency; floats show it only approximately.", "anchors": ["python/src/adctoolbox/aout/decompose_harmonic_error.py:1-181"]}
{"id": "C52", "title": "Error autocorrelation symmetry", "statement": "analyze_error_autocorr returns a symmetric sequence whose normalized lag-0 value is 1.", "quantifier": "every error record with non-zero variance and every max_lag below the record length", "why_tests_cant": "Symmetry, normalisation and the bound by one must hold for every error record.", "anchors": ["python/src/adctoolbox/aout/analyze_error_autocorr.py:1-129"]}
{"id": "C53", "title": "Quantizer output range, monotonicity, idempotence", "statement": "apply_quantization_noise output stays within [vmin, vmax-LSB], is monotone in the input, is off by less than one LSB in range, and quantizing twice equals quantizing once.", "quantifier": "every input, resolution and range", "why_tests_cant": "The quantiser bound concerns every real input, including clipping and half-way points.", "anchors": ["python/src/adctoolbox/siggen/nonidealities.py:62-77 (apply_quantization_noise)"]}
{"id": "C54", "title": "Requested harmonic distortion levels are produced exactly", "statement": "For a full-amplitude sine of amplitude A the static nonlinearity configured by HD2..HD5 in dB (each alone) produces a k-th harmonic whose amplitude is exactly 10^(HDk/20) times A.", "quantifier": "every amplitude, phase and HD level", "why_tests_cant": "The harmonic levels are a polynomial identity in amplitude and phase over all reals.", "anchors": ["python/src/adctoolbox/siggen/nonidealities.py:122-136 (apply_static_nonlinearity_hd)"]}
{"id": "C55", "title": "Noise shaping transfer", "statement": "apply_noise_shaping adds exactly the order-n finite difference of the quantization error and rejects orders outside 1..5 with ValueError.", "quantifier": "every signal and order", "why_tests_cant": "The shaping filter is characterised for every error sequence and order by a difference equation, which a test can only sample.", "anchors": ["python/src/adctoolbox/siggen/nonidealities.py:327-399 (apply_noise_shaping)"]}
{"id": "C56", "title": "Incomplete settling stays bounded", "statement": "The incomplete-sampling memory recursion keeps every output inside the range spanned by the starting level (the offset) and the input samples seen so far and converges to a constant input.", "quantifier": "every input sequence and settling factor in [0,1]", "why_tests_cant": "Convergence and bounds must hold for every input sequence, a statement by induction over its length.", "anchors": ["python/src/adctoolbox/siggen/nonidealities.py:1-399"]}
{"id": "C57", "title": "Data validation decision", "statement": "validate_aout_data and validate_dout_data raise exactly for the documented classes of bad input and warn without raising for stuck bits.", "quantifier": "every input array", "why_tests_cant": "The accept/reject decision must be right for every shape and content, including NaN, infinities and empty arrays.", "anchors": ["python/src/adctoolbox/fundamentals/validate.py:1-117"]}
{"id": "C58", "title": "Sine fit iteration control", "statement": "fit_sine_4param performs at most max_iterations refinements, always reports a frequency inside the open Nyquist interval after refinement, reports converged exactly when the last step was below tolerance, and fitted_signal + residuals equals the data. Started at the frequency of a sine to which an error orthogonal to the sine family is added, it returns the parameters of the sine and the error as residuals.", "quantifier": "every record, estimate, iteration budget and tolerance, for any behaviour of the inner least-squares solver", "why_tests_cant": "The inner solver is a black box: the bounds must hold whatever it returns, and exactness for every amplitude, phase and frequency.", "anchors": ["python/src/adctoolbox/fundamentals/fit_sine_4param.py:1-142"]}
{"id": "C59", "title": "Skill name resolution", "statement": "The skills CLI resolves requested names to a duplicate-free list of existing bundled skills, in request order, with the documented precedence of --all, --dev, explicit names and default; unknown names raise ValueError.", "quantifier": "every request list and flag combination", "why_tests_cant": "The name resolution must be right for every list of names, with duplicates and unknown names in every position.", "anchors": ["python/src/adctoolbox/skill_cli.py:32-59 (resolve_skill_names)"]}
{"id": "C60", "title": "Skill installation never destroys without --force", "statement": "install_bundled_skills without force never modifies or removes an existing entry in the destination, fails with FileExistsError if a target exists; with force, into any destination directory other than the bundle itself, every requested skill is afterwards installed and in sync, and other entries are untouched.", "quantifier": "every file-system state, request and crash-free history of installs", "why_tests_cant": "It is a statement about all histories of installs and all prior states of the file system.", "anchors": ["python/src/adctoolbox/skill_cli.py:135-176 (install_bundled_skills)"]}
{"id": "C61", "title": "Sample rate only affects the noise spectral density", "statement": "Changing fs in compute_spectrum (with the low-frequency cutoff kept at the same fraction of fs) changes no metric other than the noise spectral density, which moves by exactly -10*log10 of the rate ratio.", "quantifier": "every record, configuration and pair of sample rates", "why_tests_cant": "Independence of the sample rate must hold for all pairs of rates.", "anchors": ["python/src/adctoolbox/spectrum/compute_spectrum.py:1-218"]}
{"id": "C62", "title": "Noise floor, NSD and ENOB identities", "statement": "In every compute_spectrum result, noise floor = signal power - SNR, NSD = noise floor - 10*log10(in-band bandwidth), ENOB = (SNDR - 1.76)/6.02, and with measured signal power the noise floor is the estimated noise power in dBFS.", "quantifier": "every record and configuration", "why_tests_cant": "The reported figures are tied by identities that must hold for every record, including silence and perfect tones.", "anchors": ["python/src/adctoolbox/spectrum/compute_spectrum.py:1-218"]}
{"id": "C63", "title": "compute_spectrum error contract", "statement": "On a record that passes input preparation, compute_spectrum succeeds exactly when OSR > 0, max_harmonic >= 1 and nf_method is in 0..4; every failure is a ValueError.", "quantifier": "every record and configuration", "why_tests_cant": "Which arguments are refused and with which exception is a decision over all argument combinations.", "anchors": ["python/src/adctoolbox/spectrum/compute_spectrum.py:1-218"]}
{"id": "C64", "title": "OSR sweep SNDR at OSR = 1", "statement": "sweep_performance_vs_osr at OSR 1 should report the ratio of signal power to mean-square residual power (the SNDR definition used elsewhere in the toolbox).", "quantifier": "every record and fitted sine", "why_tests_cant": "The incremental noise sums must match the spectrum engine for every residual.", "anchors": ["python/src/adctoolbox/spectrum/sweep_performance_vs_osr.py:1-182"]}
{"id": "C65", "title": "Calibration input contract", "statement": "calibrate_weight_sine raises ValueError exactly when a frequency exceeds 0.5, a frequency list that is not all zero has another length than the datasets, there is no dataset, a dataset is empty, widths differ after orientation, or the nominal weights have the wrong length; otherwise it returns a result for 0/1 bits exactly if some bit toggles (else IndexError); and frequencies outside the documented range [0, 0.5] are refused.", "quantifier": "every list of bit matrices, nominal weights and frequency argument", "why_tests_cant": "Orientation, stacking and the frequency guard must be right for every list of matrices.", "anchors": ["python/src/adctoolbox/calibration/_prepare_input.py:1-144", "python/src/adctoolbox/calibration/calibrate_weight_sine.py:1-182"]}
{"id": "C66", "title": "Stage residuals add up", "statement": "plot_residual_scatter returns for each requested stage the signal minus the value of the bits decided so far; the residuals of two stages differ by exactly the bits in between, and for codes of a noise-free converter with covered weights every stage residual stays within the range the remaining bits can resolve.", "quantifier": "every signal, bit matrix, weight vector and list of stage pairs", "why_tests_cant": "The identity concerns all records, weights and stage pairs; the range claim all noise-free conversions of all covered weights.", "anchors": ["python/src/adctoolbox/dout/plot_residual_scatter.py:1-116"]}
{"id": "C67", "title": "Ramp histogram error bound", "statement": "For a uniform ramp through a converter with any non-decreasing transition levels covering the analysed codes, every DNL value and every raw INL value reported by compute_inl_from_ramp is within 2/ideal_count of the true value, so the INL error does not accumulate along the record.", "quantifier": "all transition levels, ramp starts and slopes, record lengths, ranges, both edge modes", "why_tests_cant": "Tests use a few ideal or hand-made histograms; the bound is over all converters and ramps.", "anchors": ["python/src/adctoolbox/aout/compute_inl_from_ramp.py:1-205"]}
{"id": "C68", "title": "Two-stage gain-error models", "statement": "apply_ra_gain_error and apply_ra_gain_error_dynamic differ from plain truncation at the finer resolution by exactly gain error times the coarse value (coarse_path) or the residue (residue_path), where the dynamic gain depends on the previous output or residue; unit gain only truncates, a zero cubic coefficient makes the dynamic model equal the static one, an unknown mode raises ValueError; apply_memory_effect adds strength times the previous coarse value.", "quantifier": "every record, gain, resolution and mode", "why_tests_cant": "Gain error, dynamics and memory are recursions over sequences of any length.", "anchors": ["python/src/adctoolbox/siggen/nonidealities.py:171-198 (apply_ra_gain_error)", "python/src/adctoolbox/siggen/nonidealities.py:200-245 (apply_ra_gain_error_dynamic)", "python/src/adctoolbox/siggen/nonidealities.py:138-149 (apply_memory_effect)"]}
{"id": "C69", "title": "Amplitude modulation sidebands", "statement": "apply_am_tone on the clean sine produces exactly two sidebands of half the modulation depth at Fin +/- the modulation frequency, and on any record scales the deviation from the offset by a factor within 1 +/- depth.", "quantifier": "every amplitude, depth, frequency and record", "why_tests_cant": "The modulation formulas are identities over all amplitudes, depths and frequencies.", "anchors": ["python/src/adctoolbox/siggen/nonidealities.py:289-295 (apply_am_tone)", "python/src/adctoolbox/siggen/nonidealities.py:271-287 (apply_am_noise)"]}
{"id": "C70", "title": "Percentile clipping", "statement": "apply_clipping with a percentage up to 50 forces every sample between two levels inside the range of the record, changes no sample between them, alters at most ceil(pct*(N-1)/100) samples at each end, keeps the order of samples, and 0 percent changes nothing; other percentages above 100 or below 0 raise ValueError.", "quantifier": "every record and percentage", "why_tests_cant": "The clipped fraction depends on ties and on the percentile of the record; every record must be covered.", "anchors": ["python/src/adctoolbox/siggen/nonidealities.py:297-309 (apply_clipping)"]}
{"id": "C71", "title": "Jitter and glitch bounds", "statement": "apply_jitter on the clean sine moves a sample by at most 2*pi*Fin*A*|time error| and never past the amplitude; apply_glitch leaves each sample untouched or raises it by exactly the glitch amplitude.", "quantifier": "every draw of the random numbers", "why_tests_cant": "It must hold for every outcome of the random generator; a test sees the outcomes of one seed.", "anchors": ["python/src/adctoolbox/siggen/nonidealities.py:79-100 (apply_jitter)", "python/src/adctoolbox/siggen/nonidealities.py:320-325 (apply_glitch)"]}
{"id": "C72", "title": "Reference droop", "statement": "apply_reference_error scales each sample by one minus the exponentially weighted sum of past load kicks, which is non-negative and stays below strength*peak/(1-exp(-1/tau)); zero strength changes nothing.", "quantifier": "every record and time constant", "why_tests_cant": "The reference error is a recursion over sequences of any length.", "anchors": ["python/src/adctoolbox/siggen/nonidealities.py:247-269 (apply_reference_error)"]}
{"id": "C73", "title": "Status 'synced' means identical trees", "statement": "skill_status reports a copied skill as synced exactly when every path in the installed directory leads to the same thing as in the bundled one; after a successful install every requested skill is reported installed and synced.", "quantifier": "every pair of directory trees and every install request", "why_tests_cant": "Directory trees are unbounded; a wrong verdict may need a particular kind of entry at some depth.", "anchors": ["python/src/adctoolbox/skill_cli.py:75-83 (_dirs_equal)", "python/src/adctoolbox/skill_cli.py:86-132 (skill_status)"]}
{"id": "C74", "title": "Example copy is complete and never overwrites", "statement": "The examples command changes nothing and exits 1 when the destination exists or the packaged examples are missing; otherwise the copy holds every packaged path except __pycache__ directories and .pyc files.", "quantifier": "every file system state and every examples tree", "why_tests_cant": "It concerns every prior state of the file system and every tree of examples.", "anchors": ["python/src/adctoolbox/cli.py:7-47 (copy_examples)"]}
{"id": "C75", "title": "In-band noise of a noise transfer function", "statement": "ntf_analyzer reports minus the in-band noise power of the transfer function relative to white noise over the whole Nyquist range: a flat function scores the ratio of all grid points to band points, a band holds its share of the 65536 points from 0 to fs/2 up to one point, scaling the numerator by g costs 20*log10|g| dB, a wider band never scores better, an empty band scores infinity, and one more differentiation stage strictly improves the score in every band below fs/6.", "quantifier": "every numerator, denominator and band", "why_tests_cant": "The band integral is a sum over a grid for every rational transfer function, including zeros on the unit circle.", "anchors": ["python/src/adctoolbox/oversampling/ntf_analyzer.py:1-53", "python/src/adctoolbox/oversampling/ntfperf.py:1-16"]}
{"id": "C76", "title": "Phase-plane outliers", "statement": "analyze_phase_plane accepts exactly the lags 1..N-1, flags at most half of the points for thresholds of at least one MAD, never flags more for a larger threshold, is unaffected by gain and offset of the data, flags exactly the points off the common circle when most points lie on it, and the automatic lag is valid and maximises |sin(2*pi*f*lag)| minus the small lag penalty over the search range.", "quantifier": "every record, lag and threshold", "why_tests_cant": "Outlier counts, invariance under gain and offset and monotonicity in the threshold compare pairs of runs over all records.", "anchors": ["python/src/adctoolbox/aout/analyze_phase_plane.py:1-175"]}
{"id": "C77", "title": "Static nonlinearity fit", "statement": "fit_static_nonlin raises ValueError exactly for order < 2, too few samples or a fitted sine without amplitude; otherwise it reports the coefficients of the least-squares polynomial of the requested order through the points (fitted sine, record) divided by its slope; data lying exactly on a polynomial of the fitted sine give its coefficients back, a pure coherent sine gives zeros; the returned transfer curve has 1000 equally spaced points from the smallest to the largest sample of the fitted sine; for y = x + k2*x^2 + k3*x^3 the reported values are k2/g and k3/g^2 with g the gain of the output fundamental.", "quantifier": "every record and order", "why_tests_cant": "The fit must be exact for every polynomial characteristic; a test injects one.", "anchors": ["python/src/adctoolbox/aout/fit_static_nonlin.py:1-143"]}
{"id": "C78", "title": "Figures of merit and noise limits", "statement": "Walden FOM is positive, monotone in power, rate and ENOB, halves per bit and depends on power/rate only; Schreier FOM is monotone in each argument and trades power for SNDR dB for dB; the kT/C limit is the SNR of a full-scale sine against the kT/C noise and four times the capacitance equals twice the swing, 1 pF at 1 V gives between 74 and 75 dB; the jitter limit is the SNR of a sine against its rms slope times the rms timing error, and no jitter sequence of that rms, applied by the signal generator, gives an SNR more than 3.01 dB below it.", "quantifier": "every positive argument", "why_tests_cant": "The figures of merit are identities in all positive arguments.", "anchors": ["python/src/adctoolbox/fundamentals/metrics.py:1-102"]}
{"id": "C79", "title": "Error distribution", "statement": "analyze_error_pdf reports the deviation from the fitted sine in units of full_scale/2^resolution with its mean and sample deviation; one more bit doubles all three; the returned density values are samples of the Gaussian-kernel mixture with Silverman's width (a density of total mass one) on a symmetric grid covering every error; the divergence is at least the difference of the two Riemann sums; an exact coherent sine gives NaN densities.", "quantifier": "every record, resolution and full scale", "why_tests_cant": "Mean, deviation and divergence are bounds over all error records.", "anchors": ["python/src/adctoolbox/aout/analyze_error_pdf.py:1-145"]}
{"id": "C80", "title": "Error phase plane", "statement": "analyze_error_phase_plane returns the deviation from the fitted sine and the least-squares trend polynomial over the samples between the 2nd and 98th percentile; the display unit changes no value; the hysteresis gap is never negative, is the mean distance of the rising and falling branch when each branch is a polynomial of the requested order, and is zero for a memoryless residual.", "quantifier": "every record and order", "why_tests_cant": "The trend fit and its residual are least-squares statements over all records.", "anchors": ["python/src/adctoolbox/aout/analyze_error_phase_plane.py:1-188"]}
{"id": "C81", "title": "ENOB sweep over bit counts", "statement": "analyze_enob_sweep returns one ENOB per bit count 1..M: entry n is the ENOB of the record rebuilt from the first n bits with the calibrated weights; the last entry is the ENOB of the calibrated signal; a bit that never toggles leaves the ENOB unchanged; for a noise-free converter the entries are those of the true weights, whatever scale and polarity the calibration chose.", "quantifier": "every bit matrix, weights and number of bits", "why_tests_cant": "It relates each prefix of the bits to the calibration of all of them, for every matrix and every number of bits.", "anchors": ["python/src/adctoolbox/dout/analyze_enob_sweep.py:1-135"]}
{"id": "C82", "title": "High-pass cutoff", "statement": "compute_spectrum with a positive cutoff frequency reports the power 1e-20 for exactly the bins whose frequency is below the cutoff and leaves every other bin as it is without a cutoff; the fundamental is then found at or above the cutoff whenever anything is left there; a zero or negative cutoff changes nothing.", "quantifier": "every record, configuration, cutoff and sample rate", "why_tests_cant": "The cutoff bin is a ceiling of a product of reals; errors occur only at exact bin boundaries.", "anchors": ["python/src/adctoolbox/spectrum/compute_spectrum.py:1-218"]}
{"id": "C83", "title": "Error spectrum and error envelope spectrum", "statement": "analyze_error_spectrum and analyze_error_envelope_spectrum return the record minus the fitted sine, and the metrics of the default spectrum analysis of that error and of its envelope; the envelope is never below the magnitude of the error and, for a carrier with slow amplitude modulation, is exactly the magnitude of the modulation; a constant envelope is reported as silence; the levels are relative to the error itself, so its size changes no metric.", "quantifier": "every record, carrier bin, modulation and phase", "why_tests_cant": "The envelope bounds and its exactness are identities over all records and modulations; a test plots one.", "anchors": ["python/src/adctoolbox/aout/analyze_error_spectrum.py:1-106", "python/src/adctoolbox/aout/analyze_error_envelope_spectrum.py:1-118"]}
{"id": "C84", "title": "The automatic frequency estimate is one per dataset, inside the Nyquist range, independent of bit order, and used only when asked for", "statement": "calibrate_weight_sine without a frequency (or with zeros) first estimates one frequency per dataset. Each estimate lies strictly between 0 and Fs/2, is the one the dataset would get alone, and does not depend on the order of the bit columns when no two bits toggle equally often; it succeeds exactly when the dataset has at least two samples. If every bit column is a sampled sine of FFT bin k, the estimate is exactly k/N. As soon as one given frequency is non-zero, nothing is estimated and the result does not depend on the estimator.", "quantifier": "for all datasets, widths, column orders, window functions, least-squares solvers, and every tie-breaking of the sort", "why_tests_cant": "Order independence and locality quantify over all matrices and all permutations; numpy's sort leaves ties unspecified, so a test sees only one outcome of many.", "anchors": ["python/src/adctoolbox/calibration/_estimate_frequencies.py:16-102", "python/src/adctoolbox/calibration/calibrate_weight_sine.py:121-135"]}
{"id": "C85", "title": "Old call names keep their meaning", "statement": "The compatibility layer adds the metric names of earlier releases with the values of the current ones, changes no current entry and never overwrites an old name that is there; n_thd and order count unless the current argument is given too; signal_pwr_dbfs and psignal_dbfs mean the same level; the Virtuoso and polar variants report the metrics of the ordinary analysis for the rectangular window and for coherent averaging; the decomposition tuple adds up to the record. plot_error_autocorr, documented for a precomputed error record, in fact removes a fitted sine from it first (a tone in the error disappears), and the last entry of plot_error_hist_code is always None.", "quantifier": "for all metric dictionaries, argument combinations, records, windows and least-squares solvers", "why_tests_cant": "A test compares one call of the old name with one call of the new; that the two agree for every record and every combination of old and new arguments, and that a tone vanishes from the autocorrelation whatever its bin, amplitude and phase, needs a proof.", "anchors": ["python/src/adctoolbox/aout/__init__.py:54-66 (_with_legacy_spectrum_keys)", "python/src/adctoolbox/aout/__init__.py:69-79 (analyze_spectrum)", "python/src/adctoolbox/aout/__init__.py:82-96 (decompose_harmonics)", "python/src/adctoolbox/aout/__init__.py:113-121 (plot_error_autocorr)", "python/src/adctoolbox/aout/__init__.py:129-146 (plot_error_hist_phase)", "python/src/adctoolbox/aout/__init__.py:149-164 (plot_error_hist_code)", "python/src/adctoolbox/spectrum/analyze_spectrum.py:15-27 (_with_legacy_metric_keys)", "python/src/adctoolbox/spectrum/analyze_spectrum.py:30-104 (analyze_spectrum)", "python/src/adctoolbox/spectrum/analyze_spectrum.py:107-154 (analyze_spectrum_virtuoso)", "python/src/adctoolbox/spectrum/analyze_spectrum_polar.py:16-64 (analyze_spectrum_polar)", "python/src/adctoolbox/dout/__init__.py:28-40 (calibrate_weight_sine)", "python/src/adctoolbox/common.py:23-27 (snr_to_nsd)", "python/src/adctoolbox/common.py:30-34 (nsd_to_snr)"]}
{"id": "C86", "title": "Capacitor mismatch follows the unit count of each bit", "statement": "sar_apply_cap_mismatch accepts exactly the documented inputs and returns one weight per given weight. Each relative deviation is the draw times sigma over the root of the number of unit capacitors, given or counted in units of the smallest weight; sigma zero returns the weights unchanged; nothing is renormalised; a common scale of the weights scales the result. Over draws of mean zero and variance one each weight has its nominal value as mean and the variance (sigma w)^2 / n, exactly that of n independent unit capacitors in parallel; larger weights have smaller relative and larger absolute deviations. Ideal weights, plain or redundant, are counted as the powers of two of the documentation. Moderate draws keep all weights positive, so conversion stays monotone. The older helper is the special case of one unit per weight.", "quantifier": "for all weights, unit counts, spreads, draws and draw distributions of mean zero and variance one", "why_tests_cant": "The outcome is random: a test sees one seed and can only bound an estimated spread statistically. The exact variance law, its agreement with a physical array of unit capacitors, and the counts for every resolution and redundant position are statements about all draws and sizes.", "anchors": ["python/src/adctoolbox/models/sar.py:86-157 (sar_apply_cap_mismatch)", "python/src/adctoolbox/models/sar.py:160-173 (sar_apply_mismatch)", "python/src/adctoolbox/models/sar.py:42-83 (sar_ideal_weights)"]}
{"id": "C87", "title": "Random impairments have the advertised statistics", "statement": "Over draws of mean zero and variance one: thermal noise leaves the mean of every sample and adds the variance noise_rms^2, uncorrelated between samples; drift is unbiased and proportional to its scale for each draw; amplitude noise is unbiased with standard deviation strength times the distance from the offset, so a coherent sine has noise power strength^2 times its power. Jitter has mean-square error at most (2 pi Fin A)^2 times the mean-square time error for any distribution; for normal time errors each mean is the clean sine with its amplitude reduced by exp(-(2 pi Fin sigma)^2/2), and a coherent record has exactly the noise power A^2 (1 - exp(-(2 pi Fin sigma)^2/2)). A glitch hits each sample with exactly the given probability.", "quantifier": "for all records, generators, parameters and probability spaces carrying such draws", "why_tests_cant": "These are statements about expectations over the random generator; a test estimates them from one finite sample with a tolerance, and cannot tell an exact law from a nearby one (for example the linearised jitter formula from the exact one).", "anchors": ["python/src/adctoolbox/siggen/nonidealities.py:56-60 (apply_thermal_noise)", "python/src/adctoolbox/siggen/nonidealities.py:79-100 (apply_jitter)", "python/src/adctoolbox/siggen/nonidealities.py:271-287 (apply_am_noise)", "python/src/adctoolbox/siggen/nonidealities.py:311-318 (apply_drift)", "python/src/adctoolbox/siggen/nonidealities.py:320-325 (apply_glitch)"]}
{"id": "C88", "title": "The polar spectrum shows harmonic amplitude and relative phase, without a trigger", "statement": "For unwindowed captures of one distorted tone (number of periods coprime with N, harmonics up to d < N/2, fundamental strongest), each with its own offset and start phase, compute_spectrum with coherent averaging gives on the bin of harmonic h exactly the harmonic's amplitude relative to full scale (up to the 1e-20 regularisation) and its phase relative to the fundamental, with reversed sign when the harmonic is folded; the number of captures, their offsets and start phases do not matter. The polar plot prints this angle for HD2 and HD3. Memoryless polynomial distortion puts every harmonic at 0 or 180 degrees; the second harmonic of a square law is at 0 for a positive and at 180 for a negative coefficient. For every data and window the squared magnitude of the complex spectrum is the power spectrum of the same call, in every bin from DC to Nyquist above the cutoff. Harmonics without a bin, at DC, collided, or not above -149 dB get the angle 0.", "quantifier": "for all record lengths, coprime tone bins, harmonic amplitudes and phases, offsets, start phases, numbers of captures and polynomials", "why_tests_cant": "Start phases are real numbers and the alias pattern differs for every pair of N and tone bin; a test fixes a few of them. The sign of folded harmonics shows only for particular tone bins.", "anchors": ["python/src/adctoolbox/spectrum/_spectrum_averaging.py:44-119 (_coherent_average)", "python/src/adctoolbox/spectrum/_align_spectrum_phase.py:9-95 (_align_spectrum_phase)", "python/src/adctoolbox/spectrum/_harmonics.py:222-276 (_calculate_harmonic_phases)", "python/src/adctoolbox/spectrum/plot_spectrum_polar.py:11-143 (plot_spectrum_polar)"]}
{"id": "C89", "title": "Printed frequencies and voltages are right to their last digit", "statement": "The sampling rate and input frequency printed in the spectrum plots, and the voltages printed by the error-by-phase plot, read back (number times unit) to the true value within half a unit of the last printed digit: frequencies from 1 kHz on within 5 percent, below within 0.05 Hz; voltages from 1 pV on within 0.5 percent and with the right sign. (Refuted for the input frequency of the light style between 1 Hz and 1 kHz, which is divided by 1000 but printed without unit.)", "quantifier": "for all real frequencies and voltages", "why_tests_cant": "The error depends on the unit branch and on rounding ties; a test samples a few frequencies and misses the branch with the wrong unit.", "anchors": ["python/src/adctoolbox/spectrum/plot_spectrum.py:108-341 (plot_spectrum)", "python/src/adctoolbox/spectrum/plot_spectrum_virtuoso.py:42-225 (plot_spectrum_virtuoso)", "python/src/adctoolbox/aout/plot_rearranged_error_by_phase.py:13-27 (_format_value_with_unit)"]}
{"id": "C90", "title": "The spectrum plots never fail on a computed spectrum and show what the result says", "statement": "The floor of the level axis leaves 20 to 40 dB below the noise line (multiple of 20, never below -200); both styles mark the same harmonics - those up to the requested order that do not collide with the fundamental and are at most 20 dB below the noise line; the label of the strongest spur is shown exactly when the spur is inside the axis and then lies inside the axis itself, after every zoom. (Refuted for odd record lengths: the plot raises IndexError when a harmonic of the interpolated fundamental lands within half a bin below fs/2.)", "quantifier": "for all noise lines, spectra, harmonic bins, collision lists, axis limits and spur positions; failure for a whole interval of fundamentals at every odd length", "why_tests_cant": "Axis limits change with every zoom, and the failing bin occurs only for odd lengths and a narrow range of fundamentals, so sampled plots do not meet it.", "anchors": ["python/src/adctoolbox/spectrum/plot_spectrum.py:14-29 (_noise_floor_axis_min)", "python/src/adctoolbox/spectrum/plot_spectrum.py:32-38 (_should_label_harmonic)", "python/src/adctoolbox/spectrum/plot_spectrum.py:41-95 (_refresh_max_spur_annotation)", "python/src/adctoolbox/spectrum/plot_spectrum.py:108-341 (plot_spectrum)", "python/src/adctoolbox/spectrum/plot_spectrum_virtuoso.py:42-225 (plot_spectrum_virtuoso)", "python/src/adctoolbox/spectrum/_harmonics.py:16-51 (_locate_harmonic_bins)"]}
{"id": "C91", "title": "Radii of the polar plots are decibels and the radial labels show the true level", "statement": "In both polar plots the radius of a point is its level in dB above the level of the centre, so differences of radii are decibels and radii are never negative; in the decomposition plot every harmonic lies between the centre and the outer circle, and outside the noise circle exactly when it is stronger than the noise; tick labels show the level at their radius. (Refuted for plot_spectrum_polar without a fixed range: the labels are off by up to 5 dB, exactly unless the noise floor is a multiple of 10 dB; and the noise circle can lie outside the plotted area.)", "quantifier": "for all noise floors, fixed ranges, levels and numbers of harmonics", "why_tests_cant": "Tests of plots check that something is drawn; the label offset is a function of a real-valued noise floor.", "anchors": ["python/src/adctoolbox/spectrum/plot_spectrum_polar.py:11-143 (plot_spectrum_polar)", "python/src/adctoolbox/aout/plot_decomposition_polar.py:11-158 (plot_decomposition_polar)"]}
{"id": "C92", "title": "The time window shows the largest error and the curve limits contain the data", "statement": "plot_decomposition_time shows a window inside the record, of exactly the display length, that contains the sample with the largest error, for every position of this sample; its axis limits enclose the data strictly, also for constant data. The DNL and INL curves of every successful ramp analysis lie inside the axis limits of plot_dnl_inl. (The limits cut curves that lie wholly above or below zero and exceed 1 LSB.)", "quantifier": "for all record lengths, error positions, frequencies, cycles, data ranges and ramp records", "why_tests_cant": "The window is moved at both record ends, so its position depends on three integers; the limits on two reals.", "anchors": ["python/src/adctoolbox/aout/plot_decomposition_time.py:13-174 (plot_decomposition_time)", "python/src/adctoolbox/aout/plot_dnl_inl.py:108-161 (_plot_single_curve)", "python/src/adctoolbox/aout/compute_inl_from_ramp.py:1-205"]}
{"id": "C93", "title": "The delay line is monotone and the sampler's skew is what a mismatch analysis reports", "statement": "VariableDelayLine is strictly increasing with steps of at least 5 percent of the nominal step whatever the draws, its centre code has the offset delay, codes beyond the ends saturate, nearest_code returns a closest code (the first of several) and hence a residual of at most half a local step. A clean coherent TIMultiSampler.capture analysed with extract_mismatch_sine returns exactly the effective skews minus their mean. With hd3_dbc the capture is exactly a fundamental and a third harmonic in phase, at r/(1+3r) instead of the requested ratio r.", "quantifier": "every code count, step, spread, offset and draw; every target, every number of channels, skews below half a period, start phase and coherent tone", "why_tests_cant": "monotonicity must hold for every Gaussian draw and the recovered skew for every combination of lines, codes and start phase", "anchors": ["python/src/adctoolbox/examples/08_time_interleave/variable_delay_line.py:31-90 (VariableDelayLine)", "python/src/adctoolbox/examples/08_time_interleave/variable_delay_line.py:94-180 (TIMultiSampler)"]}
{"id": "C94", "title": "The background skew calibration converges to the reference channel", "statement": "One iteration measures the summed absolute difference over each sampling interval, keeps channel 0, and moves every other code by exactly one (or not at all at an end of its line). Averaged over the start phase a measurement is (4/pi)*amp*|sin(pi*fin*dt)| per pair; for a coherent tone this holds for every single start phase up to a relative error pi^2/(8Q^2)+pi/(2N)+pi*eps/(2amp). In the first Nyquist zone every decision is right for skews beyond an explicit dead band, and the largest skew falls at least by the smallest step per iteration until it is below an explicit bound and stays below it. Two channels are decided exactly; with three or more the other channels can push a decision the wrong way.", "quantifier": "every number of channels, tone in the first Nyquist zone, sequence of start phases, delay line with bounded steps reaching the target, disturbance bounded by eps (third harmonic and noise), any number of iterations", "why_tests_cant": "convergence is a statement about unboundedly many iterations with arbitrary start phases and disturbances in each; a simulation run is one of them", "anchors": ["python/src/adctoolbox/examples/08_time_interleave/exp_ti02_autocorr_background_skew_calibration.py:1-333", "python/src/adctoolbox/examples/08_time_interleave/variable_delay_line.py:94-180 (TIMultiSampler)"]}
{"id": "C95", "title": "The reported SNDR of a plain call is the SINAD of the best-fitting sine", "statement": "For a record analysed without window, side bins or band limits, SNDR is the power A^2/2 of the least-squares sine at the located bin over the mean square of what that sine leaves of the record (plus a fixed numerical floor), and equals amplitude^2/2 over rmse^2 of fit_sine_4param at that frequency; the signal power is 20*log10(A/full scale). A coherent sine disturbed by any error of rms sigma < A/2 is always accepted, found at its bin, with amplitude within sqrt(2)*sigma and SNDR at least 10*log10(A^2/2/sigma^2 - 1). For a SAR conversion with any covered weights the bound follows from the residue; a full-scale sine through an ideal 2..30-bit quantizer always reports ENOB above bits-1. There is no matching upper bound: errors that repeat with the sine are counted as signal, and a 1-bit conversion at four samples per period reports more than 32 bits.", "quantifier": "every record, every error sequence, every weight vector that covers its range, every bin count, phase and resolution 2..30", "why_tests_cant": "the statement ranges over all error sequences and all phases, and links an FFT result to an optimum over all sines", "anchors": ["python/src/adctoolbox/spectrum/compute_spectrum.py:22-218 (compute_spectrum)", "python/src/adctoolbox/spectrum/_prepare_fft_input.py:1-60", "python/src/adctoolbox/fundamentals/fit_sine_4param.py:10-47 (fit_sine_4param)", "python/src/adctoolbox/fundamentals/fit_sine_4param.py:49-115 (_fit_core)", "python/src/adctoolbox/models/sar.py:176-262 (sar_convert)", "python/src/adctoolbox/models/sar.py:265-298 (sar_reconstruct)", "python/src/adctoolbox/siggen/nonidealities.py:1-399"]}
{"id": "C96", "title": "Windowed and averaged spectra never report less than the error allows", "statement": "For every cosine-sum window, any number of averaged runs, any in-band OSR and automatic or lobe-covering side bins: if every run is a sine of b periods per record (any phase and offset) up to errors of at most sigma, and the amplitude exceeds a per-window multiple of sigma (6 rectangular, 13 Hamming, 15 Hann, 20 Blackman, 27 Blackman-Harris, 350 flat top), compute_spectrum succeeds, finds the sine in bin b, reports its amplitude within 2*sqrt(2)*sigma and an SNDR of at least (A - sqrt(2)*sigma)^2/2 over sigma^2. Hence a full-scale sine through an ideal 4..30-bit quantizer shows more than bits-1 effective bits in the default call and in quick_sndr.", "quantifier": "every data matrix, window, phase and error pattern per run, number of runs, OSR, bin more than twice the lobe width from DC and a lobe width from Nyquist", "why_tests_cant": "the guarantee is over all error sequences of given size and all windows at once, through the automatic side-bin search", "anchors": ["python/src/adctoolbox/spectrum/compute_spectrum.py:22-218 (compute_spectrum)", "python/src/adctoolbox/spectrum/_window.py:1-178", "python/src/adctoolbox/spectrum/_side_bin_auto.py:1-49", "python/src/adctoolbox/spectrum/_spectrum_averaging.py:1-119", "python/src/adctoolbox/spectrum/_locate_fundamental.py:1-75", "python/src/adctoolbox/spectrum/quick_sndr.py:22-68 (quick_sndr)"]}
{"id": "C97", "title": "The OSR sweep and its plot show the definition", "statement": "sweep_performance_vs_osr succeeds for every record of at least two samples and every list of positive OSR values in any order (default list included; ValueError otherwise) and returns for each OSR exactly the SNDR, SFDR and ENOB of the fit error summed over the bins in band at this OSR. More OSR never lowers them and SFDR is never below SNDR. In the plot both curves stay 5 dB off the limits and ENOB and SNDR axes are aligned; the vertical lines are exactly the fundamental and the requested harmonics whose position is inside the sweep, placed where the folded harmonic enters the band; the plot raises ZeroDivisionError exactly when a requested harmonic folds to DC (a tone at fs/4 with the default settings). The slope curve is never negative for ascending OSR, exceeds the White Noise Limit line of 10 dB per decade exactly where the in-band noise density falls, and for a flat error lies between 0 and 10 everywhere.", "quantifier": "every record, least-squares result, OSR list and order, amplitude, non-negative error spectrum, frequency, number of harmonics, smoothing width", "why_tests_cant": "the accumulating loop must agree with the direct sum for every order of the OSR list, and the lines and slopes depend on real frequencies and spectra", "anchors": ["python/src/adctoolbox/spectrum/sweep_performance_vs_osr.py:14-182 (sweep_performance_vs_osr)", "python/src/adctoolbox/spectrum/_bin_ranges.py:6-27 (rfft_inband_bin_count)", "python/src/adctoolbox/fundamentals/frequency.py:90-129 (fold_frequency_to_nyquist)"]}
{"id": "C98", "title": "The digital-output plots show the reported numbers", "statement": "Bit activity: the highlighted bar is one farthest from 50 % and its text reads back to 0.005 points; all bars end inside the fixed axis exactly when that deviation is at most ten points, so a bit that never toggles to 1 has no visible bar. ENOB sweep: the annotated gains add up to the ENOB at every point, their texts read back to 0.005 bit (a loss appears as a plus followed by a negative number), and every point lies inside the axis. Overflow: every sample appears exactly once per column, red, yellow or blue according to its residue at the checked column, never nearer to another column. Weight radix: MSB and LSB mark the largest weight and the last significant one, every bit has one marker, and the printed ratios read back to 0.005. Residual scatter: every pair gets its own cell of the grid; without pairs the plot raises ZeroDivisionError.", "quantifier": "every bit matrix, weight vector, ENOB curve, overflow position, number of pairs and of samples", "why_tests_cant": "what is visible depends on real levels against fixed axes and on ties; tests of plots check only that a figure appears", "anchors": ["python/src/adctoolbox/dout/analyze_bit_activity.py:9-71 (analyze_bit_activity)", "python/src/adctoolbox/dout/analyze_enob_sweep.py:11-135 (analyze_enob_sweep)", "python/src/adctoolbox/dout/analyze_overflow.py:12-171 (analyze_overflow)", "python/src/adctoolbox/dout/analyze_weight_radix.py:10-184 (analyze_weight_radix)", "python/src/adctoolbox/dout/plot_residual_scatter.py:11-116 (plot_residual_scatter)"]}
{"id": "C99", "title": "The error-by-phase and error-by-value plots show the reported numbers", "statement": "By phase: the drawn total curve is the reported noise model, total^2 + base^2 = AM^2 + PM^2 at every phase, the curves are ordered base <= AM, PM <= total, and the mean square of the total curve over the bins is (AM^2 + PM^2)/2 + base^2, equal to the total mean square error for the best fit on phases with balanced cos 2phi. Every bar ends inside the axis, the highest at two thirds; for the best fit on records of at least 9/|sin 2 pi f| samples no curve leaves the axis. Samples lie within half a bin of the bar that counts them, bars never overlap, all error dots and bin means lie inside their axis, and the printed phase noise is exact to 0.005 urad. By value: bars are nine tenths of the spacing wide and never touch, every centre and dot lies inside the axis, each dot stands at the nearest centre, every bar height lies inside the axis; the outer bars are fully visible exactly for at least 24 bins (or one).", "quantifier": "every record, frequency, bin count, clip fraction, value range, least-squares result and phase", "why_tests_cant": "the curves are compared at every real phase and the axis limits with every record; a rendered figure shows one case", "anchors": ["python/src/adctoolbox/aout/plot_rearranged_error_by_phase.py:29-185 (plot_rearranged_error_by_phase)", "python/src/adctoolbox/aout/plot_rearranged_error_by_value.py:7-128 (plot_rearranged_error_by_value)"]}
{"id": "C100", "title": "The four-parameter sine fit converges from a nearby starting frequency, and noise only moves it by a multiple of the noise", "statement": "For every sine with amplitude A > 0, frequency f inside the Nyquist interval, phase and offset, and every record length of at least five samples there are a neighbourhood of f and constants such that, for every record whose samples stay within v of the sine and every starting frequency f0 in the neighbourhood: after k passes the reported frequency, amplitude (with phase) and offset and the fitted record are all within B|f0-f|/2^k + S v of the true ones, rmse is at most that plus v, and any tolerance larger than B|f0-f|/2^max_iterations + S v is met, with converged true and no warning. On an exact sine the distance is squared by each pass: it is at most B (H|f0-f|)^(2^k) with H|f0-f| <= 1/2. estimate_frequency, which makes one pass, therefore returns f*fs up to c|f0-f|^2 fs on an exact sine.", "quantifier": "every sine, record length >= 5, record near the sine, starting frequency near f, iteration count and tolerance", "why_tests_cant": "the rate and the existence of a basin of attraction concern all starting points, iteration counts and disturbances at once; a test shows one run of one record", "anchors": ["python/src/adctoolbox/fundamentals/fit_sine_4param.py:49-115 (_fit_core)", "python/src/adctoolbox/fundamentals/frequency.py:170-207 (estimate_frequency)"]}
{"id": "C101", "title": "Foreground calibration of noisy codes is near the best fit and near the true weights", "statement": "At a known frequency calibrate_weight_sine succeeds on every bit matrix whose columns and the constant are independent, however noisy, and its residual power is at most twice that of any other weights, offset and harmonics normalised to a unit fundamental. If the record pins the converter in quadrature to the phase of the input, there is a constant K of the record such that for every true converter of amplitude A at that phase whose weighted output misses a sine plus harmonics by v rms, every returned weight and the offset are within K (v/A)(1+|w|/A) of the true ones divided by plus or minus A, and the mean square of the returned error is at most 2 (v/A)^2. A record on which the true converter is the only fit is pinned.", "quantifier": "every bit matrix, frequency, harmonic count, true converter and noise level", "why_tests_cant": "how noise in the codes moves the solved weights concerns all records and all disturbances; a test shows a handful of seeds", "anchors": ["python/src/adctoolbox/calibration/calibrate_weight_sine.py:1-182", "python/src/adctoolbox/calibration/_lstsq_solver.py:1-363"]}
{"id": "C102", "title": "The INL/DNL reports plot what they return, inside the frame", "statement": "analyze_inl_from_ramp returns the result of compute_inl_from_ramp with or without a plot, and plotting never fails; the curves join DNL at the codes and INL at the transitions and the titles carry the extremes rounded to hundredths. All points are inside the frame if num_bits is not given, and with num_bits exactly if the analysed codes lie between 0 and full scale: always for unsigned codes, not for signed ones (refuted by a two-bit example). analyze_inl_from_sine returns the result of compute_inl_from_sine; with a plot it fails with ValueError exactly when fewer than three codes are kept, although the computation succeeds; the DNL points are inside the frame, the INL points need not be (refuted by a three-sample example).", "quantifier": "every record and option", "why_tests_cant": "whether points fall outside the frame depends on the record; tests that only call the plot cannot see it", "anchors": ["python/src/adctoolbox/aout/plot_dnl_inl.py:1-161", "python/src/adctoolbox/aout/analyze_inl_from_ramp.py:14-104 (analyze_inl_from_ramp)", "python/src/adctoolbox/aout/analyze_inl_from_sine.py:11-76 (analyze_inl_from_sine)"]}
{"id": "C103", "title": "The digital dashboard describes one calibration", "statement": "generate_dout_dashboard at a known frequency: panels 2, 4, 5, 6 all come from one set of calibrated weights (spectrum, overflow, ENOB sweep, radix); the weights argument enters panel 1 only; it succeeds exactly if the calibration succeeds with not all weights zero, there are at least as many samples as bits, and given weights match the bits (a wide matrix, which the calibration accepts, is refused). For a noise-free converter the panels are those of the true weights, and panels 1 and 2 agree if the nominal weights are the true ones up to a factor. A bit that never toggles shows activity 0 or 100 %, a flat step of the sweep and no radix.", "quantifier": "every bit matrix with at least as many samples as bits, frequency and weights", "why_tests_cant": "the agreement between panels is a statement about all inputs; a test that only draws the figure sees none of it", "anchors": ["python/src/adctoolbox/toolset/generate_dout_dashboard.py:14-103 (generate_dout_dashboard)"]}
{"id": "C104", "title": "The analog dashboards show one error", "statement": "generate_aout_dashboard(signal, fs, freq, resolution): panels 3, 4, 7 (and 8 when no frequency is given) describe the same error, the record minus one fitted sine; freq reaches panel 8 only and resolution panel 7 only; scaling fs and freq together changes nothing but the noise density of panels 1 and 2, by -10 log10 of the ratio. It succeeds exactly for records of 2 or at least 50 samples of which some lies inside the 98 inner value bins, with fs not 0 if a frequency is given; so 3 to 49 samples and two-valued code records are refused. For a noise-free coherent sine panels 3, 4, 7 are zero whatever frequency is given, while panel 8, told another bin, correlates the whole signal. The 3x4 dashboard contains the same eight panels, the spectra of that error and of its envelope, and succeeds exactly if panel 12 does as well.", "quantifier": "every record, sampling rate, frequency, resolution and least-squares solver", "why_tests_cant": "agreement of panels and the exact set of refused records are statements about all inputs; drawing one figure shows neither", "anchors": ["python/src/adctoolbox/toolset/generate_aout_dashboard.py:16-95 (generate_aout_dashboard)", "python/src/adctoolbox/toolset/generate_aout_dashboard_3x4.py:20-137 (generate_aout_dashboard)"]}
{"id": "C105", "title": "The sine fit and the error analyses do not depend on the unit and the zero of the record", "statement": "For a record of at least 5 samples whose starting frequency (given, or estimated from some bin between DC and Nyquist) lies strictly between 0 and 0.5, replacing the record y by c*y + d gives the same fitted frequency, iteration count and convergence flag, amplitude and rmse times |c| and offset c*offset + d; the same normalised error autocorrelation for every c not 0; and for c > 0 the same error density, divergence and error in LSB, the same harmonic levels in dB and phases, the same spectra of error and envelope, the same AM/PM noise relative to the carrier, and the same value bins for a converted value_range, with every absolute RMS times c. The r_squared_raw of the AM/PM analysis is the exception: it is kept only while the squared error varies by more than 1e-20 in both units and is 0 below.", "quantifier": "every record, positive (or non-zero) factor, offset, starting frequency, iteration count, tolerance and minimum-norm least-squares solver", "why_tests_cant": "the iteration is a loop with a stopping test; that no step of it sees the unit is a statement about every record and every factor, and a test in one unit cannot find the absolute thresholds", "anchors": ["python/src/adctoolbox/fundamentals/fit_sine_4param.py:10-47 (fit_sine_4param)", "python/src/adctoolbox/fundamentals/frequency.py:170-207 (estimate_frequency)", "python/src/adctoolbox/aout/analyze_error_autocorr.py:1-129", "python/src/adctoolbox/aout/analyze_error_pdf.py:1-145", "python/src/adctoolbox/aout/decompose_harmonic_error.py:1-181", "python/src/adctoolbox/aout/rearrange_error_by_phase.py:1-226", "python/src/adctoolbox/aout/rearrange_error_by_value.py:1-116", "python/src/adctoolbox/aout/analyze_error_spectrum.py:1-106", "python/src/adctoolbox/aout/analyze_error_envelope_spectrum.py:1-118"]}
{"id": "C106", "title": "Which decisions survive float64 rounding", "statement": "In float64 arithmetic (53-bit significand, round to nearest even, no overflow or underflow): freq_to_bin(bin_to_freq(k)) is k for every |k| < 2^49, rate and length; find_coherent_frequency returns an eligible bin of its window whose distance to the target is minimal up to 2^-50 times (target bin + search radius + 1), and freq_to_bin of the returned frequency is the returned bin; the trimmed-mean noise floor uses the exact 5 % and 95 % indices; the in-band bin count for osr = n/(2k) includes bin k; the SAR model with ideal weights of up to 53 bits and the plain quantizer agree bit for bit, in code and in output, for every range and every order of summation, the code is within one of the exact code and monotone in the input, and for ranges (0, 2^e) everything is exact; the overflow rails of analyze_overflow are exact for weights that are multiples of a power of two. Not exact are: volts_to_lsb(lsb_to_volts(k)), the idempotence of the quantizer for other ranges, the bin removed by cutoff_freq, the bound fs/2 of folded frequencies, the choice between nearly equidistant coherent bins and the overflow rail for other weights.", "quantifier": "every float input, range, sampling rate, record length (below 2^46 for the trimmed mean), bit count up to 53 (48 for the one-code bound), bin below 2^49 (2^40 for the band edge) and order of summation", "why_tests_cant": "rounding depends on every bit of the operands; tests with round numbers never meet the few inputs where a floor or a comparison tips over", "anchors": ["python/src/adctoolbox/fundamentals/units.py:31-33 (bin_to_freq)", "python/src/adctoolbox/fundamentals/units.py:35-37 (freq_to_bin)", "python/src/adctoolbox/fundamentals/units.py:23-25 (lsb_to_volts)", "python/src/adctoolbox/fundamentals/units.py:27-29 (volts_to_lsb)", "python/src/adctoolbox/fundamentals/frequency.py:12-88 (find_coherent_frequency)", "python/src/adctoolbox/fundamentals/frequency.py:90-129 (fold_frequency_to_nyquist)", "python/src/adctoolbox/spectrum/_bin_ranges.py:6-27 (rfft_inband_bin_count)", "python/src/adctoolbox/spectrum/_estimate_noise_power.py:10-16 (_matlab_trimmed_indices)", "python/src/adctoolbox/spectrum/compute_spectrum.py:22-218 (compute_spectrum)", "python/src/adctoolbox/siggen/nonidealities.py:62-77 (apply_quantization_noise)", "python/src/adctoolbox/models/sar.py:176-262 (sar_convert)", "python/src/adctoolbox/models/sar.py:265-298 (sar_reconstruct)", "python/src/adctoolbox/dout/analyze_overflow.py:12-171 (analyze_overflow)"]}
{"id": "C107", "title": "Trigger position and direction of time do not change the spectrum report", "statement": "With win_type 'boxcar' or 'rectangular' and power averaging, a record of whole periods may be captured from any other sample of the period, each run from its own: compute_spectrum and quick_sndr return the same report (every metric, every bin power and every marked bin, or the same exception). The record played backwards also gives the same report; with any built-in window the record mirrored about its first sample does. With the default Hann window the start of the capture matters.", "quantifier": "every record, number of runs, start sample per run, scale range, osr, side bin, harmonic count, noise method and cutoff", "why_tests_cant": "tests use one trigger position per record; invariance under all of them, and the place where it stops (windows), is a statement about all records", "anchors": ["python/src/adctoolbox/spectrum/compute_spectrum.py:22-218 (compute_spectrum)", "python/src/adctoolbox/spectrum/_spectrum_averaging.py:9-41 (_power_average)", "python/src/adctoolbox/spectrum/_prepare_fft_input.py:6-60 (_prepare_fft_input)", "python/src/adctoolbox/spectrum/_window.py:67-111 (_create_window)", "python/src/adctoolbox/spectrum/quick_sndr.py:22-68 (quick_sndr)"]}
{"id": "C108", "title": "The spectrum figure shows the numbers of the report", "statement": "The arrays and marks drawn by plot_spectrum agree with the metrics it prints: the frequency array is k*fs/N from 0 to fs/2, a bin is left of the band-edge line exactly when it is in band (up to the documented rounding tolerance), the curve is an increasing function of bin power with a floor at -200 dB, the circle on the fundamental is on the highest in-band bin, the signal text equals the printed signal power, the dashed noise line is the printed noise floor per bin and the printed NSD per bin width, the spur mark is at the highest bin that counts for SFDR and its height differs from the printed SFDR by at most the main-lobe width, and the metric block and signal text stay inside the axis. Levels above 0 dBFS, which the automatic range allows, lie outside the axis. With coherent averaging a constant run changes only the printed number of runs and the printed coherent gain.", "quantifier": "every record, number of runs, sampling rate, osr, window, side bin, range, noise method and cutoff", "why_tests_cant": "image tests compare pixels for a few records; agreement of marks and numbers is a statement about all records", "anchors": ["python/src/adctoolbox/spectrum/compute_spectrum.py:22-218 (compute_spectrum)", "python/src/adctoolbox/spectrum/plot_spectrum.py:108-341 (plot_spectrum)"]}
{"id": "C109", "title": "The report on a multi-tone record is exact", "statement": "For a record that is a sum of coherent tones on a DC level, the tones at least a main lobe apart and each main lobe wholly inside or outside the band: compute_spectrum reports the strongest in-band tone in its own bin at 20*log10(A/full scale), whatever the other tones and phases; SNDR is its power over the summed power of the other in-band tones; the spur bin is the bin of a strongest other tone and SFDR the ratio of the amplitudes; harmonic k is looked up at the alias of k times the carrier bin and reads the ratio of amplitudes when a tone is there; THD and the SNR of noise method 4 split the remaining tones by whether they are in harmonic bins. Noise method 3 removes only the centre bin of a harmonic: a third of each harmonic's power stays in the noise with the default Hann window. quick_sndr agrees.", "quantifier": "every number of tones, amplitudes, phases, DC level, record length, number of runs, cosine-sum window and full scale", "why_tests_cant": "tests synthesise a few records and compare with tolerances that hide systematic leaks", "anchors": ["python/src/adctoolbox/spectrum/compute_spectrum.py:22-218 (compute_spectrum)", "python/src/adctoolbox/spectrum/_estimate_noise_power.py:35-125 (_estimate_noise_power)", "python/src/adctoolbox/spectrum/_harmonics.py:1-276"]}
{"id": "C110", "title": "Subsampling moves spurs and keeps their height", "statement": "The subsampler of the downsampling example keeps every n-th sample, in stages or at once; the predictor alias_freq is the first-zone alias, equals the formula in the script's header, and the label (alias) marks exactly the components above the output Nyquist frequency. A record of coherent tones, subsampled, is a record of tones with the same amplitudes at the predicted positions, provided no two aliases coincide; SFDR before and after is then equal, exactly, and so are signal power and SNDR at equal full scale. If two aliases coincide SFDR can change without bound.", "quantifier": "every factor, record length, number of tones, amplitudes, phases and windows", "why_tests_cant": "the example shows one signal and one factor; conservation of SFDR is a statement about all of them", "anchors": ["python/src/adctoolbox/examples/09_downsample/exp_d00_subsample_aliasing.py:31-34 (subsample)", "python/src/adctoolbox/examples/09_downsample/exp_d00_subsample_aliasing.py:37-42 (alias_freq)", "python/src/adctoolbox/spectrum/compute_spectrum.py:22-218 (compute_spectrum)"]}
{"id": "C111", "title": "A distorted sine reads back the distortion that was put in", "statement": "A coherent sine with harmonics of known amplitudes, whose in-band aliases the analysis can tell apart, is reported by compute_spectrum with exactly these amplitudes: each harmonic as 20 log10 of its ratio to the fundamental, THD as the summed powers, SNDR and SFDR accordingly. For apply_static_nonlinearity the amplitudes are those of the polynomial. A level given as hd2_dB alone reads back exactly; hd3_dB reads low by 20 log10(1+3r); hd4_dB alone makes HD2 12 dB stronger than the level asked for, and hd5_dB makes HD3 14 dB stronger, and these limit SFDR. In the sign sweep of the example, the sign of k2 changes no reading and the sign of k3 changes HD3.", "quantifier": "every record length, coherent bin, amplitude, window and level for which the aliases are distinct", "why_tests_cant": "tests compare one noisy record within a tolerance of about a dB; the exact reading and the cross-talk between orders need the algebra", "anchors": ["python/src/adctoolbox/siggen/nonidealities.py:102-120 (apply_static_nonlinearity)", "python/src/adctoolbox/siggen/nonidealities.py:122-136 (apply_static_nonlinearity_hd)", "python/src/adctoolbox/examples/03_generate_signals/exp_g05_sweep_static_nonlin.py:28-30 (calculate_k_mag)", "python/src/adctoolbox/spectrum/compute_spectrum.py:22-218 (compute_spectrum)"]}
{"id": "C112", "title": "The test-bench helpers of the examples choose what they say", "statement": "coherent_odd_bin returns an odd bin, below Nyquist for four or more points, at most one and a half bins from the target; for powers of two it shares no factor with the length, for other lengths it may. near_nyquist_bin is the largest bin below Nyquist, coherent exactly if the length is odd or a multiple of four. coherent_train_bin returns, for at least four samples, an odd coprime bin below Nyquist nearest to the clamped target, and never its fall-back. quantize_ideal is the generator's quantizer plus half a step, with error at most half a step. noise_rms_for_enob gives exactly the requested ENOB together with quantization noise, or zero if that is impossible.", "quantifier": "every length, target ratio, input, number of bits up to 53, amplitude and ENOB", "why_tests_cant": "the examples run at powers of two and one ratio; a bin sharing a factor with the record length shows up only at particular lengths", "anchors": ["python/src/adctoolbox/examples/02_spectrum/exp_s13_fft_length_mc_sfdr_sndr.py:36-42 (coherent_odd_bin)", "python/src/adctoolbox/examples/02_spectrum/exp_s13_fft_length_mc_sfdr_sndr.py:45-50 (quantize_ideal)", "python/src/adctoolbox/examples/02_spectrum/exp_s13_fft_length_mc_sfdr_sndr.py:53-59 (noise_rms_for_enob)", "python/src/adctoolbox/examples/02_spectrum/exp_s09_sar_fft_length_near_nyquist.py:31-35 (near_nyquist_bin)", "python/src/adctoolbox/examples/05_debug_digital/exp_d18_sar_redundant_mismatch_training_length_sweep.py:84-101 (coherent_train_bin)"]}
{"id": "C113", "title": "Redundancy lets a SAR with a wrong MSB be corrected by weights alone; a binary one cannot be", "statement": "The weight lists of the SAR examples, normalised, are the library's sar_ideal_weights without and with the third weight repeated. If first_decision_margin_lsb is not negative, every input of the range comes back within one LSB under the actual weights; if it is negative, the worst error exceeds one LSB by exactly the missing margin. The margin is -d 2^(n-1) for the binary list and 2^(n-3) - d 2^(n-1) for the repeated one, so with a repeated weight an MSB error up to a quarter is harmless and with a binary list none is. The 18 radix-1.8 weights form a 16-bit converter that tolerates one per cent error in every weight within 1.15 LSB. The bit generators of the dashboard example are the library's SAR model and a rounding bipolar quantizer.", "quantifier": "every number of bits, MSB error, weight list, input and draw", "why_tests_cant": "the example shows one error of one per cent on one sine; the worst-case input lies at one decision level", "anchors": ["python/src/adctoolbox/examples/05_debug_digital/exp_d17_sar_msb_error_binary_vs_repeat_calibration.py:43-45 (strict_binary_raw_weights)", "python/src/adctoolbox/examples/05_debug_digital/exp_d17_sar_msb_error_binary_vs_repeat_calibration.py:48-51 (third_weight_repeat_raw_weights)", "python/src/adctoolbox/examples/05_debug_digital/exp_d17_sar_msb_error_binary_vs_repeat_calibration.py:54-56 (normalize_sar_weights)", "python/src/adctoolbox/examples/05_debug_digital/exp_d17_sar_msb_error_binary_vs_repeat_calibration.py:59-62 (first_decision_margin_lsb)", "python/src/adctoolbox/examples/05_debug_digital/exp_d18_sar_redundant_mismatch_training_length_sweep.py:56-81 (radix18_integer_weights_16bit)", "python/src/adctoolbox/examples/06_use_toolsets/exp_t04_dout_dashboard_batch.py:52-57 (generate_ideal_binary)", "python/src/adctoolbox/examples/06_use_toolsets/exp_t04_dout_dashboard_batch.py:68-76 (generate_with_lsb_random)", "python/src/adctoolbox/examples/06_use_toolsets/exp_t04_dout_dashboard_batch.py:78-97 (generate_sar_with_noise)", "python/src/adctoolbox/models/sar.py:176-262 (sar_convert)", "python/src/adctoolbox/models/sar.py:265-298 (sar_reconstruct)"]}
{"id": "C114", "title": "A simulated ramp through codes of given widths reads back these widths", "statement": "simulate_ramp_codes refuses exactly the lists with a negative width, and otherwise returns the codes of a uniform ramp through a converter whose code widths are proportional to the list. compute_inl_from_ramp on these codes reports every DNL within 2/ideal_count of the width over the mean analysed width minus one, and every raw INL within 2/ideal_count of the accumulated widths; a code of width zero is reported missing, and a code at least one ramp step wide is not.", "quantifier": "every list of widths, samples per code (up to 2^53 samples), code range and endpoint option", "why_tests_cant": "the example has one list of widths; the bound on the error of every code for every list needs the counting argument", "anchors": ["python/src/adctoolbox/examples/04_debug_analog/exp_a33_inl_from_ramp.py:15-25 (simulate_ramp_codes)", "python/src/adctoolbox/aout/compute_inl_from_ramp.py:83-205 (compute_inl_from_ramp)"]}
{"id": "C115", "title": "Folding and capacitor weights equal the MATLAB originals", "statement": "fold_frequency_to_nyquist returns what alias.m returns wherever alias.m accepts (fs > 0), and convert_cap_to_weight returns the weights and total capacitance of cap2weight.m for every array cap2weight.m accepts; whatever the Python function refuses, the MATLAB function refuses.", "quantifier": "every frequency and sampling rate; every capacitor ladder of any length", "why_tests_cant": "equality of two programs in two languages on infinite input sets; the two folding rules (zone parity against remainder) and the two ladder recursions are written differently", "anchors": ["python/src/adctoolbox/fundamentals/frequency.py:90-129 (fold_frequency_to_nyquist)", "python/src/adctoolbox/fundamentals/convert_cap_to_weight.py:13-87 (convert_cap_to_weight)", "matlab/src/alias.m", "matlab/src/cdacwgt.m", "matlab/src/legacy/cap2weight.m"]}
{"id": "C116", "title": "Overflow check matches the MATLAB function", "statement": "analyze_overflow matches MATLAB ovfchk.m (its docstring says exactly): the same ranges, zero and one percentages and overflow and underflow masks. True for every record with at least as many samples as bits and checked positions 1 to M; false for records with fewer samples than bits, which MATLAB transposes, and for positions M+1 to 2M, which Python wraps around silently.", "quantifier": "every bit matrix, weight vector and checked position", "why_tests_cant": "exact agreement with another program on every matrix cannot be sampled; the exceptions (wide matrices, positions above the MSB) are outside the shapes of the tests", "anchors": ["python/src/adctoolbox/dout/analyze_overflow.py:12-171 (analyze_overflow)", "matlab/src/bitchk.m"]}
{"id": "C117", "title": "Brickwall filter matches ifilter.m", "statement": "ifilter returns the filtered columns of MATLAB ifilter.m. True for even record lengths with band edges that are not half-way between two bins; for odd lengths the highest bin is halved in Python only, and half-way edges are rounded differently.", "quantifier": "every record, shape and list of bands", "why_tests_cant": "equality of two filters for all records, lengths and bands; the exceptions are single bins of odd lengths and exact half-way edges", "anchors": ["python/src/adctoolbox/oversampling/ifilter.py:10-33 (ifilter)", "python/src/adctoolbox/spectrum/extract_freq_components.py:11-73 (extract_freq_components)", "matlab/src/ifilter.m"]}
{"id": "C118", "title": "Sine-histogram INL matches inlsin.m", "statement": "compute_inl_from_sine returns the INL, DNL and code vectors of MATLAB inlsin.m on code records. True whenever no sample and no exclusion amount is half-way between two integers and the record is recognised as codes; false for code spans 50, 250, 450, ... at the default exclusion and for floating-point codes spanning at most 2.", "quantifier": "every code record, exclusion ratio and optional argument", "why_tests_cant": "two programs compared on every record; the disagreement needs a span that is a particular multiple of 50", "anchors": ["python/src/adctoolbox/aout/compute_inl_from_sine.py:11-137 (compute_inl_from_sine)", "matlab/src/inlsin.m"]}
{"id": "C119", "title": "OSR sweep and NTF score against perfosr.m and ntfperf.m", "statement": "perfosr and ntfperf are the counterparts of the MATLAB functions and return the same outputs. Refuted: for every OSR from 1 to N/2 the Python sweep integrates exactly one error bin more than perfosr.m (beyond N/2 they agree). The NTF scores of a flat NTF agree to 1/20000 of the full noise power, but narrow low-pass bands give plus infinity in Python only, and only MATLAB checks the band.", "quantifier": "every non-negative error spectrum, record length and list of OSR values; every band", "why_tests_cant": "the extra bin must be shown for every spectrum and OSR; the grid comparison is over a continuum of bands", "anchors": ["python/src/adctoolbox/oversampling/perfosr.py:11-52 (perfosr)", "python/src/adctoolbox/spectrum/sweep_performance_vs_osr.py:14-182 (sweep_performance_vs_osr)", "python/src/adctoolbox/oversampling/ntfperf.py:8-15 (ntfperf)", "python/src/adctoolbox/oversampling/ntf_analyzer.py:6-53 (ntf_analyzer)", "matlab/src/perfosr.m", "matlab/src/ntfperf.m"]}
{"id": "C120", "title": "Report sums against plotspec.m", "statement": "Given the same spectrum, compute_spectrum and plotspec.m read the same signal, noise-and-distortion, spur, noise and THD from it. True when the bin at distance side_bin from DC is empty and the harmonics are in band and clear of signal and DC; refuted otherwise: plotspec.m counts one bin next to DC that compute_spectrum clears (so its SNDR is lower exactly when that bin exceeds 1e-20), drops out-of-band harmonics from THD that compute_spectrum counts, and counts the remainder of a harmonic lobe that touches the signal, which compute_spectrum skips. The harmonic bins agree unless a product lands half-way between bins.", "quantifier": "every spectrum, band, side bin, fundamental and list of harmonics", "why_tests_cant": "equality of sums over arbitrary spectra; the exact condition for each difference", "anchors": ["python/src/adctoolbox/spectrum/compute_spectrum.py:22-218 (compute_spectrum)", "python/src/adctoolbox/spectrum/_estimate_noise_power.py:35-125 (_estimate_noise_power)", "python/src/adctoolbox/spectrum/_harmonics.py:54-149 (_calculate_harmonic_power)", "python/src/adctoolbox/spectrum/_harmonics.py:16-51 (_locate_harmonic_bins)", "matlab/src/plotspec.m"]}
{"id": "C121", "title": "Spectrum, bin and SNDR against plotspec.m", "statement": "For the same record, window and full scale, the power-averaged spectrum of compute_spectrum equals that of plotspec.m above DC, whatever the number of runs, and both find the same fundamental bin, signal power and (up to the bin next to DC and the 1e-20 guard) SNDR. The band edge is the same unless it falls within the rounding tolerance of a bin. Refuted for captures with runs of zeros: plotspec.m skips them, compute_spectrum averages them in and reads lower.", "quantifier": "every matrix of runs, Hann or rectangular window, full scale given in any form, OSR and side bin", "why_tests_cant": "two different normalisations must cancel for every record length and window; dead runs appear only in multi-run captures", "anchors": ["python/src/adctoolbox/spectrum/compute_spectrum.py:22-218 (compute_spectrum)", "python/src/adctoolbox/spectrum/_prepare_fft_input.py:6-60 (_prepare_fft_input)", "python/src/adctoolbox/spectrum/_spectrum_averaging.py:9-41 (_power_average)", "python/src/adctoolbox/spectrum/_locate_fundamental.py:12-75 (_locate_fundamental)", "python/src/adctoolbox/spectrum/_bin_ranges.py:6-27 (rfft_inband_bin_count)", "matlab/src/plotspec.m"]}
{"id": "C122", "title": "Phase alignment against plotspec.m", "statement": "_align_spectrum_phase aligns a run as plotspec.m does: at every multiple of gcd(bin, N) up to Nyquist (every bin, if the fundamental bin is coprime to N) the two aligned spectra differ by at most N times 1e-20/|X[bin]| of the bin's height. Refuted between the harmonics when the fundamental is interpolated: there Python rotates by k over the fractional bin and plotspec.m by k over the whole bin.", "quantifier": "every complex spectrum with a nonzero fundamental, record length and bin", "why_tests_cant": "the harmonic walk visits bins in an order that depends on number theory of bin and N; sampling cannot cover all pairs", "anchors": ["python/src/adctoolbox/spectrum/_align_spectrum_phase.py:9-95 (_align_spectrum_phase)", "matlab/src/plotspec.m"]}
{"id": "C123", "title": "Automatic side bin against plotspec.m", "statement": "_detect_side_bin_auto widens the signal as plotspec.m does: whenever plotspec.m's search ends before DC and before the band edge, Python reports the same width, raised to the default of the window; for a coherent tone plotspec.m settles on at most the half-width of the window's lobe and Python on exactly that. Refuted when the ideal line never falls to the floor: plotspec.m takes everything up to the band edge, Python the window's fallback.", "quantifier": "every spectrum, window, fractional bin and band with peak and floor above the guards", "why_tests_cant": "agreement of two searches over arbitrary spectra and windows", "anchors": ["python/src/adctoolbox/spectrum/_side_bin_auto.py:8-49 (_detect_side_bin_auto)", "matlab/src/plotspec.m"]}
{"id": "C124", "title": "Sine fit against sinfit.m", "statement": "On a coherent sine whose bin is not the last below Nyquist, fit_sine_4param and MATLAB's sinfit return the same true frequency, amplitude, offset, phase and record, and estimate_frequency and findfreq the same frequency. From equal coefficients one pass of either finds the same coefficients, and MATLAB's frequency step is its rate (0.5 by default) times Python's. Refuted elsewhere: with a given frequency MATLAB does not refine, in the last bin it starts half a bin high, on a record without tone it starts from NaN, and its default converges linearly where a Python pass squares the error.", "quantifier": "every record, frequency, tolerance and least-squares routine", "why_tests_cant": "two iterative fits with different step rules can only be compared on all records by proof; limits of the iterations are not visible in samples", "anchors": ["python/src/adctoolbox/fundamentals/fit_sine_4param.py:10-47 (fit_sine_4param)", "python/src/adctoolbox/fundamentals/frequency.py:170-207 (estimate_frequency)", "matlab/src/sinfit.m", "matlab/src/findfreq.m"]}
{"id": "C125", "title": "Error autocorrelation against errac.m", "statement": "For lags below the record length, analyze_error_autocorr returns the lags and values that MATLAB's errac computes from the returned error signal, normalized or not. For longer lags MATLAB returns NaN entries and Python raises ValueError.", "quantifier": "every record, frequency, lag range and normalization", "why_tests_cant": "equality of two differently indexed sums at all lags of all records", "anchors": ["python/src/adctoolbox/aout/analyze_error_autocorr.py:15-129 (analyze_error_autocorr)", "matlab/src/dumped/errac.m"]}
{"id": "C126", "title": "fit_static_nonlin against fitstaticnl.m", "statement": "For the same fitted sine, `fit_static_nonlin` and `fitstaticnl.m` report the same k2, k3 and curve and refuse the same inputs. Given the coherent frequency of `y0 + x + k2 x^2 + k3 x^3`, `fitstaticnl.m` reports k2/g and k3/g^2 with g = 1 + 3/4 k3 A^2. A pure sine reads zero in both. Not the same: Python takes no frequency, and on a 16-sample record with a second harmonic its own refinement moves away from the exact coherent frequency its start had found.", "quantifier": "for every record, order, amplitude, offset, phase and pair of coefficients in the stated ranges", "why_tests_cant": "the comparison is with a MATLAB program no Python test runs, over all records", "anchors": ["python/src/adctoolbox/aout/fit_static_nonlin.py:12-143 (fit_static_nonlin)", "matlab/src/dumped/fitstaticnl.m"]}
{"id": "C127", "title": "Polar spectrum against plotphase.m", "statement": "`analyze_spectrum_polar` says it matches the FFT mode of `plotphase.m`. With the same full scale, window, oversampling ratio and cutoff, and runs whose strongest bin and interpolated bin agree, both use all runs, and every bin in the band is `plotphase.m`'s complex value times 4/(N runs), up to the relative effect N 1e-20/|X[b]| of the 1e-20 guard; for one run the angle is identical. The interpolated bins agree when both neighbours are within 40 dB, or vanish. Not the same: `plotphase.m` moves a fundamental at the last bin of the band by exactly half a bin, and interpolates weak neighbours where Python keeps the whole bin.", "quantifier": "for every capture, number of runs, window of the two, full scale, oversampling ratio and bin", "why_tests_cant": "the comparison is with a MATLAB program no Python test runs, over all captures", "anchors": ["python/src/adctoolbox/spectrum/analyze_spectrum_polar.py:16-64 (analyze_spectrum_polar)", "python/src/adctoolbox/spectrum/compute_spectrum.py:22-218 (compute_spectrum)", "python/src/adctoolbox/spectrum/_align_spectrum_phase.py:9-95 (_align_spectrum_phase)", "python/src/adctoolbox/spectrum/_locate_fundamental.py:12-75 (_locate_fundamental)", "matlab/src/plotphase.m"]}
{"id": "C128", "title": "Noise shaping against noiseshape.m", "statement": "For the same input, number of bits, increasing range, order from 1 to 5 and transfer function with a nonempty numerator, `apply_noise_shaping` returns sample by sample what `noiseshape.m` returns, and refuses when it refuses; MATLAB's `filter` (a chain of registers) and scipy's `lfilter` solve the same difference equation. The refusals outside that domain differ.", "quantifier": "for every signal, range, order, transfer function and sample", "why_tests_cant": "the comparison is with a MATLAB program no Python test runs, over all signals and filters", "anchors": ["python/src/adctoolbox/siggen/nonidealities.py:327-399 (apply_noise_shaping)", "matlab/src/noiseshape.m"]}
{"id": "C129", "title": "find_coherent_frequency against findbin.m", "statement": "`findbin.m` returns the coprime bin closest to the rounded-down target, upward first. When the requested bin is strictly between a whole number and the midpoint above it, any bin `find_coherent_frequency` returns (even bins allowed, or even length) is that one. For a power of two, any search radius from one up and any frequency from zero up both answer, with the same bin unless the requested bin is an even whole number above zero: there Python takes the one below and MATLAB the one above. In the documented example that is 1023 and 1025.", "quantifier": "for every rate, frequency, record length and search radius in the stated ranges", "why_tests_cant": "the comparison is with a MATLAB program no Python test runs, over all frequencies and lengths", "anchors": ["python/src/adctoolbox/fundamentals/frequency.py:12-88 (find_coherent_frequency)", "matlab/src/findbin.m"]}
{"id": "C130", "title": "analyze_weight_radix against plotwgt.m", "statement": "For every list of weights with one that is not zero, `analyze_weight_radix` and `plotwgt.m` report the same ratios (after Python's leading NaN) and the same effective resolution. The scales are the same when the largest weight in units of the smallest significant one is not half-way between two integers and rounds to one or an even number, and when all significant weights are whole multiples of the smallest. For an odd top value `2j+1` MATLAB's scale fits at least as well for odd `j`, Python's for even `j`; they differ for the weights 5 and 2.", "quantifier": "for every list of real weights", "why_tests_cant": "the comparison is with a MATLAB program no Python test runs, over all lists of weights", "anchors": ["python/src/adctoolbox/dout/analyze_weight_radix.py:10-184 (analyze_weight_radix)", "matlab/src/plotwgt.m"]}
{"id": "C131", "title": "decompose_harmonic_error against tomdec.m", "statement": "At the same frequency and number of harmonics, `tomdec.m` and `decompose_harmonic_error` return the same residual and the same sum of fundamental and harmonics, for every frequency. With at least `2H+1` samples and no multiple of the frequency up to `2H` whole, all four signals are the same. A given frequency is used as it is by `tomdec.m`, by Python only with `max_iterations = 0`: with refinement Python never works at half the rate.", "quantifier": "for every real record, frequency, order and pair of least-squares solvers", "why_tests_cant": "the comparison is with a MATLAB program no Python test runs, over all records and frequencies", "anchors": ["python/src/adctoolbox/aout/decompose_harmonic_error.py:13-181 (decompose_harmonic_error)", "matlab/src/tomdec.m"]}
{"id": "C132", "title": "error binning by phase and value against errsin.m", "statement": "With the frequency given and no refinement, `rearrange_error_by_phase` and `rearrange_error_by_value` return the errors of `errsin.m` with the opposite sign. MATLAB's phase bins are centred on multiples of the bin width, Python's start there; when all samples lie in one half of their bins the two hold the same samples, means are opposite and Python's squared RMS is MATLAB's squared spread plus the squared mean. By value, each sample falls in the bin of the same number or a neighbour. Errors of constant magnitude that average out in each bin are amplitude and phase noise in MATLAB and base noise only in Python; with fewer samples than bins MATLAB reports no noise.", "quantifier": "for every record of at least three samples, frequency below half the rate, number of bins and pair of least-squares solvers", "why_tests_cant": "the comparison is with a MATLAB program no Python test runs, over all records", "anchors": ["python/src/adctoolbox/aout/rearrange_error_by_phase.py:15-226 (rearrange_error_by_phase)", "python/src/adctoolbox/aout/rearrange_error_by_value.py:9-116 (rearrange_error_by_value)", "matlab/src/errsin.m"]}
{"id": "C133", "title": "weight calibration against wcalsin.m", "statement": "On one dataset at a known frequency without search, `calibrate_weight_sine` and `wcalsin` return the same weights, offset, signals, error and frequency when the fit is determined and the best sine-normalised fit is no worse than the best cosine-normalised one; for noise-free records this is whenever the tone is not a pure cosine. `wcalsin` compares both fits with the right-hand side of the second; for a coherent record whose bits are even about the first sample it returns zero weights, `calibrate_weight_sine` does not. Rank patching agrees for columns that vary by at least 1e-15; `wcalsin` stops when the rank is still short after patching, Python goes on. The MATLAB search stays at the exact frequency of noise-free data, Python's leaves it. Frequencies above one half are errors in Python and taken modulo the rate in MATLAB.", "quantifier": "for every bit matrix, frequency, number of harmonics, nominal weights and least-squares solver", "why_tests_cant": "the comparison is with a MATLAB program no Python test runs, over all records", "anchors": ["python/src/adctoolbox/calibration/calibrate_weight_sine.py:28-182 (calibrate_weight_sine)", "python/src/adctoolbox/calibration/_lstsq_solver.py:1-363", "python/src/adctoolbox/calibration/_patch_rank_deficiency.py:1-152", "matlab/src/wcalsin.m"]}
{"id": "C134", "title": "analyze_decomposition_polar against the LMS mode of plotphase.m", "statement": "At the same frequency, with a whole number of periods per record, at least `2H+1` samples and no multiple of the frequency up to `2H` whole, `analyze_decomposition_polar` and the LMS mode of `plotphase.m` find the same relative phases, and the same magnitudes, residual and noise up to MATLAB's division by `maxSignal`; for one run and the default full scale the decibel values agree up to the 1e-20 inside Python's logarithm. Both default calls find the frequency of a coherent sine. Without whole periods MATLAB's noise is never the smaller one, and for an exact sum of harmonics MATLAB's residual vanishes only if the record's average is its offset. MATLAB's full scale is the range over all runs, never below Python's range of the average.", "quantifier": "for every set of runs, number of harmonics, frequency and pair of least-squares solvers", "why_tests_cant": "the comparison is with a MATLAB program no Python test runs, over all records and frequencies", "anchors": ["python/src/adctoolbox/aout/decompose_harmonic_error.py:13-181 (decompose_harmonic_error)", "python/src/adctoolbox/aout/analyze_decomposition_polar.py:8-66 (analyze_decomposition_polar)", "matlab/src/plotphase.m"]}
{"id": "C135", "title": "plot_residual_scatter against plotres.m and plotressin.m", "statement": "For a rectangular bit matrix, one weight per column and stages between 0 and m, `plotres.m` draws exactly the residuals `plot_residual_scatter` returns; its presets and defaults are the corresponding lists of pairs. A stage above m stops MATLAB and is clipped in Python; a negative stage is the plain signal in MATLAB and counts from the last bit in Python; two pairs passed as columns are read as rows by MATLAB. `plotressin.m` draws the residuals of its own calibration: after the last bit minus the calibration error, zero for a noise-free record.", "quantifier": "for every signal, bit matrix, set of weights and list of integer pairs", "why_tests_cant": "the comparison is with MATLAB programs no Python test runs, over all records and stage numbers", "anchors": ["python/src/adctoolbox/dout/plot_residual_scatter.py:11-116 (plot_residual_scatter)", "matlab/src/plotres.m", "matlab/src/shortcut/plotressin.m"]}
{"id": "C136", "title": "Amplitude and phase noise agree with errsin_hp.m when no base noise is fitted", "statement": "With the frequency given and max_iterations = 0, rearrange_error_by_phase and errsin_hp.m sort the samples into the same phase bins; their errors and bin means are opposite, and the squared Python RMS of a bin is the squared MATLAB one plus the squared mean (NaN against zero for an empty bin). With include_base_noise=False the amplitude noise and the phase noise in radians are equal. With the default include_base_noise=True Python reports only the excess of the larger variance over the smaller, and the smaller as base noise. Refuted: that R2 of errsin_hp.m measures how well the model follows the binned trend; with at most one sample per bin it is one whatever the errors. By value errsin_hp.m equals errsin.m with zeros for empty bins.", "quantifier": "all records of three samples or more, all frequencies in (0, 1/2), all positive bin counts, all least-squares solvers; for the noise figures, phases with two different values of cos 2\u03c6", "why_tests_cant": "the comparison tests check a few stored records to a tolerance; whether two least-squares solutions agree for every record, and how the base-noise option relates to the MATLAB figures, is not visible from samples", "anchors": ["python/src/adctoolbox/aout/rearrange_error_by_phase.py:15-226 (rearrange_error_by_phase)", "python/src/adctoolbox/aout/_fit_error_phase.py:12-80 (_fit_error_phase)", "matlab/src/dumped/errsin_hp.m"]}
{"id": "C137", "title": "Cutoff, assumed signal and removed harmonics in plotspec.m", "statement": "With a positive cutoff that leaves the lobe of the strongest in-band bin alone, compute_spectrum and plotspec.m report the same signal bin and the same signal power, assumed or measured; the noise and distortion differ by the bin next to DC and by the 1e-20 Python writes into each cut bin. Refuted: with the strongest lobe below the cutoff and another in-band bin above it holding power, plotspec.m still takes the cut bin for the signal and reports minus infinity for power and SNDR, while compute_spectrum finds a fundamental at or above the cutoff. With harmonic = -H plotspec.m leaves the lobes of harmonics 2..H out of the noise and distortion, and its THD is minus infinity when nTHD <= H; SNDR, SFDR and signal power of compute_spectrum do not depend on max_harmonic.", "quantifier": "all records of equally long live runs, both built-in windows, all full scales, side bins, positive cutoffs and sample rates, all assumed powers and harmonic counts", "why_tests_cant": "the comparison tests use no cutoff and no negative harmonic; a strong tone below the cutoff is a corner no stored record reaches", "anchors": ["python/src/adctoolbox/spectrum/compute_spectrum.py:22-218 (compute_spectrum)", "matlab/src/plotspec.m"]}
{"id": "C138", "title": "Calibration from several datasets against wcalsin.m with a cell array", "statement": "Noise-free datasets sharing one offset, at known frequencies, weights determined up to a factor, sine part in the first fundamental: wcalsin returns s*w, offset s*c, scaled harmonics and zero errors, with s^2 times the squared amplitude of the first dataset's fundamental equal to 1. calibrate_weight_sine returns the same weights up to a factor g, g^2 (a00^2 + b00^2) = b00^2 + r^2, where r is the coefficient its normalisation reads; the two agree exactly when r^2 = a00^2. Refuted: for the same record given twice they differ by sqrt 2. With different offsets per dataset wcalsin leaves a non-zero error on noise-free data, with any solver. Datasets rejected by Python's checks are rejected by wcalsin; a frequency list of length one serves all datasets in MATLAB and is an error in Python.", "quantifier": "all numbers and lengths of datasets, frequencies, harmonic orders, weights, nominal weights and least-squares solvers", "why_tests_cant": "the tests calibrate one record; the normalisation entry that is read differs only with two or more datasets and was never compared with the original", "anchors": ["python/src/adctoolbox/calibration/calibrate_weight_sine.py:28-182 (calibrate_weight_sine)", "matlab/src/wcalsin.m"]}
{"id": "C139", "title": "Extraction and foreground calibration of an interleaved converter, end to end", "statement": "Record a sum of coherent tones with M channels of any non-zero gains, any offsets and skews. calibrate_foreground with these parameters (gains up to a factor c, skews up to a shift) and skew_method='fft' returns, if all tones are below fs/(2M), exactly c times the input waveform at the common sampling instant; skews below 1e-18 s are not corrected, which costs at most |c| sum |A| 2 pi f 1e-18. The parameters may come from extract_mismatch_sine on the record of one positive-gain sine in any zone: the result is the waveform with the mean gain at the mean instant. A tone next to q times the channel rate keeps the phase error q (fs/M) skew: extracting again after calibrating gives zero offsets, unit gains, the same amplitude and the old skews times q (fs/M)/fin. Refuted above fs/(2M): below the next multiple of fs/M the calibration makes every skew larger, above it skews keep their sign and are not removed.", "quantifier": "all channel counts, record lengths, gains, offsets, skews, tone sets, Nyquist zones of the channels", "why_tests_cant": "the tests check one converter with one tone below fs/(2M) to a tolerance; that the three functions compose to the identity for every signal, and what happens above fs/(2M), is a statement about all of them", "anchors": ["python/src/adctoolbox/timeinterleave/calibrate_foreground.py:17-100 (calibrate_foreground)", "python/src/adctoolbox/timeinterleave/extract_mismatch_sine.py:18-103 (extract_mismatch_sine)", "python/src/adctoolbox/timeinterleave/fractional_delay.py:18-54 (fractional_delay_fft)", "python/src/adctoolbox/timeinterleave/deinterleave.py:34-50 (interleave)"]}
{"id": "C140", "title": "Calibrate, then analyse: the SNR of the calibration and the SNDR of the spectrum", "statement": "One record at a known coherent frequency b/N, independent bit columns, one harmonic, any least-squares solver. calibrate_weight_sine reports an SNR of 1/(2 rho), rho the mean square of its returned error. When rho < 1/4 every compute_spectrum call without window and side bins on the calibrated signal finds the tone at bin b and reports exactly (1/2 - 2 rho + 2 k rho^2) / (rho - 2 k rho^2) with one k in [1, 2] (plus the floor of 1e-20 of full scale). So the two figures differ by at most 1 downwards and 4 rho/(1 - 4 rho) upwards as ratios. Against any other weights, offset and sine of amplitude A that miss the record by nu rms, the spectrum of the calibrated signal reports at least A^2/(4 nu^2) - 1. Refuted for several harmonics: a one-bit record calibrated with three harmonics is reported at 200 dB while its calibrated signal shows at most 9 dB.", "quantifier": "all records, frequencies b/N with 0 < 2b < N, nominal weights, least-squares solvers, windows-free spectrum arguments and full scales", "why_tests_cant": "the tests print both numbers and compare them with loose margins on one seed; the relation between a least-squares residual and a periodogram is an identity over all records", "anchors": ["python/src/adctoolbox/calibration/calibrate_weight_sine.py:28-182 (calibrate_weight_sine)", "python/src/adctoolbox/calibration/_post_process.py:1-137", "python/src/adctoolbox/spectrum/compute_spectrum.py:22-218 (compute_spectrum)"]}
{"id": "C141", "title": "Noise and jitter put in are noise and jitter read out", "statement": "A coherent sine of amplitude a from ADC_Signal_Generator, N samples, through apply_thermal_noise with independent draws of variance 1 and fourth moment at most K, rms noise below a/sqrt(8), then a compute_spectrum call without window and side bins: except with probability (K + 5)/(N eta^2) the call succeeds, finds the bin of the tone and reports an SNDR between (a - sqrt(eta) rms)^2/2 over rms^2 (1 + eta) (plus the floor of 1e-20 of full scale) and (a + sqrt(eta) rms)^2/2 over rms^2 (1 - 3 eta/2), for every eta up to 1/2. For standard normal draws the probability is 8/(N eta^2). Through apply_jitter with normal time errors of rms sigma, w = 2 pi Fin sigma and 2 (1 + eta) w^2 <= 1: except with probability 12/(N eta^2) the tone is found and the SNDR is at least 1/(w^2 (1 + eta)) - 1, where 1/w^2 is the figure of calculate_jitter_limit.", "quantifier": "all generators with a coherent tone, record lengths, noise levels, draws on any probability space, accuracies eta, full scales, window-free spectrum arguments", "why_tests_cant": "a test draws a few seeds and compares within a margin; the statement bounds the probability of a wrong figure over all draws and every length", "anchors": ["python/src/adctoolbox/siggen/nonidealities.py:56-60 (apply_thermal_noise)", "python/src/adctoolbox/siggen/nonidealities.py:79-100 (apply_jitter)", "python/src/adctoolbox/spectrum/compute_spectrum.py:22-218 (compute_spectrum)", "python/src/adctoolbox/fundamentals/metrics.py:86-102 (calculate_jitter_limit)"]}
{"id": "C142", "title": "Sampling jitter applied to a given record", "statement": "apply_jitter(input_signal=...) succeeds exactly for at least two samples, a positive rate and a record of the length of the generator. The result does not depend on how the cubic spline is computed. Without time errors the record comes back unchanged. For the same time errors the result is linear in the record, so that what an earlier stage added is carried through on its own. A cubic polynomial in time is sampled exactly. Inside the record no value exceeds 3.5 times the largest sample. For a record within m of the clean sine the result is within a theta^4/4 + 3.5 m of the sine evaluated at the displaced instants (which is what apply_jitter returns without input_signal), theta = 2 pi Fin/Fs <= pi, for instants inside the record; for the clean record and time errors up to one sample within 5 a theta^4 everywhere. Refuted at Fin = Fs/2: the record comes back as the offset for every time error, while the other path is off by the full amplitude.", "quantifier": "all generators, records, time errors, spline routines that return the documented not-a-knot spline", "why_tests_cant": "the tests check that some noise is added; the agreement of the two branches of apply_jitter for the same draws is an interpolation bound over all frequencies and draws", "anchors": ["python/src/adctoolbox/siggen/nonidealities.py:79-100 (apply_jitter)"]}
{"id": "C143", "title": "The predicted interleaving spurs account for the measured SNDR", "statement": "Record a coherent tone with a time-interleaved converter of any gains, offsets and skews, K samples per channel, at bin b with K not dividing 2b. Let D be the total power of the spurs predict_spurs lists (amp^2 per offset entry, amp^2/2 per gain-skew entry). D equals the variance of the offsets plus A^2/2 (mean g^2 - |mean alpha|^2). If 4D is below (A |mean alpha|)^2, compute_spectrum without window succeeds, finds the fundamental at b, reports the signal power of amplitude A |mean alpha|, and reports exactly (A |mean alpha|)^2/2 over D plus the floor of 1e-20 of full scale as SNDR. With equal gains and offsets and skews of rms spread s the SNDR is at least 1/(2 pi fin s)^2 - 1, where the first term is calculate_jitter_limit(fin, s). The dbc column is relative to A mean(gain), not to the line at the input frequency: every spur stands 20 log10(mean(gain)/|mean alpha|) higher above that line; a witness lists a spur that exceeds the line as negative dBc.", "quantifier": "all gains, offsets, skews, amplitudes, phases, channel counts, record lengths and coherent bins of the kind described", "why_tests_cant": "the tests compare spur levels of one converter with a tolerance; that the list is complete, so that its total power is the measured distortion, is an identity over all mismatches", "anchors": ["python/src/adctoolbox/timeinterleave/predict_spurs.py:21-108 (predict_spurs)", "python/src/adctoolbox/spectrum/compute_spectrum.py:22-218 (compute_spectrum)", "python/src/adctoolbox/fundamentals/metrics.py:86-102 (calculate_jitter_limit)"]}
{"id": "C144", "title": "Modulation and glitches as the spectrum reports them", "statement": "apply_am_tone on a coherent sine at a coherent modulation frequency with depth 0 < d < 2, analysed with any cosine-sum window that keeps the three lines apart: compute_spectrum succeeds, finds the carrier at its bin with the amplitude of the generator whatever the offset, reports a sideband as the largest spur, SFDR = 20 log10(2/d), and SNDR = carrier power over d^2/2 of it (plus the floor of 1e-20 of full scale). apply_am_noise of strength s with independent standard normal draws: without window, except with probability 4/(N eta^2), the tone is found and SNDR is at least 1/(s^2 (1 + eta)) - 1. apply_glitch: for every outcome of the draws with c glitches of N samples and 4 c amp^2 < N A^2 the tone is found and SNDR is at least (A^2/2)/(c amp^2/N) - 1.", "quantifier": "all generators on a bin, depths, windows, strengths, draws, glitch counts and amplitudes of the kind described", "why_tests_cant": "the tests look at one seed and one record; what modulation does to the reported numbers must hold for all bins, depths and draws", "anchors": ["python/src/adctoolbox/siggen/nonidealities.py:289-295 (apply_am_tone)", "python/src/adctoolbox/siggen/nonidealities.py:271-287 (apply_am_noise)", "python/src/adctoolbox/siggen/nonidealities.py:320-325 (apply_glitch)", "python/src/adctoolbox/spectrum/compute_spectrum.py:22-218 (compute_spectrum)"]}
{"id": "C145", "title": "The drift filter passes slow components and nothing else", "statement": "apply_drift raises ValueError for records of at most nine samples and returns otherwise. For each record length the draws reach the record through one fixed matrix, so the drift is unbiased and proportional to drift_scale. A walk that stays at its first step moves every sample by that step. Every sine in the walk, of whatever frequency, amplitude and phase, reaches the signal with unchanged phase and amplitude multiplied by 1/(1 + (tan(theta/2)/tan(pi 0.001/2))^4), up to a deviation that decays geometrically with the distance from the ends of the record, with constants that do not depend on record, length, draws or frequency. That factor is one at zero frequency, one half at 0.001 of half the sampling rate, zero at half the sampling rate, and strictly falls in between.", "quantifier": "all generators, input records, scales, draws, record lengths and frequencies", "why_tests_cant": "the tests check one seed; phase and gain at all frequencies and the decay of the end effects for all lengths are statements about infinitely many records", "anchors": ["python/src/adctoolbox/siggen/nonidealities.py:311-318 (apply_drift)"]}
{"id": "C146", "title": "A sine that does not fit the record: the bin fraction decides the reported bits", "statement": "For a noiseless sine with nu periods in the record, of any amplitude, phase, offset and record length: analysed without window or side bins, the SNDR is at most 1.1/d^2 - 1 when nu is at least d away from every whole number, and at least 1.5/(pi delta)^2 - 1 (up to the numerical floor) when it is delta, at most a quarter, away from b, the sine then being found in bin b. With the Hann window and one side bin it is at most 1.6 ((2-d)(3-d)/d)^2 - 1. In bits: without a window, at least 2^-n away gives fewer than n bits and at most 2^-(n+2) away gives more than n bits (n up to 30, full scale at most twice the amplitude); quick_sndr with its defaults reports fewer than n bits at least 2^(3-n) away. The upper bounds hold for 32 periods or more, and as many below half the sampling rate.", "quantifier": "all amplitudes, phases, offsets, record lengths, fractional periods, full-scale settings and requested bits", "why_tests_cant": "the tests analyse sines with whole numbers of periods; the bounds range over all fractions of a bin, phases and lengths", "anchors": ["python/src/adctoolbox/spectrum/compute_spectrum.py:22-218 (compute_spectrum)", "python/src/adctoolbox/spectrum/quick_sndr.py:22-68 (quick_sndr)", "python/src/adctoolbox/spectrum/_window.py:67-111 (_create_window)"]}
{"id": "C147", "title": "Noise shaping shows in the oversampled report", "statement": "A coherent sine with any error, analysed without window at any oversampling ratio: the report finds the sine and an SNDR of at least A^2/(2 sigma^2) - 1 (up to the numerical floor), where sigma^2 is the power of the error inside the analysed band; the error outside the band, of any size, does not count. apply_noise_shaping of order L (1 to 5) with the default NTF on a sine inside the quantizer's range, analysed at an oversampling ratio of at least 4 whose band edge falls on a bin: the SNDR is at least that of a quantizer whose step is multiplied by (pi/OSR)^L + 2^L/sqrt(N OSR). If that factor is at most 2^-m, a full-scale sine is reported with more than bits + m - 1 effective bits (bits + m from 2 to 30). Doubling ratio and length divides the first part of the factor by 2^L and the second by 2.", "quantifier": "all amplitudes, phases, offsets, bins, record lengths, oversampling ratios, quantizer ranges and resolutions, orders 1 to 5, all error sequences", "why_tests_cant": "the tests run single records and look at plots; the bound holds for every sine, record length and quantizer without assuming that quantization noise is white", "anchors": ["python/src/adctoolbox/siggen/nonidealities.py:327-399 (apply_noise_shaping)", "python/src/adctoolbox/spectrum/compute_spectrum.py:22-218 (compute_spectrum)", "python/src/adctoolbox/spectrum/_bin_ranges.py:6-27 (rfft_inband_bin_count)"]}
{"id": "C148", "title": "Memory, settling, residue gain and reference droop as the spectrum report shows them", "statement": "A coherent sine (any amplitude A, phase, offset, bin, record length) through the generator's impairments, analysed without window; the sine is found in its bin and, up to the numerical floor: apply_ra_gain_error with gain g and m + l bits gives an SNDR of at least 2 (amplitude/w)^2 - 1 with w = 2^-max(m,l) + |g-1| 2^-m, the amplitude being g A with the error in the coarse path and A with it in the residue path; apply_memory_effect of strength s gives at least 2 ((1-|s|) A/w)^2 - 1 with w = 2^-12 + |s|/16; apply_incomplete_sampling with e = exp(-T/(tau (1 + k A^2))) < 1/4 gives at least 1/(8 e^2) - 1, so tracking for (n+2) ln 2 of the longest time constant gives more than n bits (n from 1 to 28, full scale at most 2 A); with k = 0 it gives at least N (1-q^2)/(2 q^2) - 1, q = exp(-T/tau), whatever q: linear settling costs amplitude only; apply_reference_error with largest droop m = d A/(1 - exp(-1/tau)) at most 4/5 gives at least (2/m - 1)^2 - 1.", "quantifier": "all amplitudes, phases, offsets, bins, record lengths, gains, strengths, time constants, tracking times and bit counts in the stated ranges", "why_tests_cant": "the tests run single records; the bounds hold for every sine and parameter and tie the model's parameters to the reported figures", "anchors": ["python/src/adctoolbox/siggen/nonidealities.py:171-198 (apply_ra_gain_error)", "python/src/adctoolbox/siggen/nonidealities.py:138-149 (apply_memory_effect)", "python/src/adctoolbox/siggen/nonidealities.py:151-169 (apply_incomplete_sampling)", "python/src/adctoolbox/siggen/nonidealities.py:247-269 (apply_reference_error)", "python/src/adctoolbox/spectrum/compute_spectrum.py:22-218 (compute_spectrum)"]}
{"id": "C149", "title": "Percentile clipping of a coherent sine as the spectrum report shows it", "statement": "A coherent sine (any amplitude, phase, offset, record length N and bin coprime to N) through apply_clipping with percentile p in [0, 50], analysed without window: with K = ceil(p (N-1)/100), the clip levels are at least cos(pi (K+1)/N) of the amplitude away from the offset, every sample is clamped to them, the sine is found in its bin, and the SNDR is at least 1/(4 (K/N) e^2) - 1 up to the numerical floor, where e = 1 - cos(pi (K+1)/N); for k = (K+1)/N at most 1/5 this is at least 1/(pi^4 k^5) - 1, so halving the clipped share gains 15 dB.", "quantifier": "all sines with bin coprime to the record length, all percentiles, amplitudes, phases, offsets and record lengths in the stated ranges", "why_tests_cant": "the tests run single records; the percentile is a count, and only a proof relates it for all phases and lengths to the clip level and the reported SNDR", "anchors": ["python/src/adctoolbox/siggen/nonidealities.py:297-309 (apply_clipping)", "python/src/adctoolbox/spectrum/compute_spectrum.py:22-218 (compute_spectrum)"]}
{"id": "C150", "title": "Accuracy of INL and DNL from a sine histogram", "statement": "For every record of codes of a converter with non-decreasing transition levels T, each sample converted with an input-referred error of at most rho (rho = 0: no noise), and a coherent sine of amplitude A with N samples and a number of periods coprime to N, at any phase and offset: the transition level that compute_inl_from_sine infers for a code is the true one up to eta = pi A/N + rho; with n kept codes and S the distance of the outermost kept levels, every returned DNL value is the true DNL (on the function's scale n/(n-2), clipped at -1, of the code one above its label) up to 4 n eta/(S - 2 eta), and so is every INL value when no code is narrow enough to be clipped: the errors do not accumulate. For an ideal converter of step D with at least 5 kept codes and 8 eta <= D, all DNL and INL values are at most 8 eta/D, that is 4 pi 2^B/N for a noise-free sine over B bits.", "quantifier": "all converters with monotone levels, all bounded noise sequences, all amplitudes, phases, offsets, record lengths, coprime bins, clip percentages and kept ranges", "why_tests_cant": "the tests check one converter and one record length with a tolerance; only a proof gives the accuracy for every converter and says how many samples a required accuracy takes", "anchors": ["python/src/adctoolbox/aout/compute_inl_from_sine.py:11-137 (compute_inl_from_sine)"]}
{"id": "C151", "title": "Bit activity of a sine: 50 percent means centred, not unclipped", "statement": "analyze_bit_activity on the binary codes of a coherent sine (number of periods coprime to the N samples, any phase): if the converter's levels are symmetric about the sine's offset, the activity of bit j (0 = MSB) is 50% up to 100 (2^(j+1) - 1)/N percent, for every amplitude, inside the range or far beyond it - in particular for sar_convert with ideal weights and a sine in the middle of the range; and from the MSB activity p% alone the offset is t - A cos(pi p/100) up to pi A/N, t being the middle transition level.", "quantifier": "all converters, resolutions, amplitudes, phases, record lengths and coprime bins", "why_tests_cant": "the tests use one converter and one amplitude with a tolerance; that clipping at both ends never shows in the activity is a statement about all amplitudes", "anchors": ["python/src/adctoolbox/dout/analyze_bit_activity.py:9-71 (analyze_bit_activity)", "python/src/adctoolbox/models/sar.py:176-262 (sar_convert)"]}
{"id": "C152", "title": "decompose_harmonic_error under noise, and its agreement with compute_spectrum", "statement": "For a record whose fundamental lies on a bin, with the frequencies of the first 2H harmonics apart from the multiples of the sampling rate: decompose_harmonic_error reports as magnitude k 4/N times the size of the discrete Fourier transform at harmonic k+1, and the variance of the averaged record is the sum of the squared magnitudes plus the squared residual rms, divided by 8; any error e of rms sigma changes the magnitudes and the residual together by at most 8 sigma^2 in squares (each by at most 2 sqrt2 sigma), whatever its shape; for uncorrelated noise the mean squared residual rms is 8 sigma^2 (N-1-2H)/N. On the same record compute_spectrum with a rectangular window and no side bins reports an SNDR that is exactly the ratio of the first squared magnitude to the rest plus the residual (up to its numerical floor), harmonic levels that are the ratios of the squared magnitudes, and a THD that is the ratio of their sum, once its harmonic bins are the first-zone aliases; they are when one neighbour of the fundamental lies four decades below it.", "quantifier": "all records, numbers of harmonics, runs, noise and amplitudes; all least squares solvers meeting their specification", "why_tests_cant": "the tests compare the two functions on a few waveforms with tolerances; that they agree exactly, and that noise cannot move the numbers further than its own power, is a statement about all records", "anchors": ["python/src/adctoolbox/aout/decompose_harmonic_error.py:13-181 (decompose_harmonic_error)", "python/src/adctoolbox/spectrum/compute_spectrum.py:22-218 (compute_spectrum)"]}
{"id": "C153", "title": "What the MATLAB dashboard adcpanel.m reports", "statement": "For every choice of the nine analysis functions: integer codes given as bits become rows of the fewest 0/1 digits that hold them all, plain binary without negatives and two's complement with; a record on its side and a wide bit matrix are analysed like their transposes, integer codes like their digits. When the calibration of bits succeeds, all analyses report what a separate call on the calibrated record, with the found frequency and the full scale used, reports. Without maxCode the full scale is the sum of the magnitudes of the weights and no two calibrated samples differ by more; with maxCode the weights sum to it. When the calibration fails no analysis reports a value. No analysis changes another one's field. The time window shown contains the largest error, stays inside the record and covers one and a half periods either side unless cut by its ends. Refuted: with a given maxCode and weights of both signs the calibrated record exceeds the full scale; for signals other than sines no spectrum is reported; a misspelt dataType gives an empty report without error.", "quantifier": "all records, matrices, arguments and results or failures of the analysis functions", "why_tests_cant": "the panel swallows every exception in a try block, so a test sees an error only as a missing field; which field depends on which of nine functions failed", "anchors": ["matlab/src/adcpanel.m"]}
{"id": "C154", "title": "The value-binned mean error is the INL profile", "statement": "rearrange_error_by_value with one bin per code (requested range, or inferred from raw codes that reach both ends): bin centres are the codes, every sample is counted at its code. If the fitted record is within d of a line alpha*s + beta of the input, the mean error of a code inside the range is the deviation of the code from that line in the middle between its transition levels, up to alpha times half its width and the input-referred noise, plus d; RMS at most the magnitude of that plus the same. For any monotone converter and a coherent sine with b periods in N samples, b and N coprime, the sine fitted at that frequency is the least-squares straight line of output against input, slope not negative, up to 2/N of the output range; the mean error is therefore the best-fit INL up to half a code and 2*(hi-lo)/N. With the default refinement of the frequency the same holds up to a constant times the largest error of the codes, for errors below a threshold.", "quantifier": "all monotone converters and transition levels, code ranges, record lengths, coprime periods, amplitudes, phases and offsets, noise levels, clip fractions and least-squares solvers", "why_tests_cant": "the profile is called INL in the code and the docs, but what it measures depends on the phase of the fit; tests look at one converter and one record", "anchors": ["python/src/adctoolbox/aout/rearrange_error_by_value.py:9-116 (rearrange_error_by_value)", "python/src/adctoolbox/fundamentals/fit_sine_4param.py:10-47 (fit_sine_4param)"]}
{"id": "C155", "title": "Harmonics of a static converter lie on the real axis of the polar decomposition", "statement": "decompose_harmonic_error at the frequency b/N of a coherent sine: the magnitude and phase reported for harmonic k+1 are the record's own correlation with that harmonic, relative to the phase of the reported fundamental. If the averaged record is any memoryless characteristic of total variation V applied to the sine (quantiser, clipping, missing codes, non-monotone steps), b and N coprime and 2H < N, then the part of each harmonic off the real axis obeys mag_0*|mag_k*sin(phase_k)| <= 4V/N*(mag_0 + (k+1)*mag_k): phases are 0 or 180 degrees up to the record length, so a larger off-axis part proves memory.", "quantifier": "all static characteristics of bounded variation, record lengths, coprime periods, amplitudes, phases, offsets, numbers of runs and harmonics, and least-squares solvers", "why_tests_cant": "the docs read static or memory effects off the phase; tests use one smooth polynomial, where the phase is exact, and not the discontinuous characteristics of real converters", "anchors": ["python/src/adctoolbox/aout/decompose_harmonic_error.py:13-181 (decompose_harmonic_error)", "python/src/adctoolbox/fundamentals/fit_sine_4param.py:49-115 (_fit_core)"]}
{"id": "C156", "title": "The skill command as typed: which words do what, and what is printed", "statement": "adctoolbox-install-skill, from the words typed to files, exit status and text: the words that mean an option are a fixed table (names and unambiguous beginnings, so --u replaces files and --de is refused); an accepted line is options, one block of names, options, with no word dropped, flags holding wherever they stand and the last path counting; names before and after an option are refused and change nothing; without a spelling of --force or --upgrade every existing entry survives, without a spelling of --dest nothing changes at all; --status prints six lines per skill which say installed, missing and synced exactly as the files are; an install line followed by a status line of the same request prints installed: yes and synced: yes for every skill; --list marks exactly the skills that a plain line installs.", "quantifier": "all lists of words (without the separator -- and letters glued to -h), all file systems, bundles and destinations", "why_tests_cant": "tests run a few lines; the set of lines is infinite and abbreviations, order and repetition of options come from the parser, not from code that is visible", "anchors": ["python/src/adctoolbox/skill_cli.py:250-296 (main)", "python/src/adctoolbox/skill_cli.py:179-228 (_build_parser)", "python/src/adctoolbox/skill_cli.py:231-234 (_require_dest)", "python/src/adctoolbox/skill_cli.py:237-247 (_print_status)", "python/src/adctoolbox/skill_cli.py:27-29 (available_skill_names)"]}
{"id": "C157", "title": "The error autocorrelation of white noise vanishes off lag 0, and correlated noise shows its own correlation", "statement": "analyze_error_autocorr(normalize=False, max_iterations=0, frequency=b/N) on a coherent sine plus random noise. For uncorrelated noise of rms sigma the expected value at lag 0 is exactly sigma^2 (N-3)/N and at every other lag k (positive or negative, up to max_lag < N) exactly -sigma^2 (1 + 2 cos(2 pi b k/N))/N. For noise with arbitrary second moments C(i,j) whose absolute row sums are at most G, stationary or not, the expected value at lag k is the mean of C(t, t+|k|) over the record within 15 G/N. The fit therefore neither creates nor hides a correlation by more than a term that falls with the record length, whatever the amplitude, phase and offset of the sine.", "quantifier": "all noise distributions with finite second moments, correlation structures, record lengths, periods, amplitudes, phases, offsets, lags and least-squares solvers", "why_tests_cant": "the docstring promises 'white noise shows ACF = 0 for all lags except 0; correlated errors show non-zero ACF at specific lags'; a test sees one random draw and must use a tolerance wider than the bias of the fit", "anchors": ["python/src/adctoolbox/aout/analyze_error_autocorr.py:15-129 (analyze_error_autocorr)", "python/src/adctoolbox/fundamentals/fit_sine_4param.py:49-115 (_fit_core)"]}
{"id": "C158", "title": "Amplitude and phase noise put on a sine are the amplitude and phase noise that the phase analysis reports", "statement": "rearrange_error_by_phase(include_base_noise=True, max_iterations=0, norm_freq=b/N, 4b != N) on a coherent sine of amplitude A with independent zero-mean noise whose variance follows the phase of the sine as am cos^2 + pm sin^2 + c, fourth moments at most s^4. Except with probability (20 s/A + 34) s^2/(delta sqrt N), the square of am_noise_rms_v is am - min(am, pm), the square of pm_noise_rms_v is pm - min(am, pm) and the square of base_noise_rms_v is c + min(am, pm), each within delta. So the estimates converge as the record grows, to the excess of the stronger of the two modulations over the weaker; the common part is reported as noise floor. For the generator: apply_am_noise(strength) is read back as A*strength of AM and nothing else, apply_thermal_noise(rms) as a noise floor of rms and nothing else, to a part eta of the variance except with probability (57 u/A + 68)/(eta sqrt N), u the noise's own rms value (A*strength or rms). apply_jitter(sigma) with normal time errors, w = 2 pi Fin sigma, q = exp(-w^2): pm_noise_rms_v^2 is A^2 q(1-q), which is (A w)^2 less a part of at most 3w^2/2, base_noise_rms_v^2 is A^2 (1-q)^2/2 and AM is 0, each within eta (A w)^2 except with probability (294 w exp(w^2/2) + 204)/(eta sqrt N). The fitted amplitude is A within delta except with probability 6 s^2/(delta^2 N), so the relative figures converge too: am_relative^2 and pm_noise_rms_rad^2 are (am - min)/A^2 and (pm - min)/A^2 within eta (s/A)^2 except with probability (80 s/A + 136)/(eta sqrt N) + 384 (s/A)^2/(eta^2 N), for A >= 2e-10. For jitter pm_noise_rms_rad^2 is 1 - exp(-w^2), between w^2 - w^4/2 and w^2, within eta w^2.", "quantifier": "all noise distributions with four moments, record lengths, periods, amplitudes, phases, offsets, tolerances, bin counts and least-squares solvers", "why_tests_cant": "the answer is a random number; a test can only compare one draw with a loose tolerance, and cannot tell that equal AM and PM vanish into the noise floor for every record", "anchors": ["python/src/adctoolbox/aout/rearrange_error_by_phase.py:15-226 (rearrange_error_by_phase)", "python/src/adctoolbox/fundamentals/fit_sine_4param.py:49-115 (_fit_core)", "python/src/adctoolbox/siggen/nonidealities.py:271-287 (apply_am_noise)", "python/src/adctoolbox/siggen/nonidealities.py:56-60 (apply_thermal_noise)", "python/src/adctoolbox/siggen/nonidealities.py:79-100 (apply_jitter)"]}
{"id": "C159", "title": "The calibration does not depend on how the bits are written down, except for the sign", "statement": "calibrate_weight_sine_lite on bit columns that are independent of each other, of a constant and of the sine column. If every column is replaced by an invertible affine combination of the columns (inverted bits, +-1 instead of 0/1, exchanged columns, differences of columns), the weights returned for the two are the same converter: r = s * transpose(M) r' with s = 1 or -1, and the two corrected records differ by that sign and a constant only. Permuting the columns permutes the weights exactly, with the same sign. Storing some bits inverted negates exactly their weights, up to the common sign. The sign is the one that makes the sum of the weights non-negative: a converter whose true weights have a negative sum, as two's complement codes have, is returned by calibrate_weight_sine_lite and by calibrate_weight_sine with all weights negated, so its corrected record is the input upside down.", "quantifier": "all record lengths, numbers of bits, columns, frequencies up to 1/2, invertible recodings, permutations, sets of inverted bits and least-squares solvers", "why_tests_cant": "tests calibrate a few offset-binary records in one bit order; the claim ranges over every recoding of every record, also where the fit is not exact, and the inverted result on two's complement codes needs data no test contains", "anchors": ["python/src/adctoolbox/calibration/calibrate_weight_sine_lite.py:6-43 (calibrate_weight_sine_lite)", "python/src/adctoolbox/calibration/calibrate_weight_sine.py:28-182 (calibrate_weight_sine)", "python/src/adctoolbox/calibration/_post_process.py:11-98 (_post_process)"]}
{"id": "C160", "title": "Oversampling divides white noise by exactly the ratio in the report", "statement": "A coherent sine of amplitude a from ADC_Signal_Generator, N samples, through apply_thermal_noise(rms) with mutually independent draws of mean 0, variance 1 and fourth moment at most K, then compute_spectrum without window and side bins at an oversampling ratio osr > 1 whose band edge N/(2 osr) is a bin at or above the sine, with 8 rms^2/osr < a^2. Except with probability (11 osr + 4 K)/(N eta^2) the call succeeds, finds the bin of the sine and reports an SNDR between (a - q)^2/2 over rms^2/osr (1 + eta) (plus the floor of 1e-20 of full scale) and (a + q)^2/2 over rms^2/osr (1 - 3 eta/2), q^2 = eta rms^2/osr, for every eta up to 1/2. So the noise counted is rms^2/osr: 3 dB per doubling of the ratio, and the sine is found even where the noise of the whole band is above it. For standard normal draws the probability is (11 osr + 12)/(N eta^2).", "quantifier": "all noise distributions with four moments, record lengths, bins, amplitudes, offsets, ratios with a band edge on a bin, tolerances and window libraries", "why_tests_cant": "one draw compared with a loose tolerance neither gives the exact factor nor how often the report may miss it; the two-sided bound must hold for every distribution and ratio", "anchors": ["python/src/adctoolbox/spectrum/compute_spectrum.py:22-218 (compute_spectrum)", "python/src/adctoolbox/siggen/nonidealities.py:56-60 (apply_thermal_noise)"]}
{"id": "C161", "title": "The single-bin THD helper counts shared bins twice and is not what plotspec.m computes", "statement": "_calculate_harmonic_power_plotspec raises IndexError exactly if a harmonic that collides neither with the fundamental nor with DC lies beyond the spectrum. Otherwise its THD is the sum of one bin per clear harmonic (floored at 1e-15), a bin reached by several harmonics counting once for each; each clear harmonic has the power of its single bin, the others 1e-15; the collided harmonics are those of _calculate_harmonic_power. With side_bin = 0 the harmonic powers equal those of _calculate_harmonic_power, THD is never smaller for a non-negative spectrum, and equal if no two clear harmonics share a bin. With side bins every harmonic power, and THD if no two clear harmonics share a bin, is at most that of _calculate_harmonic_power. The docstring's 'like MATLAB plotspec' is refuted: plotspec.m sums whole lobes, each bin once, and agrees with _calculate_harmonic_power on records where the single-bin helper is too low or twice too high. _calculate_noise_metrics, given the signal power, the noise estimate, fs and osr of a compute_spectrum result, returns exactly the reported SNR, noise floor and NSD, whatever enbw.", "quantifier": "all spectra, harmonic bin lists, fundamental bins, side bins; all records, options and window libraries for the noise figures", "why_tests_cant": "neither helper is called by the package, so no test reaches them; whether they can replace the ones in use is a statement about every spectrum", "anchors": ["python/src/adctoolbox/spectrum/_harmonics.py:152-176 (_calculate_harmonic_power_plotspec)", "python/src/adctoolbox/spectrum/_estimate_noise_power.py:128-140 (_calculate_noise_metrics)", "matlab/src/plotspec.m:574-582"]}
{"id": "C162", "title": "Coherent averaging never raises a bin and, for runs of one carrier, never costs SNDR or SFDR", "statement": "For any data and options, compute_spectrum with coherent_averaging=True against the same call without it: if U of the M runs have a windowed sample of at least 1e-10 (the others are skipped), every bin of the coherent power spectrum is at most M/U times the bin of the power-averaged one - so at most the bin itself when no run is silent. If moreover all runs have the same magnitude c at a bin b coprime with the record length and that bin exceeds every other in-band bin of each run, then with side_bin=0 and no cutoff both calls find the fundamental b, the coherent signal power is (c/(c+1e-20))^2 times the other one, SFDR is never lower, and SNDR is lower by at most -20*log10(c/(c+1e-20)) dB (the division guard; below 1e-18 dB for c >= 1). Start phases, noise and interference may differ freely between the runs.", "quantifier": "all data, window libraries, options, numbers of runs; for the second part all runs sharing a dominant carrier at a coprime bin", "why_tests_cant": "a bound over every bin of every record; runs with arbitrary interference and start phases cannot be enumerated", "anchors": ["python/src/adctoolbox/spectrum/_spectrum_averaging.py:9-41 (_power_average)", "python/src/adctoolbox/spectrum/_spectrum_averaging.py:44-119 (_coherent_average)", "python/src/adctoolbox/spectrum/_align_spectrum_phase.py:9-95 (_align_spectrum_phase)", "python/src/adctoolbox/spectrum/compute_spectrum.py:22-218 (compute_spectrum)"]}
{"id": "C163", "title": "White noise adds the same density to every bin, whatever the window and the number of runs", "statement": "compute_spectrum without coherent averaging, cutoff at or below 0 and a given full scale V, on any M runs of N samples to which noise of mean 0 and variance sigma^2, uncorrelated within each run, is added: the expected power of every bin k is the power reported for the noiseless runs plus 4 sigma^2/(V^2 N) (half of that in the bins 0 and N/2), times 1 - |W_k|^2/(N sum w^2), where W is the transform of the window w. The second factor is what the removal of the mean takes away; it lies between 0 and 1 and is exactly 1 beyond the default side bins of DC for every window name except kaiser and chebwin. So the power correction makes the noise density independent of the window, and signal and noise add in the mean for every record. At a given full scale the averaged spectrum is the mean of the spectra of the single runs, for all data; if the noise of different runs is independent and the single-run bins have finite variance, the variance of every averaged bin is the mean of the single-run variances divided by M, so with single-run variances of at most s a bin strays by c or more from its mean with probability at most s/(M c^2).", "quantifier": "all records, numbers of runs, record lengths, windows with a nonzero sum, full scales, noise distributions with two moments, bins", "why_tests_cant": "an expectation over noise distributions for every record and window; a test sees single draws", "anchors": ["python/src/adctoolbox/spectrum/compute_spectrum.py:22-218 (compute_spectrum)", "python/src/adctoolbox/spectrum/_window.py:154-178 (_calculate_power_correction)", "python/src/adctoolbox/spectrum/_spectrum_averaging.py:9-41 (_power_average)", "python/src/adctoolbox/spectrum/_prepare_fft_input.py:6-60 (_prepare_fft_input)"]}
{"id": "C164", "title": "The bit-level data generators of the MATLAB library are ideal converters exactly when the gains and capacitors allow it", "statement": "gen_pipeline2s_dout.m, gen_pipeline3s_dout.m and gen_sar_dout.m, with the stage sizes, gains and capacitors as parameters. Two-stage pipeline: dout*weights', on the scale of the last bit, is within one step below 2^N2 (G1 sig + offset1) for every sig in [0, 1) if and only if G1 <= 2^N1; for G1 = 2^a with N1 <= N2 + a it is exactly floor(2^(N2+a) sig + (2^N2 - 2^(N2+a-N1))/2), so the script's 3 bits, gain 8, 8 bits are one ideal 11-bit quantizer. Three-stage pipeline: the same bound on the scale of its last bit for G1 <= 2^N1 and G2 <= 2^N2. SAR: dout*nominal_weight' lies in [(S sig + S - c)/2, (S sig + S)/2), S the sum and c the last capacitor, for every sig in (-1, 1] if and only if no capacitor but the last exceeds the sum of the later ones; for whole-number capacitors ending in 1 it is exactly ceil(S sig + S - 1)/2, for any radix, which is the resolution log2(2 S / c) that the script names its file after.", "quantifier": "all numbers of bits per stage, interstage gains, capacitor lists, inputs in range", "why_tests_cant": "a statement for every input and every stage size, with the exact condition on gains and capacitors; the scripts print one ENoB for one sine", "anchors": ["matlab/data_generation/gen_pipeline2s_dout.m", "matlab/data_generation/gen_pipeline3s_dout.m", "matlab/data_generation/gen_sar_dout.m"]}
{"id": "C165", "title": "The many-stage pipeline generator writes the right bits but reads them with weights that do not fit", "statement": "gen_pipeline8s_dout.m with the number of stages, bits per stage, gain and bits of the last stage as parameters. For a gain G <= 2^N the bits it writes, read with the place values of their stages (2^N_last G^m / 2^N for the last bit of a stage with m stages after it), are within one step of 2^N_last (G^(S-1) sig + offset) for every sig in [0, 1). The weights it prints ENoB and the overflow figure with are these place values divided by G for all stages but the last, and undivided for the last. With the script's own values (3 bits, gain 4, last stage 4 bits; weights end 8 4 2 8 4 2 1 instead of 32 16 8 8 4 2 1) and any number of stages the output dout*weights' falls while the input rises, so the 'effective_bits_remaining' comment and the printed ENoB are wrong.", "quantifier": "all numbers of stages, bits per stage and in the last stage, gains, inputs in range; the non-monotone case for every number of stages with the script's values", "why_tests_cant": "the script is not run by the tests and prints a plausible ENoB; that the bits are right for every input and the weights wrong for every number of stages needs an induction over the stages", "anchors": ["matlab/data_generation/gen_pipeline8s_dout.m"]}
{"id": "C166", "title": "What the sine data generators write is the named impairment, and where the file name does not fit its contents", "statement": "gen_sinewave_gain_error.m, _kickback.m, _ref_error.m, for any coarse bits N1 <= fine bits N2: every sample is the ideal N2-bit truncation of the signal plus exactly the named error times the coarse code (g-1 times this sample's, kb times the previous one's, +-ref_amp times this one's minus 1/2). gen_sinewave_nonlin_hd.m and _multirun.m: the second and third harmonic have exactly the asked ratio to A, but the fundamental is (1 + 3*10^(HD3/20))*A, so relative to the fundamental both are lower than asked by 20 log10(1 + 3*10^(HD3/20)) dB. gen_sinewave_nyquist_zones.m: the zone in the file name is the Nyquist zone of the coherent frequency, and all targets whose bin is in (0, N/2] leave one file, that of the last target; with the script's values both 'Zone 2' and 'Zone 3' targets are in zone 1 and the first file is lost. gen_sinewave_nonlin_dynamic.m: the frequency in the name is the target to within 1.5 bins and half a megahertz, but the sine in the file does not depend on the target: the file fin_450M holds a sine at 1000 MHz.", "quantifier": "all numbers of bits, error sizes, signals, sample positions; all distortion levels, amplitudes and phases; all rates, lengths, jitters, targets and lists of targets; the two file-name failures at the values in the scripts", "why_tests_cant": "the scripts are not run by the tests; that the two quantizations add up to one ideal one and that the harmonics miss the asked level by a fixed number of decibels are statements about every input", "anchors": ["matlab/data_generation/gen_sinewave_gain_error.m", "matlab/data_generation/gen_sinewave_kickback.m", "matlab/data_generation/gen_sinewave_ref_error.m", "matlab/data_generation/gen_sinewave_nonlin_hd.m", "matlab/data_generation/gen_sinewave_nyquist_zones.m", "matlab/data_generation/gen_sinewave_nonlin_dynamic.m"]}
{"id": "C167", "title": "The sample formulas of the sine data generators do what their comments say", "statement": "gen_sinewave_nonlin_dynamic.m: the settling loop keeps every output between the smallest and largest of the start and the samples, approaches a held input by one factor exp(-T_track/tau_dynamic) per sample, is odd in the signal, is linear for k = 0 (so all distortion comes from the voltage term) and is not linear for any k > 0. gen_sinewave_nonlin_static.m: the polynomial k1..k5 puts exactly the stated DC, fundamental and second to fifth harmonic on a sine. gen_sinewave_drift.m: the drift starts at 0, strictly grows and stays below amp*(1 - e^-10). gen_sinewave_am_tone.m: carrier unchanged plus two lines of m/2 of it at the sum and difference. gen_sinewave_clipping.m: for a threshold up to 1/2 the nearest point of [th, 1 - th]. gen_sinewave_glitch.m: a sample is untouched or 0.1 higher, exactly when rand is below the probability. File names: the value in '%.pf' is within half of its last digit of the value; the amplitude noise 0.0005 and the reference error 0.00075 of the scripts are both called 0P001.", "quantifier": "all time constants, coefficients, start values and signals of any length; all polynomial coefficients, amplitudes and phases; all record lengths and sample positions; all thresholds up to 1/2; all values and numbers of decimals", "why_tests_cant": "the scripts are not run by the tests; range, oddness and linearity of the settling loop are statements about every signal of every length", "anchors": ["matlab/data_generation/gen_sinewave_nonlin_dynamic.m", "matlab/data_generation/gen_sinewave_nonlin_static.m", "matlab/data_generation/gen_sinewave_drift.m", "matlab/data_generation/gen_sinewave_am_tone.m", "matlab/data_generation/gen_sinewave_clipping.m", "matlab/data_generation/gen_sinewave_glitch.m"]}
{"id": "C168", "title": "The three noise files of the same name value do not hold the same noise", "statement": "gen_sinewave_am_pm_noise.m writes a thermal, a phase-noise and an amplitude-noise record, each named by the same number of microvolts v. Averaged over a coherent record (any bin strictly between 0 and N/2), the expected squared distance to the clean sine is exactly v^2 for the thermal file (draws of mean 0 and variance 1), exactly v^2/2 for the amplitude file, and for normal draws exactly A^2 (1 - exp(-(v/A)^2/2)) for the phase file, which is below v^2/2 by less than a share (v/A)^2/4. So the thermal file has 10 log10(2) = 3.01 dB more noise than the amplitude file and more than that over the phase file.", "quantifier": "all rates, lengths, bins below N/2, amplitudes, offsets, noise values and probability spaces with such draws", "why_tests_cant": "expected values over random draws; a test sees one draw, and the script is not run by the tests", "anchors": ["matlab/data_generation/gen_sinewave_am_pm_noise.m", "matlab/data_generation/gen_sinewave_noise.m"]}
{"id": "C169", "title": "MATLAB errpdf and Python analyze_error_pdf give the same density for the same error, and only then", "statement": "errpdf.m, given the error record of the Python sine fit and the full scale Python uses, returns the seven numbers and curves of analyze_error_pdf. With the defaults of both, mean and standard deviation differ by the factor max(signal) - min(signal), since errpdf takes a full scale of 1. Given the raw signal, as the comment in the Python integration test says it takes, errpdf fits nothing: for a clean coherent sine of amplitude A and offset C it reports the mean C and the standard deviation A sqrt(n/(2(n-1))), in LSB, where analyze_error_pdf reports 0 and 0.", "quantifier": "all records, resolutions, full scales, frequencies and solvers; for the raw signal all lengths from 5, bins, amplitudes, phases and offsets", "why_tests_cant": "equality of two implementations on all records; the comparison tests run both on a few files", "anchors": ["matlab/src/dumped/errpdf.m", "python/src/adctoolbox/aout/analyze_error_pdf.py:11-145 (analyze_error_pdf)"]}
{"id": "C170", "title": "The legacy call errHistSine passes on to errsin the call its help text describes", "statement": "errHistSine(data, ...) calls errsin with every 'mode' pair, in any case of letters, replaced by 'xaxis' with 'phase' for 0 and 'value' for any other number; all other arguments keep their order and values, provided the word mode occurs only as a name. The word never reaches errsin. A trailing 'mode' without a value is refused and no other call is. A mode given in words always selects the value axis, so 'mode', 'phase' does not select the phase; and where the word mode is the value of another name, the next name is swallowed.", "quantifier": "all argument lists of any length", "why_tests_cant": "argument lists are unbounded; a test tries a few calls", "anchors": ["matlab/src/legacy/errHistSine.m:47-78"]}
{"id": "C171", "title": "MATLAB bitact and Python analyze_bit_activity: same numbers, different labels", "statement": "On every bit matrix with a row, bitact.m returns the percentages of analyze_bit_activity. Its plot puts a text over a bit exactly when the bit is 1 in more than 95 % or fewer than 5 % of the samples; the text reads back to 0.05 points, every bar lies inside the axis, and the text stands above the axis exactly when the bit is 1 in more than 97 % of the samples. A text is shown exactly when the one bit that Python highlights is more than 45 points from 50 %, and that bit is then among the labelled ones. With AnnotateExtremes false there is no text.", "quantifier": "all bit matrices of any size", "why_tests_cant": "equality of two implementations and an equivalence over all matrices; the comparison test runs both on a few files", "anchors": ["matlab/src/legacy/bitact.m:31-65", "python/src/adctoolbox/dout/analyze_bit_activity.py:9-71 (analyze_bit_activity)"]}
{"id": "C172", "title": "MATLAB bitsweep: one entry per bit count, failures stay local, more bits extend the curve", "statement": "bitsweep(bits, freq) with a positive frequency, given at least as many samples as bits, always returns one entry per bit count; entry n is the ENOB of the calibration of the first n bits alone, and is NaN exactly when that calibration or its spectrum fails. Two records that share their first n columns have the same first n entries, so appending bits leaves earlier points unchanged. A non-square matrix and its transpose give the same sweep. Without a frequency the sweep is that at the frequency found with all bits, and fails when that search fails.", "quantifier": "every calibration and every spectrum function, all bit matrices of any size, all frequencies", "why_tests_cant": "independence of later columns and locality of failures range over all records and all ways a calibration can fail", "anchors": ["matlab/src/legacy/bitsweep.m:3-41"]}
{"id": "C173", "title": "Old and new parameter names of plotspec: which one wins", "statement": "plotspec.m says that the new parameter names override the old ones. For the full scale (maxSignal over maxCode), the display (disp over isPlot) and the cutoff (cutoff over noFlicker) every accepted call uses the new name if it is passed, else the old one, else the default. For the averaging (averageMode over coAvg) and the window (window over winType) this holds exactly unless the new name is passed with its default word ('normal', 'hann') and the old one asks for something else; then the old one wins. A call is refused on these parameters exactly when a full scale or a cutoff that is passed is not positive, so the documented default cutoff of 0 cannot be passed.", "quantifier": "all combinations of the ten arguments, passed or not, and all their values", "why_tests_cant": "ten optional arguments with unbounded values; tests pass one name at a time", "anchors": ["matlab/src/plotspec.m:140-241"]}
