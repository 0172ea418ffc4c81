import Verif.Proofs.SineFitAffine
import Verif.Theorems.Prepare
import Verif.Theorems.ErrorEnvelope
import Verif.Theorems.ErrorByValue
import Verif.Model.ErrorDecomp
import Verif.Model.ErrorPdf

/-!
# C105: the sine fit and the error analyses do not depend on the unit and the zero of the record
-/

namespace Verif.Spec

open Finset

/-- The fit has a frequency to start from that is neither DC nor Nyquist: the given one, or (automatic estimate) some bin between them is not empty. -/
def StartInside (n : ℕ) (y : ℕ → ℝ) : Option ℝ → Prop
  | some f => 0 < f ∧ f < 1 / 2
  | none => ∃ j : ℕ, 0 < j ∧ j < n / 2 ∧ dft n (fun t => (y t : ℂ)) j ≠ 0

end Verif.Spec

namespace Verif

open Model Spec Finset

private theorem start_ok (solve : Lstsq) (n : ℕ) (y : ℕ → ℝ) (freq : Option ℝ) (hst : StartInside n y freq) (maxIter : ℤ) (tol : ℝ) :
    ∃ r, fitCore solve n y freq maxIter tol = .ok r ∧ 0 < r.initialFrequency ∧ r.initialFrequency < 1 / 2 := by
  cases freq with
  | some f => exact ⟨_, rfl, hst⟩
  | none =>
    obtain ⟨j, h0, h1, h2⟩ := hst
    obtain ⟨f, hf, f0, f1⟩ := estimate_pos n y j h0 h1 h2
    unfold fitCore
    simp only [hf]
    exact ⟨_, rfl, f0, f1⟩

private theorem fitCore_affine (solve : Lstsq) (hs : IsMinNormLstsq solve) (n : ℕ) (hn : 5 ≤ n) (y y' : ℕ → ℝ) (c d : ℝ) (hc : c ≠ 0) (hy : ∀ t < n, y' t = c * y t + d)
    (freq : Option ℝ) (maxIter : ℕ) (tol : ℝ) (r : SineFit) (h : fitCore solve n y freq maxIter tol = .ok r) (h0 : 0 < r.initialFrequency) (h1 : r.initialFrequency < 1 / 2) :
    ∃ s : FitState, r = fitResult n y r.initialFrequency maxIter s ∧ fitCore solve n y' freq maxIter tol = .ok (fitResult n y' r.initialFrequency maxIter (affineState c d s)) := by
  obtain ⟨f0, g1, g2⟩ : ∃ f0, fitCore solve n y freq maxIter tol = fitCore solve n y (some f0) maxIter tol ∧ fitCore solve n y' freq maxIter tol = fitCore solve n y' (some f0) maxIter tol := by
    cases freq with
    | some f => exact ⟨f, rfl, rfl⟩
    | none =>
      have he := estimate_affine n y y' c d hc hy
      cases hf : estimateFreq n y with
      | error e =>
        unfold fitCore at h
        simp only [hf] at h
        cases h
      | ok f0 =>
        rw [hf] at he
        refine ⟨f0, ?_, ?_⟩ <;> unfold fitCore
        · simp only [hf]
        · simp only [he]
  rw [g1, fit_some] at h
  rw [g2, fit_some]
  simp only at h ⊢
  injection h with h
  have e0 : r.initialFrequency = f0 := by rw [← h]; rfl
  rw [e0] at h0 h1 ⊢
  have hneg : ¬ ((maxIter : ℕ) : ℤ) < 0 := by omega
  rw [if_neg hneg] at h ⊢
  refine ⟨_, h.symm, ?_⟩
  congr 2
  set s0 : FitState := { freq := f0, a := 0, b := 0, c := 0, converged := decide ((maxIter : ℤ) = 0), nIterations := 0, lastDelta := 0 } with hs0
  have e : fitFirst solve n y' s0 = affineState c d (fitFirst solve n y s0) := by
    obtain ⟨e1, e2, e3⟩ := first_affine solve hs.toIsLstsq n (by omega) f0 h0 h1 y y' c d hy
    unfold fitFirst affineState
    simp only [hs0]
    rw [e1, e2, e3]
  rw [e]
  exact (fitLoop_affine solve hs n hn y y' c d hc hy tol _ _ h0 h1).1

/-- **C105 (the fit).** Expressing the record in another unit and shifting its zero (`c * y + d`) changes the fit accordingly and in no other way: the same frequency, the same iterations and verdict on
convergence; amplitude, offset, fitted curve, residuals and rmse are converted. With a positive factor the phase stays. -/
theorem C105_fit (solve : Lstsq) (hs : IsMinNormLstsq solve) (n : ℕ) (hn : 5 ≤ n) (y y' : ℕ → ℝ) (c d : ℝ) (hc : c ≠ 0) (hy : ∀ t < n, y' t = c * y t + d)
    (freq : Option ℝ) (hst : StartInside n y freq) (maxIter : ℕ) (tol : ℝ) :
    ∃ r r', fitCore solve n y freq maxIter tol = .ok r ∧ fitCore solve n y' freq maxIter tol = .ok r' ∧
      r'.frequency = r.frequency ∧ r'.initialFrequency = r.initialFrequency ∧ r'.converged = r.converged ∧
      r'.nIterations = r.nIterations ∧ r'.lastDelta = r.lastDelta ∧ r'.warned = r.warned ∧ r'.amplitude = |c| * r.amplitude ∧ r'.dcOffset = c * r.dcOffset + d ∧
      r'.rmse = |c| * r.rmse ∧ (∀ t, r'.fitted t = c * r.fitted t + d) ∧ (∀ t < n, r'.residuals t = c * r.residuals t) ∧ (0 < c → r'.phase = r.phase) := by
  obtain ⟨r, h, h0, h1⟩ := start_ok solve n y freq hst maxIter tol
  obtain ⟨s, hr, hr'⟩ := fitCore_affine solve hs n hn y y' c d hc hy freq maxIter tol r h h0 h1
  refine ⟨r, _, h, hr', ?_⟩
  clear hr' h
  generalize r.initialFrequency = f0 at hr
  subst hr
  have hfit : ∀ t, c * s.a * fitCos s.freq t + c * s.b * fitSin s.freq t + (c * s.c + d) = c * (s.a * fitCos s.freq t + s.b * fitSin s.freq t + s.c) + d := by
    intro t
    ring
  refine ⟨rfl, rfl, rfl, rfl, rfl, rfl, ?_, rfl, ?_, hfit, ?_, ?_⟩
  · show Real.sqrt ((c * s.a) ^ 2 + (c * s.b) ^ 2) = |c| * Real.sqrt (s.a ^ 2 + s.b ^ 2)
    rw [show (c * s.a) ^ 2 + (c * s.b) ^ 2 = c ^ 2 * (s.a ^ 2 + s.b ^ 2) by ring, Real.sqrt_mul (sq_nonneg c), Real.sqrt_sq_eq_abs]
  · show Real.sqrt ((∑ t ∈ range n, (y' t - (c * s.a * fitCos s.freq t + c * s.b * fitSin s.freq t + (c * s.c + d))) ^ 2) / n) =
      |c| * Real.sqrt ((∑ t ∈ range n, (y t - (s.a * fitCos s.freq t + s.b * fitSin s.freq t + s.c)) ^ 2) / n)
    rw [← Real.sqrt_sq_eq_abs, ← Real.sqrt_mul (sq_nonneg c), ← mul_div_assoc, mul_sum]
    congr 2
    apply sum_congr rfl
    intro t ht
    rw [hfit, hy t (mem_range.mp ht)]
    ring
  · intro t ht
    show y' t - (c * s.a * fitCos s.freq t + c * s.b * fitSin s.freq t + (c * s.c + d)) = c * (y t - (s.a * fitCos s.freq t + s.b * fitSin s.freq t + s.c))
    rw [hfit, hy t ht]
    ring
  · intro hpos
    show Complex.arg ⟨c * s.a, -(c * s.b)⟩ = Complex.arg ⟨s.a, -s.b⟩
    have : (⟨c * s.a, -(c * s.b)⟩ : ℂ) = (c : ℂ) * ⟨s.a, -s.b⟩ := by
      apply Complex.ext <;> simp
    rw [this, Complex.arg_real_mul _ hpos]

/-- **C105 (frequency).** `estimate_frequency` does not depend on unit and zero. -/
theorem C105_frequency (solve : Lstsq) (hs : IsMinNormLstsq solve) (n : ℕ) (hn : 5 ≤ n) (y y' : ℕ → ℝ) (c d : ℝ) (hc : c ≠ 0) (hy : ∀ t < n, y' t = c * y t + d)
    (freq : Option ℝ) (hst : StartInside n y freq) (fs : ℝ) : estimateFrequency solve n y' freq fs = estimateFrequency solve n y freq fs := by
  obtain ⟨r, r', h, h', hf, -⟩ := C105_fit solve hs n hn y y' c d hc hy freq hst 1 (1 / 10 ^ 9)
  unfold estimateFrequency
  rw [show ((1 : ℕ) : ℤ) = 1 from rfl] at h h'
  rw [h, h']
  simp only [hf]

/-- The residual as the analyses compute it. -/
private theorem err_scaled (n : ℕ) (y y' : ℕ → ℝ) (c d : ℝ) (hy : ∀ t < n, y' t = c * y t + d) (g g' : ℕ → ℝ) (hg : ∀ t, g' t = c * g t + d) :
    ∀ t < n, y' t - g' t = c * (y t - g t) := by
  intro t ht
  rw [hy t ht, hg]
  ring

private theorem colMean_scaled (n : ℕ) (e e' : ℕ → ℝ) (c : ℝ) (h : ∀ t < n, e' t = c * e t) : colMean n e' = c * colMean n e := by
  unfold colMean
  rw [sum_congr rfl fun t ht => h t (mem_range.mp ht), ← mul_sum, mul_div_assoc]

/-! ## Autocorrelation -/

private theorem acfAt_scaled (e : List ℝ) (c : ℝ) (lag : ℤ) : acfAt (e.map (c * ·)) lag = Except.map (Option.map (c ^ 2 * ·)) (acfAt e lag) := by
  have hpre : ∀ stop, pyPrefix (e.map (c * ·)) stop = (pyPrefix e stop).map (c * ·) := by
    intro stop
    unfold pyPrefix
    rw [List.length_map, List.map_take]
  have hmul : ∀ a b : List ℝ, npMul (a.map (c * ·)) (b.map (c * ·)) = Except.map (List.map (c ^ 2 * ·)) (npMul a b) := by
    intro a b
    unfold npMul
    rw [List.length_map, List.length_map]
    split_ifs with h1 h2 h3
    · rw [Except.map, List.zipWith_map, List.map_zipWith]
      congr 2
      funext u v
      ring
    · rw [Except.map, List.map_map, List.map_map]
      congr 1
      apply List.map_congr_left
      intro v _
      obtain ⟨w, rfl⟩ := List.length_eq_one_iff.mp h2
      simp only [Function.comp, List.map_cons, List.map_nil, List.getD_cons_zero]
      ring
    · rw [Except.map, List.map_map, List.map_map]
      congr 1
      apply List.map_congr_left
      intro v _
      obtain ⟨w, rfl⟩ := List.length_eq_one_iff.mp h3
      simp only [Function.comp, List.map_cons, List.map_nil, List.getD_cons_zero]
      ring
    · rfl
  have hsum : ∀ p : List ℝ, (if p.map (c ^ 2 * ·) = [] then none else some ((p.map (c ^ 2 * ·)).sum / ((p.map (c ^ 2 * ·)).length : ℝ))) =
      Option.map (c ^ 2 * ·) (if p = [] then none else some (p.sum / (p.length : ℝ))) := by
    intro p
    by_cases hp : p = []
    · rw [hp]; rfl
    · rw [if_neg (by simpa using hp), if_neg hp, List.length_map, Option.map_some]
      congr 1
      have : (p.map (c ^ 2 * ·)).sum = c ^ 2 * p.sum := by
        rw [List.sum_map_mul_left]
        simp
      rw [this, mul_div_assoc]
  have hfin : ∀ a b : List ℝ, (match npMul (a.map (c * ·)) (b.map (c * ·)) with
      | .error err => (.error err : Py (Option ℝ))
      | .ok p => .ok (if p = [] then none else some (p.sum / p.length))) =
      Except.map (Option.map (c ^ 2 * ·)) (match npMul a b with
      | .error err => .error err
      | .ok p => .ok (if p = [] then none else some (p.sum / p.length))) := by
    intro a b
    rw [hmul]
    cases npMul a b with
    | error er => rfl
    | ok p => exact congrArg Except.ok (hsum p)
  unfold acfAt
  simp only [List.length_map, hpre, ← List.map_drop]
  split_ifs
  · exact hfin _ _
  · exact hfin _ _
  · exact hfin _ _

private theorem mapM_scaled (l : List ℤ) (e : List ℝ) (c : ℝ) :
    l.mapM (acfAt (e.map (c * ·))) = Except.map (List.map (Option.map (c ^ 2 * ·))) (l.mapM (acfAt e)) := by
  induction l with
  | nil => rfl
  | cons a l ih =>
    rw [List.mapM_cons, List.mapM_cons, ih, acfAt_scaled]
    cases acfAt e a with
    | error er => rfl
    | ok v =>
      cases l.mapM (acfAt e) with
      | error er => rfl
      | ok w => rfl

/-- **C105 (autocorrelation).** The normalised autocorrelation does not depend on unit, polarity and zero of the record; the error it is computed from is converted. -/
theorem C105_autocorrelation (solve : Lstsq) (hs : IsMinNormLstsq solve) (n : ℕ) (hn : 5 ≤ n) (y y' : ℕ → ℝ) (c d : ℝ) (hc : c ≠ 0) (hy : ∀ t < n, y' t = c * y t + d)
    (freq : Option ℝ) (hst : StartInside n y freq) (maxLag : ℤ) (maxIter : ℕ) (tol : ℝ) (a : ErrorAcf) (h : errorAutocorr solve n y freq maxLag true maxIter tol = .ok a) :
    ∃ a', errorAutocorr solve n y' freq maxLag true maxIter tol = .ok a' ∧ a'.lags = a.lags ∧ a'.acf = a.acf ∧ ∀ t < n, a'.err t = c * a.err t := by
  obtain ⟨r, r', hr, hr', -, -, -, -, -, -, -, -, -, hfit, -, -⟩ := C105_fit solve hs n hn y y' c d hc hy freq hst maxIter tol
  unfold errorAutocorr at h ⊢
  rw [hr] at h
  rw [hr']
  simp only at h ⊢
  have herr := err_scaled n y y' c d hy r.fitted r'.fitted hfit
  have hmean := colMean_scaled n (fun t => y t - r.fitted t) (fun t => y' t - r'.fitted t) c herr
  have hlist : ((List.range n).map fun t => y' t - r'.fitted t - colMean n fun t => y' t - r'.fitted t) =
      ((List.range n).map fun t => y t - r.fitted t - colMean n fun t => y t - r.fitted t).map (c * ·) := by
    rw [List.map_map]
    apply List.map_congr_left
    intro t ht
    simp only [Function.comp]
    rw [herr t (List.mem_range.mp ht), hmean]
    ring
  rw [hlist, mapM_scaled]
  cases hm : (acfLags maxLag).mapM (acfAt ((List.range n).map fun t => y t - r.fitted t - colMean n fun t => y t - r.fitted t)) with
  | error er => rw [hm] at h; cases h
  | ok raw =>
    rw [hm] at h
    simp only [if_true] at h
    injection h with h
    subst h
    refine ⟨_, rfl, rfl, ?_, herr⟩
    simp only [if_true]
    rw [List.map_map]
    apply List.map_congr_left
    intro v _
    have hc2 : c ^ 2 ≠ 0 := pow_ne_zero _ hc
    have hz : (raw.map (Option.map (c ^ 2 * ·))).getD maxLag.toNat none = (raw.getD maxLag.toNat none).map (c ^ 2 * ·) := by
      rw [List.getD_eq_getElem?_getD, List.getD_eq_getElem?_getD, List.getElem?_map]
      cases raw[maxLag.toNat]? <;> rfl
    simp only [Function.comp]
    rw [hz]
    cases raw.getD maxLag.toNat none with
    | none => rfl
    | some z =>
      cases v with
      | none => rfl
      | some w =>
        simp only [Option.map_some, acfNormalize]
        rw [mul_div_mul_left _ _ hc2]
        simp [hc]

/-! ## Density of the error -/

private theorem recMax_affine (n : ℕ) (hn : 0 < n) (y y' : ℕ → ℝ) (c d : ℝ) (hc : 0 < c) (hy : ∀ t < n, y' t = c * y t + d) : recMax n y' = c * recMax n y + d := by
  unfold recMax
  apply maxOf_eq
  · have := maxOf_mem (y 0) ((List.range n).map y)
    rw [List.mem_cons, List.mem_map] at this
    rw [List.mem_cons, List.mem_map]
    rcases this with h | ⟨t, ht, h⟩
    · left
      rw [hy 0 hn, h]
    · right
      refine ⟨t, ht, ?_⟩
      rw [hy t (List.mem_range.mp ht), h]
  · intro v hv
    have hle : ∀ t < n, y t ≤ maxOf (y 0) ((List.range n).map y) := fun t ht => le_maxOf _ _ _ (List.mem_cons_of_mem _ (List.mem_map.mpr ⟨t, List.mem_range.mpr ht, rfl⟩))
    rw [List.mem_cons, List.mem_map] at hv
    rcases hv with rfl | ⟨t, ht, rfl⟩
    · rw [hy 0 hn]
      have := hle 0 hn
      nlinarith
    · rw [hy t (List.mem_range.mp ht)]
      have := hle t (List.mem_range.mp ht)
      nlinarith

private theorem recMin_affine (n : ℕ) (hn : 0 < n) (y y' : ℕ → ℝ) (c d : ℝ) (hc : 0 < c) (hy : ∀ t < n, y' t = c * y t + d) : recMin n y' = c * recMin n y + d := by
  unfold recMin
  apply minOf_eq
  · have := minOf_mem (y 0) ((List.range n).map y)
    rw [List.mem_cons, List.mem_map] at this
    rw [List.mem_cons, List.mem_map]
    rcases this with h | ⟨t, ht, h⟩
    · left
      rw [hy 0 hn, h]
    · right
      refine ⟨t, ht, ?_⟩
      rw [hy t (List.mem_range.mp ht), h]
  · intro v hv
    have hle : ∀ t < n, minOf (y 0) ((List.range n).map y) ≤ y t := fun t ht => minOf_le _ _ _ (List.mem_cons_of_mem _ (List.mem_map.mpr ⟨t, List.mem_range.mpr ht, rfl⟩))
    rw [List.mem_cons, List.mem_map] at hv
    rcases hv with rfl | ⟨t, ht, rfl⟩
    · rw [hy 0 hn]
      have := hle 0 hn
      nlinarith
    · rw [hy t (List.mem_range.mp ht)]
      have := hle t (List.mem_range.mp ht)
      nlinarith

private theorem pdf_congr (n : ℕ) (hn : 0 < n) (e e' : ℕ → ℝ) (h : ∀ t < n, e' t = e t) : errorPdfCore n e' = { errorPdfCore n e with errLsb := e' } := by
  have hm : colMean n e' = colMean n e := by
    unfold colMean
    rw [sum_congr rfl fun t ht => h t (mem_range.mp ht)]
  have hs : sampleStd n e' = sampleStd n e := by
    unfold sampleStd
    rw [hm, sum_congr rfl fun t ht => by rw [h t (mem_range.mp ht)]]
  have hb : silverman n e' = silverman n e := by
    unfold silverman
    rw [hs]
  have hl : (List.range n).map (fun (t : ℕ) => |e' t|) = (List.range n).map (fun (t : ℕ) => |e t|) := List.map_congr_left fun t ht => by rw [h t (List.mem_range.mp ht)]
  have hk : ∀ b v, kdeAt n e' b v = kdeAt n e b v := by
    intro b v
    unfold kdeAt
    rw [sum_congr rfl fun t ht => by rw [h t (mem_range.mp ht)]]
  unfold errorPdfCore
  simp only [hm, hs, hb, hl, hk, h 0 hn]

/-- **C105 (density of the error).** The error in LSB of the record's own range, its mean and spread, the estimated density, the Gaussian and the divergence between them do not depend on unit and zero. -/
theorem C105_density (solve : Lstsq) (hs : IsMinNormLstsq solve) (n : ℕ) (hn : 5 ≤ n) (y y' : ℕ → ℝ) (c d : ℝ) (hc : 0 < c) (hy : ∀ t < n, y' t = c * y t + d)
    (freq : Option ℝ) (hst : StartInside n y freq) (resolution maxIter : ℕ) (tol : ℝ) :
    ∃ p p', analyzeErrorPdf solve n y resolution none freq maxIter tol = .ok p ∧ analyzeErrorPdf solve n y' resolution none freq maxIter tol = .ok p' ∧
      p' = { p with errLsb := p'.errLsb } ∧ ∀ t < n, p'.errLsb t = p.errLsb t := by
  obtain ⟨r, r', hr, hr', -, -, -, -, -, -, -, -, -, hfit, -, -⟩ := C105_fit solve hs n hn y y' c d hc.ne' hy freq hst maxIter tol
  unfold analyzeErrorPdf
  rw [hr, hr']
  simp only [Option.getD_none]
  have herr := err_scaled n y y' c d hy r.fitted r'.fitted hfit
  have hlsb : ∀ t < n, (y' t - r'.fitted t) / ((recMax n y' - recMin n y') / 2 ^ resolution) = (y t - r.fitted t) / ((recMax n y - recMin n y) / 2 ^ resolution) := by
    intro t ht
    rw [herr t ht, recMax_affine n (by omega) y y' c d hc hy, recMin_affine n (by omega) y y' c d hc hy,
      show (c * recMax n y + d - (c * recMin n y + d)) / 2 ^ resolution = c * ((recMax n y - recMin n y) / 2 ^ resolution) by ring, mul_div_mul_left _ _ hc.ne']
  refine ⟨_, _, rfl, rfl, ?_, ?_⟩
  · rw [pdf_congr n (by omega) _ _ hlsb]
  · intro t ht
    exact hlsb t ht

/-! ## Harmonic decomposition -/

/-- **C105 (harmonic decomposition).** Magnitudes and waveforms are converted, the levels in dB, the phases and the frequency stay. -/
theorem C105_decomposition (solve : Lstsq) (hs : IsMinNormLstsq solve) (n : ℕ) (hn : 5 ≤ n) (y y' : ℕ → ℝ) (c d : ℝ) (hc : 0 < c) (hy : ∀ t < n, y' t = c * y t + d)
    (freq : Option ℝ) (hst : StartInside n y freq) (H : ℤ) (hH : 0 < H) (maxIter : ℕ) (tol : ℝ) :
    ∃ p p', decomposeHarmonic solve 1 n (fun _ => y) H freq maxIter tol = .ok p ∧ decomposeHarmonic solve 1 n (fun _ => y') H freq maxIter tol = .ok p' ∧
      p'.fundamentalFreq = p.fundamentalFreq ∧ (∀ h, p'.magnitudes h = c * p.magnitudes h) ∧ p'.phases = p.phases ∧ p'.residualRms = c * p.residualRms ∧
      (∀ t, p'.harmonic t = c * p.harmonic t ∧ p'.fundamental t = c * p.fundamental t + d ∧ p'.reconstructed t = c * p.reconstructed t + d) ∧
      (∀ t < n, p'.noiseResidual t = c * p.noiseResidual t) ∧ p'.magnitudesDb = p.magnitudesDb ∧ p'.noiseDb = p.noiseDb := by
  have hnR : (0 : ℝ) < n := by exact_mod_cast (by omega : 0 < n)
  have hav : ∀ u : ℕ → ℝ, averageRuns 1 n (fun _ => u) = (n, u) := by
    intro u
    unfold averageRuns
    rw [if_neg (by omega)]
    simp
  have hmean : colMean n y' = c * colMean n y + d := by
    unfold colMean
    rw [sum_congr rfl fun t ht => hy t (mem_range.mp ht), sum_add_distrib, ← mul_sum, sum_const, card_range, nsmul_eq_mul]
    field_simp
  have hz : ∀ t < n, y' t - colMean n y' = c * (y t - colMean n y) := by
    intro t ht
    rw [hy t ht, hmean]
    ring
  have hst' : StartInside n (fun t => y t - colMean n y) freq := by
    cases freq with
    | some f => exact hst
    | none =>
      obtain ⟨j, h0, h1, h2⟩ := hst
      refine ⟨j, h0, h1, ?_⟩
      have := fitSpec_affine n y (fun t => y t - colMean n y) 1 (-colMean n y) (fun t _ => by ring) j (by omega)
      unfold fitSpec at this
      rw [if_neg (by omega), if_neg (by omega), abs_one, one_mul] at this
      rw [← norm_ne_zero_iff] at h2 ⊢
      rw [this]
      exact h2
  obtain ⟨r, r', hr, hr', hf, -⟩ := C105_fit solve hs n hn (fun t => y t - colMean n y) (fun t => y' t - colMean n y') c 0 hc.ne' (fun t ht => by rw [hz t ht, add_zero]) freq hst' maxIter tol
  unfold decomposeHarmonic
  rw [hav, hav]
  simp only [hr, hr', if_neg (not_le.mpr hH), hf]
  set f := r.frequency
  set W := solve n (harmonicCols f H.toNat) (fun t => y t - colMean n y) with hW
  have hW' : ∀ j, (solve n (harmonicCols f H.toNat) (fun t => y' t - colMean n y')).getD j 0 = c * W.getD j 0 :=
    minnorm_smul solve hs n (harmonicCols f H.toNat) (fun t => y t - colMean n y) (fun t => y' t - colMean n y') c hc.ne' hz
  set W' := solve n (harmonicCols f H.toNat) (fun t => y' t - colMean n y') with hW'def
  have hrec : ∀ t, matVec (harmonicCols f H.toNat) W' t = c * matVec (harmonicCols f H.toNat) W t := by
    intro t
    unfold matVec
    rw [mul_sum]
    apply sum_congr rfl
    intro j _
    rw [hW', mul_assoc]
  have hcoef : ∀ h : ℕ, (⟨W'.getD (1 + 2 * h) 0, W'.getD (2 + 2 * h) 0⟩ : ℂ) = (c : ℂ) * ⟨W.getD (1 + 2 * h) 0, W.getD (2 + 2 * h) 0⟩ := by
    intro h
    rw [hW', hW']
    apply Complex.ext <;> simp
  have hmag : ∀ h : ℕ, ‖(⟨W'.getD (1 + 2 * h) 0, W'.getD (2 + 2 * h) 0⟩ : ℂ)‖ * 2 = c * (‖(⟨W.getD (1 + 2 * h) 0, W.getD (2 + 2 * h) 0⟩ : ℂ)‖ * 2) := by
    intro h
    rw [hcoef, norm_mul, Complex.norm_real, Real.norm_eq_abs, abs_of_pos hc, mul_assoc]
  have hrange : recMax n y' - recMin n y' = c * (recMax n y - recMin n y) := by
    rw [recMax_affine n (by omega) y y' c d hc hy, recMin_affine n (by omega) y y' c d hc hy]
    ring
  have hrms : Real.sqrt (colMean n fun t => (y' t - colMean n y' - matVec (harmonicCols f H.toNat) W' t) ^ 2) * 2 * Real.sqrt 2 =
      c * (Real.sqrt (colMean n fun t => (y t - colMean n y - matVec (harmonicCols f H.toNat) W t) ^ 2) * 2 * Real.sqrt 2) := by
    rw [colMean_scaled n (fun t => (y t - colMean n y - matVec (harmonicCols f H.toNat) W t) ^ 2) _ (c ^ 2) (fun t ht => by rw [hz t ht, hrec]; ring),
      Real.sqrt_mul (sq_nonneg c), Real.sqrt_sq hc.le]
    ring
  refine ⟨_, _, rfl, rfl, rfl, hmag, ?_, hrms, fun t => ⟨?_, ?_, ?_⟩, fun t ht => ?_, ?_, ?_⟩
  · funext h
    show wrapPhase ((⟨W'.getD (1 + 2 * h) 0, W'.getD (2 + 2 * h) 0⟩ : ℂ).arg - (⟨W'.getD (1 + 2 * 0) 0, W'.getD (2 + 2 * 0) 0⟩ : ℂ).arg * ((h : ℝ) + 1)) =
      wrapPhase ((⟨W.getD (1 + 2 * h) 0, W.getD (2 + 2 * h) 0⟩ : ℂ).arg - (⟨W.getD (1 + 2 * 0) 0, W.getD (2 + 2 * 0) 0⟩ : ℂ).arg * ((h : ℝ) + 1))
    rw [hcoef, hcoef, Complex.arg_real_mul _ hc, Complex.arg_real_mul _ hc]
  · show matVec (harmonicCols f H.toNat) W' t - (W'.getD 0 0 + Real.cos (2 * Real.pi * f * t) * W'.getD 1 0 + Real.sin (2 * Real.pi * f * t) * W'.getD 2 0) =
      c * (matVec (harmonicCols f H.toNat) W t - (W.getD 0 0 + Real.cos (2 * Real.pi * f * t) * W.getD 1 0 + Real.sin (2 * Real.pi * f * t) * W.getD 2 0))
    rw [hrec, hW', hW', hW']
    ring
  · show W'.getD 0 0 + Real.cos (2 * Real.pi * f * t) * W'.getD 1 0 + Real.sin (2 * Real.pi * f * t) * W'.getD 2 0 + colMean n y' =
      c * (W.getD 0 0 + Real.cos (2 * Real.pi * f * t) * W.getD 1 0 + Real.sin (2 * Real.pi * f * t) * W.getD 2 0 + colMean n y) + d
    rw [hW', hW', hW', hmean]
    ring
  · show matVec (harmonicCols f H.toNat) W' t + colMean n y' = c * (matVec (harmonicCols f H.toNat) W t + colMean n y) + d
    rw [hrec, hmean]
    ring
  · show y' t - colMean n y' - matVec (harmonicCols f H.toNat) W' t = c * (y t - colMean n y - matVec (harmonicCols f H.toNat) W t)
    rw [hz t ht, hrec]
    ring
  · funext h
    show 20 * Real.logb 10 (‖(⟨W'.getD (1 + 2 * h) 0, W'.getD (2 + 2 * h) 0⟩ : ℂ)‖ * 2 / (recMax n y' - recMin n y') + 1 / 10 ^ 20) =
      20 * Real.logb 10 (‖(⟨W.getD (1 + 2 * h) 0, W.getD (2 + 2 * h) 0⟩ : ℂ)‖ * 2 / (recMax n y - recMin n y) + 1 / 10 ^ 20)
    rw [hmag, hrange, mul_div_mul_left _ _ hc.ne']
  · show 20 * Real.logb 10 (Real.sqrt (colMean n fun t => (y' t - colMean n y' - matVec (harmonicCols f H.toNat) W' t) ^ 2) * 2 * Real.sqrt 2 / (recMax n y' - recMin n y')) =
      20 * Real.logb 10 (Real.sqrt (colMean n fun t => (y t - colMean n y - matVec (harmonicCols f H.toNat) W t) ^ 2) * 2 * Real.sqrt 2 / (recMax n y - recMin n y))
    rw [hrms, hrange, mul_div_mul_left _ _ hc.ne']

/-! ## Spectrum of the error and of its envelope -/

private theorem spectrum_scaled (lib : WinLib) (n : ℕ) (e e' : ℕ → ℝ) (c : ℝ) (hc : 0 < c) (h : ∀ t < n, e' t = c * e t) (a : SpectrumArgs) (ha : a.scale = .auto) :
    computeSpectrum lib [recordList n e'] a = computeSpectrum lib [recordList n e] a := by
  have : [recordList n e'] = mapSamples (fun v => c * v + 0) [recordList n e] := by
    unfold mapSamples recordList
    simp only [List.map_cons, List.map_nil, List.map_map]
    congr 1
    apply List.map_congr_left
    intro t ht
    simp [h t (List.mem_range.mp ht)]
  rw [this]
  exact C31_compute_spectrum_affine lib c 0 hc _ (by intro r hr; simp_all) a ha

private theorem envelope_scaled (n : ℕ) (e e' : ℕ → ℝ) (c : ℝ) (hc : 0 < c) (h : ∀ t < n, e' t = c * e t) (t : ℕ) : envelope n e' t = c * envelope n e t := by
  unfold envelope
  have : hilbert n (fun t => (e' t : ℂ)) t = c * hilbert n (fun t => (e t : ℂ)) t := by
    have hd : ∀ k : ℤ, dft n (fun t => (e' t : ℂ)) k = c * dft n (fun t => (e t : ℂ)) k := by
      intro k
      unfold dft
      rw [mul_sum]
      apply sum_congr rfl
      intro i hi
      simp only [h i (mem_range.mp hi)]
      push_cast
      ring
    unfold hilbert idft
    simp only [hd]
    rw [← mul_div_assoc, mul_sum]
    congr 1
    apply sum_congr rfl
    intro k _
    ring
  rw [this, norm_mul, Complex.norm_real, Real.norm_eq_abs, abs_of_pos hc]

/-- **C105 (spectra of the error).** The spectrum of the error and that of its envelope do not depend on unit and zero. -/
theorem C105_error_spectra (lib : WinLib) (solve : Lstsq) (hs : IsMinNormLstsq solve) (n : ℕ) (hn : 5 ≤ n) (y y' : ℕ → ℝ) (c d : ℝ) (hc : 0 < c) (hy : ∀ t < n, y' t = c * y t + d)
    (fs : ℝ) (freq : Option ℝ) (hst : StartInside n y freq) (maxIter : ℕ) (tol : ℝ) :
    ∃ rs re e e', analyzeErrorSpectrum lib solve n y fs freq maxIter tol = .ok (rs, e) ∧ analyzeErrorSpectrum lib solve n y' fs freq maxIter tol = .ok (rs, e') ∧
      analyzeErrorEnvelope lib solve n y fs freq maxIter tol = .ok (re, e, envelope n e) ∧ analyzeErrorEnvelope lib solve n y' fs freq maxIter tol = .ok (re, e', envelope n e') ∧
      (∀ t < n, e' t = c * e t) ∧ ∀ t, envelope n e' t = c * envelope n e t := by
  obtain ⟨r, r', hr, hr', -, -, -, -, -, -, -, -, -, hfit, -, -⟩ := C105_fit solve hs n hn y y' c d hc.ne' hy freq hst maxIter tol
  have herr := err_scaled n y y' c d hy r.fitted r'.fitted hfit
  obtain ⟨rs, re, e, g1, g2, g3, g4, g5⟩ := C83_analyses lib solve n (by omega) y fs freq maxIter tol r hr
  obtain ⟨rs', re', e', k1, k2, k3, k4, k5⟩ := C83_analyses lib solve n (by omega) y' fs freq maxIter tol r' hr'
  have he : ∀ t < n, e' t = c * e t := by
    intro t ht
    have h1 := g3 t
    have h2 := k3 t
    have h3 := herr t ht
    rw [← h1, ← h2] at h3
    linarith
  have hs1 : rs' = rs := by
    rw [spectrum_scaled lib n e e' c hc he _ rfl, g4] at k4
    injection k4 with k4
    exact k4.symm
  have hs2 : re' = re := by
    rw [spectrum_scaled lib n (envelope n e) (envelope n e') c hc (fun t _ => envelope_scaled n e e' c hc he t) _ rfl, g5] at k5
    injection k5 with k5
    exact k5.symm
  subst hs1 hs2
  exact ⟨rs', re', e, e', g1, k1, g2, k2, he, envelope_scaled n e e' c hc he⟩

/-! ## Separation of AM and PM noise -/

private theorem binSum_scaled (n : ℕ) (idx : ℕ → ℕ) (mask : ℕ → Bool) (w w' : ℕ → ℝ) (c : ℝ) (h : ∀ t < n, w' t = c * w t) (b : ℕ) : binSum n idx mask w' b = c * binSum n idx mask w b := by
  unfold binSum
  rw [mul_sum]
  apply sum_congr rfl
  intro t ht
  exact h t (mem_range.mp (mem_filter.mp ht).1)

private theorem split_scaled (A B k : ℝ) (hk : 0 < k) : splitVar (k * A) (k * B) = (k * (splitVar A B).1, k * (splitVar A B).2.1, k * (splitVar A B).2.2) := by
  have hm : ∀ u, max 0 (k * u) = k * max 0 u := fun u => by rw [mul_max_of_nonneg _ _ hk.le, mul_zero]
  have h1 : 0 < k * A ↔ 0 < A := mul_pos_iff_of_pos_left hk
  have h2 : k * A < 0 ↔ A < 0 := ⟨fun h => by by_contra hA; nlinarith [mul_nonneg hk.le (not_lt.mp hA)], fun h => mul_neg_of_pos_of_neg hk h⟩
  unfold splitVar
  simp only [h1, h2]
  split_ifs
  · simp only [mul_zero]
    rw [show 2 * (k * A) = k * (2 * A) by ring, show k * B - k * A = k * (B - A) by ring, hm, hm]
  · simp only [mul_zero]
    rw [show -2 * (k * A) = k * (-2 * A) by ring, show k * B + k * A = k * (B + A) by ring, hm, hm]
  · simp only [mul_zero]
    rw [hm]

private theorem vars_scaled (solve : Lstsq) (hs : IsMinNormLstsq solve) (n : ℕ) (q q' phi : ℕ → ℝ) (k : ℝ) (hk : 0 < k) (h : ∀ t < n, q' t = k * q t) (base : Bool) :
    phaseVars solve n q' phi base = (k * (phaseVars solve n q phi base).1, k * (phaseVars solve n q phi base).2.1, k * (phaseVars solve n q phi base).2.2) := by
  have hm : ∀ u, max 0 (k * u) = k * max 0 u := fun u => by rw [mul_max_of_nonneg _ _ hk.le, mul_zero]
  have hl : ∀ A j, (solve n A q').getD j 0 = k * (solve n A q).getD j 0 := fun A j => minnorm_smul solve hs n A q q' k hk.ne' h j
  unfold phaseVars
  cases base with
  | true =>
    simp only [if_true, hl]
    exact split_scaled _ _ k hk
  | false =>
    simp only [Bool.false_eq_true, if_false, mul_zero]
    unfold fitErrorPhase
    by_cases hn : n < 2
    · simp only [if_pos hn, max_self, mul_zero]
    · simp only [if_neg hn, hl, hm]

private theorem sumsq_scaled (n : ℕ) (q q' : ℕ → ℝ) (k : ℝ) (h : ∀ t < n, q' t = k * q t) :
    ∑ t ∈ range n, (q' t - colMean n q') ^ 2 = k ^ 2 * ∑ t ∈ range n, (q t - colMean n q) ^ 2 := by
  rw [colMean_scaled n q q' k h, mul_sum]
  apply sum_congr rfl
  intro t ht
  rw [h t (mem_range.mp ht)]
  ring

/-- **C105 (AM and PM noise).** The separated RMS values and the binned error are converted, the counts, bin centres and phases stay, and so do the relative AM noise and the PM noise in radians
as long as both amplitudes exceed `1e-10`. The `r_squared` stays as long as the squared error varies by more than `1e-20` in both units, and is 0 below. -/
theorem C105_am_pm (solve : Lstsq) (hs : IsMinNormLstsq solve) (n : ℕ) (hn : 5 ≤ n) (y y' : ℕ → ℝ) (c d : ℝ) (hc : 0 < c) (hy : ∀ t < n, y' t = c * y t + d)
    (freq : Option ℝ) (hst : StartInside n y freq) (nBins : ℤ) (hb : 0 < nBins) (base : Bool) (maxIter : ℕ) (tol : ℝ) :
    ∃ r r', rearrangeByPhase solve n y freq nBins base maxIter tol = .ok r ∧ rearrangeByPhase solve n y' freq nBins base maxIter tol = .ok r' ∧
      (r'.amRms = c * r.amRms ∧ r'.pmRms = c * r.pmRms ∧ r'.baseRms = c * r.baseRms ∧ r'.totalRms = c * r.totalRms) ∧
      (r'.count = r.count ∧ r'.centers = r.centers ∧ r'.phase = r.phase ∧ r'.normFreq = r.normFreq) ∧
      (∀ b, r'.mean b = (r.mean b).map (c * ·) ∧ r'.rms b = (r.rms b).map (c * ·)) ∧
      (r'.amplitude = c * r.amplitude ∧ (1 / 10 ^ 10 < r.amplitude → 1 / 10 ^ 10 < r'.amplitude → r'.amRelative = r.amRelative ∧ r'.pmRad = r.pmRad)) ∧
      (1 / 10 ^ 20 < ∑ t ∈ range n, (r.err t ^ 2 - colMean n fun t => r.err t ^ 2) ^ 2 →
        (1 / 10 ^ 20 < c ^ 4 * ∑ t ∈ range n, (r.err t ^ 2 - colMean n fun t => r.err t ^ 2) ^ 2 → r'.r2Raw = r.r2Raw) ∧
        (c ^ 4 * ∑ t ∈ range n, (r.err t ^ 2 - colMean n fun t => r.err t ^ 2) ^ 2 ≤ 1 / 10 ^ 20 → r'.r2Raw = 0)) := by
  obtain ⟨f, f', hf, hf', hfr, -, -, -, -, -, hamp, -, -, hfit, -, hph⟩ := C105_fit solve hs n hn y y' c d hc.ne' hy freq hst maxIter tol
  have hph := hph hc
  rw [abs_of_pos hc] at hamp
  have herr := err_scaled n y y' c d hy f.fitted f'.fitted hfit
  have hsq : ∀ t < n, (y' t - f'.fitted t) ^ 2 = c ^ 2 * (y t - f.fitted t) ^ 2 := fun t ht => by rw [herr t ht]; ring
  have hc2 : 0 < c ^ 2 := by positivity
  have hsqrt : ∀ u : ℝ, Real.sqrt (c ^ 2 * u) = c * Real.sqrt u := fun u => by rw [Real.sqrt_mul hc2.le, Real.sqrt_sq hc.le]
  unfold rearrangeByPhase
  rw [hf, hf']
  simp only [if_neg hb.ne', if_neg (not_lt.mpr hb.le), hfr, hph]
  have hv := vars_scaled solve hs n (fun t => (y t - f.fitted t) ^ 2) (fun t => (y' t - f'.fitted t) ^ 2)
    (fun t => pmod (2 * Real.pi * f.frequency * t + f.phase) (2 * Real.pi)) (c ^ 2) hc2 hsq base
  refine ⟨_, _, rfl, rfl, ⟨?_, ?_, ?_, ?_⟩, ⟨rfl, rfl, rfl, rfl⟩, fun b => ⟨?_, ?_⟩, ⟨hamp, ?_⟩, ?_⟩
  · simp only [hv, hsqrt]
  · simp only [hv, hsqrt]
  · simp only [hv, hsqrt]
  · show Real.sqrt (colMean n fun t => (y' t - f'.fitted t) ^ 2) = c * Real.sqrt (colMean n fun t => (y t - f.fitted t) ^ 2)
    rw [colMean_scaled n _ _ (c ^ 2) hsq, hsqrt]
  · simp only [binMean]
    split_ifs
    · rw [binSum_scaled n _ _ (fun t => y t - f.fitted t) _ c herr, Option.map_some, mul_div_assoc]
    · rfl
  · simp only [binRms]
    split_ifs
    · rw [binSum_scaled n _ _ (fun t => (y t - f.fitted t) ^ 2) _ (c ^ 2) hsq, Option.map_some, mul_div_assoc, hsqrt]
    · rfl
  · intro h1 h2
    simp only at h1 h2 ⊢
    simp only [h1, h2, decide_true, if_true, hv, hsqrt]
    rw [hamp, mul_div_mul_left _ _ hc.ne', mul_div_mul_left _ _ hc.ne']
    exact ⟨rfl, rfl⟩
  · intro h1
    simp only at h1 ⊢
    have htot := sumsq_scaled n (fun t => (y t - f.fitted t) ^ 2) (fun t => (y' t - f'.fitted t) ^ 2) (c ^ 2) hsq
    rw [← pow_mul] at htot
    norm_num only at htot
    simp only [fitErrorPhase, if_neg (show ¬ n < 2 by omega), rSquared]
    refine ⟨fun h2 => ?_, fun h2 => ?_⟩
    · rw [htot, if_pos h2, if_pos h1]
      congr 1
      set cols := phaseCols (fun (t : ℕ) => pmod (2 * Real.pi * f.frequency * t + f.phase) (2 * Real.pi)) base
      have hmv : ∀ t, matVec cols (solve n cols fun t => (y' t - f'.fitted t) ^ 2) t = c ^ 2 * matVec cols (solve n cols fun t => (y t - f.fitted t) ^ 2) t := by
        intro t
        unfold matVec
        rw [mul_sum]
        apply sum_congr rfl
        intro j _
        rw [minnorm_smul solve hs n cols (fun t => (y t - f.fitted t) ^ 2) (fun t => (y' t - f'.fitted t) ^ 2) (c ^ 2) hc2.ne' hsq j, mul_assoc]
      have hres : ∑ t ∈ range n, ((y' t - f'.fitted t) ^ 2 - matVec cols (solve n cols fun t => (y' t - f'.fitted t) ^ 2) t) ^ 2 =
          c ^ 4 * ∑ t ∈ range n, ((y t - f.fitted t) ^ 2 - matVec cols (solve n cols fun t => (y t - f.fitted t) ^ 2) t) ^ 2 := by
        rw [mul_sum]
        apply sum_congr rfl
        intro t ht
        rw [hmv, hsq t (mem_range.mp ht)]
        ring
      rw [hres, mul_div_mul_left _ _ (by positivity)]
    · rw [htot, if_neg (not_lt.mpr h2)]

/-- The record of the next theorem: a cosine of a quarter of the sampling rate plus an error that only occurs where the cosine is at its extremes. -/
noncomputable def twoSpikes (t : ℕ) : ℝ := if t = 0 then 2 else if t = 6 then -2 else 0

private theorem quarter : (fitCos (1 / 4) 0 = 1 ∧ fitCos (1 / 4) 1 = 0 ∧ fitCos (1 / 4) 2 = -1 ∧ fitCos (1 / 4) 3 = 0 ∧ fitCos (1 / 4) 4 = 1 ∧ fitCos (1 / 4) 5 = 0 ∧ fitCos (1 / 4) 6 = -1 ∧
    fitCos (1 / 4) 7 = 0) ∧ fitSin (1 / 4) 0 = 0 ∧ fitSin (1 / 4) 1 = 1 ∧ fitSin (1 / 4) 2 = 0 ∧ fitSin (1 / 4) 3 = -1 ∧ fitSin (1 / 4) 4 = 0 ∧ fitSin (1 / 4) 5 = 1 ∧
    fitSin (1 / 4) 6 = 0 ∧ fitSin (1 / 4) 7 = -1 := by
  have C0 : fitCos (1 / 4) 0 = 1 := by unfold fitCos; norm_num
  have S0 : fitSin (1 / 4) 0 = 0 := by unfold fitSin; norm_num
  have stepC : ∀ t : ℕ, fitCos (1 / 4) (t + 1) = -fitSin (1 / 4) t := by
    intro t
    unfold fitCos fitSin
    rw [← Real.cos_add_pi_div_two]
    congr 1
    push_cast
    ring
  have stepS : ∀ t : ℕ, fitSin (1 / 4) (t + 1) = fitCos (1 / 4) t := by
    intro t
    unfold fitCos fitSin
    rw [← Real.sin_add_pi_div_two]
    congr 1
    push_cast
    ring
  have C1 : fitCos (1 / 4) 1 = 0 := by rw [stepC 0, S0, neg_zero]
  have S1 : fitSin (1 / 4) 1 = 1 := by rw [stepS 0, C0]
  have C2 : fitCos (1 / 4) 2 = -1 := by rw [stepC 1, S1]
  have S2 : fitSin (1 / 4) 2 = 0 := by rw [stepS 1, C1]
  have C3 : fitCos (1 / 4) 3 = 0 := by rw [stepC 2, S2, neg_zero]
  have S3 : fitSin (1 / 4) 3 = -1 := by rw [stepS 2, C2]
  have C4 : fitCos (1 / 4) 4 = 1 := by rw [stepC 3, S3, neg_neg]
  have S4 : fitSin (1 / 4) 4 = 0 := by rw [stepS 3, C3]
  have C5 : fitCos (1 / 4) 5 = 0 := by rw [stepC 4, S4, neg_zero]
  have S5 : fitSin (1 / 4) 5 = 1 := by rw [stepS 4, C4]
  have C6 : fitCos (1 / 4) 6 = -1 := by rw [stepC 5, S5]
  have S6 : fitSin (1 / 4) 6 = 0 := by rw [stepS 5, C5]
  have C7 : fitCos (1 / 4) 7 = 0 := by rw [stepC 6, S6, neg_zero]
  have S7 : fitSin (1 / 4) 7 = -1 := by rw [stepS 6, C6]
  exact ⟨⟨C0, C1, C2, C3, C4, C5, C6, C7⟩, S0, S1, S2, S3, S4, S5, S6, S7⟩

private theorem spikes_sum (a b k : ℝ) : ∑ t ∈ range 8, (twoSpikes t - (a * fitCos (1 / 4) t + b * fitSin (1 / 4) t + k)) ^ 2 = 4 + 4 * (a - 1) ^ 2 + 4 * b ^ 2 + 8 * k ^ 2 := by
  obtain ⟨⟨C0, C1, C2, C3, C4, C5, C6, C7⟩, S0, S1, S2, S3, S4, S5, S6, S7⟩ := quarter
  simp only [sum_range_succ, sum_range_zero, C0, C1, C2, C3, C4, C5, C6, C7, S0, S1, S2, S3, S4, S5, S6, S7, twoSpikes]
  norm_num
  ring

private theorem spikes_tot : ∑ t ∈ range 8, ((twoSpikes t - fitCos (1 / 4) t) ^ 2 - colMean 8 fun t => (twoSpikes t - fitCos (1 / 4) t) ^ 2) ^ 2 = 2 := by
  obtain ⟨⟨C0, C1, C2, C3, C4, C5, C6, C7⟩, -⟩ := quarter
  simp only [colMean, sum_range_succ, sum_range_zero, C0, C1, C2, C3, C4, C5, C6, C7, twoSpikes]
  norm_num

private theorem spikes_sq (t : ℕ) (ht : t < 8) : (twoSpikes t - fitCos (1 / 4) t) ^ 2 = fitCos (1 / 4) t ^ 2 := by
  obtain ⟨⟨C0, C1, C2, C3, C4, C5, C6, C7⟩, -⟩ := quarter
  have : t = 0 ∨ t = 1 ∨ t = 2 ∨ t = 3 ∨ t = 4 ∨ t = 5 ∨ t = 6 ∨ t = 7 := by omega
  rcases this with rfl | rfl | rfl | rfl | rfl | rfl | rfl | rfl
  · rw [C0]; norm_num [twoSpikes]
  · rw [C1]; norm_num [twoSpikes]
  · rw [C2]; norm_num [twoSpikes]
  · rw [C3]; norm_num [twoSpikes]
  · rw [C4]; norm_num [twoSpikes]
  · rw [C5]; norm_num [twoSpikes]
  · rw [C6]; norm_num [twoSpikes]
  · rw [C7]; norm_num [twoSpikes]

/-- **C105 (a unit-dependent figure).** The `r_squared` does depend on the unit: the record `2, 0, 0, 0, 0, 0, -2, 0` is explained completely (`r_squared = 1`), the same record in a
unit a million times larger (the values then read `2e-6` and `-2e-6`) not at all (`r_squared = 0`). -/
theorem C105_r_squared_unit (solve : Lstsq) (hs : IsMinNormLstsq solve) (nBins : ℤ) (hb : 0 < nBins) (tol : ℝ) :
    ∃ r r', rearrangeByPhase solve 8 twoSpikes (some (1 / 4)) nBins true 0 tol = .ok r ∧
      rearrangeByPhase solve 8 (fun t => 1 / 10 ^ 6 * twoSpikes t) (some (1 / 4)) nBins true 0 tol = .ok r' ∧ r.r2Raw = 1 ∧ r'.r2Raw = 0 := by
  obtain ⟨r, r', hr, hr', -, -, -, -, h2⟩ := C105_am_pm solve hs 8 (by norm_num) twoSpikes (fun t => 1 / 10 ^ 6 * twoSpikes t) (1 / 10 ^ 6) 0 (by positivity) (fun t _ => by rw [add_zero])
    (some (1 / 4)) ⟨by norm_num, by norm_num⟩ nBins hb true 0 tol
  refine ⟨r, r', hr, hr', ?_⟩
  set X := solve 8 [fitCos (1 / 4), fitSin (1 / 4), fun _ => 1] twoSpikes with hX
  have hmv : ∀ (w : List ℝ) (t : ℕ), matVec [fitCos (1 / 4), fitSin (1 / 4), fun _ => 1] w t = w.getD 0 0 * fitCos (1 / 4) t + w.getD 1 0 * fitSin (1 / 4) t + w.getD 2 0 := by
    intro w t
    unfold matVec
    simp [sum_range_succ]
  have hmin := lstsq_min solve hs.toIsLstsq 8 [fitCos (1 / 4), fitSin (1 / 4), fun _ => 1] twoSpikes [1, 0, 0]
  simp only [hmv, ← hX] at hmin
  rw [spikes_sum, spikes_sum] at hmin
  simp only [List.getD_cons_zero, List.getD_cons_succ] at hmin
  generalize hg0 : X.getD 0 0 = a at hmin
  generalize hg1 : X.getD 1 0 = b at hmin
  generalize hg2 : X.getD 2 0 = k at hmin
  have x0 : X.getD 0 0 = 1 := by rw [hg0]; nlinarith [sq_nonneg (a - 1), sq_nonneg b, sq_nonneg k]
  have x1 : X.getD 1 0 = 0 := by rw [hg1]; nlinarith [sq_nonneg (a - 1), sq_nonneg b, sq_nonneg k]
  have x2 : X.getD 2 0 = 0 := by rw [hg2]; nlinarith [sq_nonneg (a - 1), sq_nonneg b, sq_nonneg k]
  have hrerr : (∀ t, r.err t = twoSpikes t - fitCos (1 / 4) t) ∧ (∀ t : ℕ, r.phase t = 2 * Real.pi * (1 / 4) * t) := by
    unfold rearrangeByPhase fitCore at hr
    simp only [if_neg hb.ne', if_neg (not_lt.mpr hb.le)] at hr
    injection hr with hr
    subst hr
    simp only [show ¬ ((0 : ℕ) : ℤ) < 0 by norm_num, if_false, Int.toNat_natCast, fitLoop, fitFirst, fitResult, ← hX, x0, x1, x2]
    refine ⟨fun t => by ring, fun t => ?_⟩
    rw [neg_zero, show (⟨1, 0⟩ : ℂ) = 1 from rfl, Complex.arg_one, add_zero]
  obtain ⟨he, hp⟩ := hrerr
  have htot : ∑ t ∈ range 8, (r.err t ^ 2 - colMean 8 fun t => r.err t ^ 2) ^ 2 = 2 := by
    simp only [he]
    exact spikes_tot
  rw [htot] at h2
  refine ⟨?_, (h2 (by norm_num)).2 (by norm_num)⟩
  have hr2 : r.r2Raw = rSquared 8 (fun t => r.err t ^ 2) (matVec (phaseCols (fun t => pmod (r.phase t) (2 * Real.pi)) true)
      (solve 8 (phaseCols (fun t => pmod (r.phase t) (2 * Real.pi)) true) fun t => r.err t ^ 2)) := by
    unfold rearrangeByPhase fitCore at hr
    simp only [if_neg hb.ne', if_neg (not_lt.mpr hb.le)] at hr
    injection hr with hr
    subst hr
    simp only [fitErrorPhase, if_neg (show ¬ 8 < 2 by norm_num)]
  rw [hr2]
  unfold rSquared
  rw [htot, if_pos (by norm_num)]
  set cols := phaseCols (fun t => pmod (r.phase t) (2 * Real.pi)) true with hcols
  have hle := lstsq_min solve hs.toIsLstsq 8 cols (fun t => r.err t ^ 2) [1, 0, 0]
  have hz : ∑ t ∈ range 8, (r.err t ^ 2 - matVec cols [1, 0, 0] t) ^ 2 = 0 := by
    apply sum_eq_zero
    intro t ht
    have : matVec cols [1, 0, 0] t = fitCos (1 / 4) t ^ 2 := by
      rw [hcols]
      unfold matVec phaseCols
      simp [sum_range_succ]
      rw [hp]
      unfold pmod fitCos
      rw [mul_comm (2 * Real.pi) (⌊_⌋ : ℝ), Real.cos_sub_int_mul_two_pi]
      norm_num
    rw [this, he, spikes_sq t (mem_range.mp ht), sub_self]
    norm_num
  rw [hz] at hle
  have h0 := le_antisymm hle (sum_nonneg fun t _ => sq_nonneg _)
  rw [h0]
  norm_num

/-! ## Error by value -/

private theorem value_scaled (solve : Lstsq) (hs : IsMinNormLstsq solve) (n : ℕ) (hn : 5 ≤ n) (y y' : ℕ → ℝ) (c d : ℝ) (hc : 0 < c) (hy : ∀ t < n, y' t = c * y t + d)
    (freq : Option ℝ) (hst : StartInside n y freq) (nBins : ℤ) (clipPercent : ℝ) (given given' : Option (ℝ × ℝ)) (lo hi : ℝ) (hlh : lo < hi)
    (hg : given.any (fun r => decide (r.2 ≤ r.1)) = false) (hg' : given'.any (fun r => decide (r.2 ≤ r.1)) = false)
    (hi1 : inferRange n y given = .ok (lo, hi)) (hi2 : inferRange n y' given' = .ok (c * lo + d, c * hi + d)) (maxIter : ℕ) (tol : ℝ) (r : ValueBins)
    (h : rearrangeByValue solve n y freq nBins clipPercent given maxIter tol = .ok r) :
    ∃ r', rearrangeByValue solve n y' freq nBins clipPercent given' maxIter tol = .ok r' ∧ r'.count = r.count ∧ (∀ t < n, r'.index t = r.index t) ∧
      (∀ b, r'.centers b = c * r.centers b + d) ∧ (∀ b, r'.mean b = (r.mean b).map (c * ·) ∧ r'.rms b = (r.rms b).map (c * ·)) := by
  obtain ⟨f, f', hf, hf', -, -, -, -, -, -, -, -, -, hfit, -, -⟩ := C105_fit solve hs n hn y y' c d hc.ne' hy freq hst maxIter tol
  have herr := err_scaled n y y' c d hy f.fitted f'.fitted hfit
  have hsq : ∀ t < n, (y' t - f'.fitted t) ^ 2 = c ^ 2 * (y t - f.fitted t) ^ 2 := fun t ht => by rw [herr t ht]; ring
  have hidx : ∀ t < n, valueIndex nBins.toNat (c * lo + d) (c * hi + d) (y' t) = valueIndex nBins.toNat lo hi (y t) := by
    intro t ht
    unfold valueIndex
    rw [hy t ht, show (c * y t + d - (c * lo + d)) * (((nBins.toNat : ℝ) - 1) / (c * hi + d - (c * lo + d))) = (y t - lo) * (((nBins.toNat : ℝ) - 1) / (hi - lo)) by
      rw [show c * y t + d - (c * lo + d) = c * (y t - lo) by ring, show c * hi + d - (c * lo + d) = c * (hi - lo) by ring]
      have : hi - lo ≠ 0 := by linarith
      field_simp]
  unfold rearrangeByValue at h ⊢
  by_cases h1 : n = 0
  · omega
  by_cases h2 : nBins ≤ 0
  · rw [if_neg h1, if_pos h2] at h; cases h
  by_cases h3 : clipPercent < 0
  · rw [if_neg h1, if_neg h2, if_pos h3] at h; cases h
  have hlh' : ¬ c * hi + d ≤ c * lo + d := by nlinarith
  simp only [if_neg h1, if_neg h2, if_neg h3, hg, hg', Bool.false_eq_true, if_false, hi1, hi2, if_neg (not_le.mpr hlh), if_neg hlh', hf, hf'] at h ⊢
  split_ifs at h ⊢ with h4 h5 h6
  · refine absurd (fun t ht => ?_) h6
    have := h5 t ht
    rwa [hidx t ht] at this
  injection h with h
  subst h
  refine ⟨_, rfl, ?_, hidx, ?_, fun b => ?_⟩
  · funext b
    simp only [binCount]
    congr 1
    apply filter_congr
    intro t ht
    rw [hidx t (mem_range.mp ht)]
  · intro b
    simp only [valueCenter]
    ring
  · have hbs : ∀ (w : ℕ → ℝ), binSum n (fun t => valueIndex nBins.toNat (c * lo + d) (c * hi + d) (y' t)) (fun t => valueMask nBins.toNat clipPercent (valueIndex nBins.toNat (c * lo + d) (c * hi + d) (y' t))) w b =
        binSum n (fun t => valueIndex nBins.toNat lo hi (y t)) (fun t => valueMask nBins.toNat clipPercent (valueIndex nBins.toNat lo hi (y t))) w b := by
      intro w
      unfold binSum
      congr 1
      apply filter_congr
      intro t ht
      simp only [hidx t (mem_range.mp ht)]
    have hbc : binCount n (fun t => valueIndex nBins.toNat (c * lo + d) (c * hi + d) (y' t)) (fun t => valueMask nBins.toNat clipPercent (valueIndex nBins.toNat (c * lo + d) (c * hi + d) (y' t))) b =
        binCount n (fun t => valueIndex nBins.toNat lo hi (y t)) (fun t => valueMask nBins.toNat clipPercent (valueIndex nBins.toNat lo hi (y t))) b := by
      unfold binCount
      congr 1
      apply filter_congr
      intro t ht
      simp only [hidx t (mem_range.mp ht)]
    simp only [binMean, binRms, hbc, hbs]
    constructor
    · split_ifs
      · rw [binSum_scaled n _ _ (fun t => y t - f.fitted t) _ c herr, Option.map_some, mul_div_assoc]
      · rfl
    · split_ifs
      · rw [binSum_scaled n _ _ (fun t => (y t - f.fitted t) ^ 2) _ (c ^ 2) hsq, Option.map_some, mul_div_assoc, Real.sqrt_mul (sq_nonneg c), Real.sqrt_sq hc.le]
      · rfl

/-- **C105 (error by value).** With a converted `value_range`, or without one when both records count as raw codes (some sample beyond ±2), every sample falls into the same bin, the counts
stay, and bin centres, mean and RMS errors are converted. -/
theorem C105_by_value (solve : Lstsq) (hs : IsMinNormLstsq solve) (n : ℕ) (hn : 5 ≤ n) (y y' : ℕ → ℝ) (c d : ℝ) (hc : 0 < c) (hy : ∀ t < n, y' t = c * y t + d)
    (freq : Option ℝ) (hst : StartInside n y freq) (nBins : ℤ) (clipPercent : ℝ) (given : Option (ℝ × ℝ)) (hcodes : given = none → (∃ t < n, 2 < |y t|) ∧ ∃ t < n, 2 < |y' t|)
    (maxIter : ℕ) (tol : ℝ) (r : ValueBins) (h : rearrangeByValue solve n y freq nBins clipPercent given maxIter tol = .ok r) :
    ∃ r', rearrangeByValue solve n y' freq nBins clipPercent (given.map fun g => (c * g.1 + d, c * g.2 + d)) maxIter tol = .ok r' ∧ r'.count = r.count ∧ (∀ t < n, r'.index t = r.index t) ∧
      (∀ b, r'.centers b = c * r.centers b + d) ∧ (∀ b, r'.mean b = (r.mean b).map (c * ·) ∧ r'.rms b = (r.rms b).map (c * ·)) := by
  cases given with
  | some g =>
    obtain ⟨lo, hi⟩ := g
    have hlh : lo < hi := by
      by_contra hlh
      unfold rearrangeByValue at h
      simp only [Option.any_some, decide_eq_true_eq, if_pos (not_lt.mp hlh)] at h
      split_ifs at h
    have hlh' : c * lo + d < c * hi + d := by nlinarith
    apply value_scaled solve hs n hn y y' c d hc hy freq hst nBins clipPercent (some (lo, hi)) _ lo hi hlh (by simpa using hlh) (by simpa using hlh')
      (by simp [inferRange, hlh]) (by simp only [inferRange, Option.map_some]; rw [if_pos hlh']) maxIter tol r h
  | none =>
    obtain ⟨⟨t, ht, h2⟩, ⟨t', ht', h2'⟩⟩ := hcodes rfl
    have big : ∀ (u : ℕ → ℝ) (t : ℕ), t < n → 2 < |u t| → inferRange n u none = .ok (recMin n u, recMax n u) := by
      intro u t ht hu
      unfold inferRange
      simp only
      rw [if_pos]
      have h1 : recMin n u ≤ u t := minOf_le _ _ _ (List.mem_cons_of_mem _ (List.mem_map.mpr ⟨t, List.mem_range.mpr ht, rfl⟩))
      have h2 : u t ≤ recMax n u := le_maxOf _ _ _ (List.mem_cons_of_mem _ (List.mem_map.mpr ⟨t, List.mem_range.mpr ht, rfl⟩))
      exact lt_of_lt_of_le hu (abs_le_max_abs_abs h1 h2)
    have hlh : recMin n y < recMax n y := by
      by_contra hlh
      unfold rearrangeByValue at h
      simp only [big y t ht h2, if_pos (not_lt.mp hlh)] at h
      split_ifs at h
    refine value_scaled solve hs n hn y y' c d hc hy freq hst nBins clipPercent none none _ _ hlh rfl rfl (big y t ht h2) ?_ maxIter tol r h
    rw [big y' t' ht' h2', recMax_affine n (by omega) y y' c d hc hy, recMin_affine n (by omega) y y' c d hc hy]

/-! ## Concrete cases -/

/-- A record with energy in every bin: a single spike. -/
noncomputable def spike (t : ℕ) : ℝ := if t = 0 then 3 else 0

private theorem spike_start (n : ℕ) (hn : 5 ≤ n) : StartInside n spike none := by
  refine ⟨1, one_pos, by omega, ?_⟩
  have : dft n (fun t => (spike t : ℂ)) ((1 : ℕ) : ℤ) = 3 := by
    unfold dft
    rw [sum_eq_single_of_mem 0 (mem_range.mpr (by omega))]
    · simp [spike, cis]
    · intro t _ ht
      simp [spike, ht]
  rw [this]
  norm_num

/-- There is a solver as documented, and for it the hypotheses of the theorems hold with and without a given frequency, in millivolts above a common-mode level. -/
example : ∃ solve, IsMinNormLstsq solve ∧
    (∃ r r', fitCore solve 64 spike none 10 (1 / 10 ^ 9) = .ok r ∧ fitCore solve 64 (fun t => 1000 * spike t + 500) none 10 (1 / 10 ^ 9) = .ok r' ∧
      r'.frequency = r.frequency ∧ r'.amplitude = 1000 * r.amplitude ∧ r'.dcOffset = 1000 * r.dcOffset + 500) ∧
    estimateFrequency solve 64 (fun t => -spike t) none 1000 = estimateFrequency solve 64 spike none 1000 := by
  obtain ⟨solve, hs⟩ := exists_minnorm
  refine ⟨solve, hs, ?_, ?_⟩
  · obtain ⟨r, r', h, h', h1, -, -, -, -, -, h2, h3, -⟩ := C105_fit solve hs 64 (by norm_num) spike (fun t => 1000 * spike t + 500) 1000 500 (by norm_num) (fun t _ => rfl) none
      (spike_start 64 (by norm_num)) 10 (1 / 10 ^ 9)
    exact ⟨r, r', h, h', h1, by rw [h2, abs_of_pos (by norm_num)], h3⟩
  · exact C105_frequency solve hs 64 (by norm_num) spike (fun t => -spike t) (-1) 0 (by norm_num) (fun t _ => by ring) none (spike_start 64 (by norm_num)) 1000

/-- The AM/PM separation of the record of `C105_r_squared_unit` in millivolts: RMS values a thousand times as large, same PM noise in radians. -/
example (solve : Lstsq) (hs : IsMinNormLstsq solve) : ∃ r r', rearrangeByPhase solve 8 twoSpikes (some (1 / 4)) 4 true 0 (1 / 10 ^ 9) = .ok r ∧
    rearrangeByPhase solve 8 (fun t => 1000 * twoSpikes t + 500) (some (1 / 4)) 4 true 0 (1 / 10 ^ 9) = .ok r' ∧ r'.totalRms = 1000 * r.totalRms ∧ r'.count = r.count := by
  obtain ⟨r, r', h, h', ⟨-, -, -, h4⟩, ⟨h5, -⟩, -⟩ := C105_am_pm solve hs 8 (by norm_num) twoSpikes (fun t => 1000 * twoSpikes t + 500) 1000 500 (by norm_num) (fun t _ => rfl) (some (1 / 4))
    ⟨by norm_num, by norm_num⟩ 4 (by norm_num) true 0 (1 / 10 ^ 9)
  exact ⟨r, r', h, h', h4, h5⟩

/-- The error by value of the spike over a given range, converted with the record. -/
example (solve : Lstsq) (hs : IsMinNormLstsq solve) : ∃ r r', rearrangeByValue solve 64 spike none 10 0 (some (-1, 3)) ((10 : ℕ) : ℤ) (1 / 10 ^ 9) = .ok r ∧
    rearrangeByValue solve 64 (fun t => 1000 * spike t + 500) none 10 0 (some (1000 * -1 + 500, 1000 * 3 + 500)) ((10 : ℕ) : ℤ) (1 / 10 ^ 9) = .ok r' ∧ r'.count = r.count := by
  obtain ⟨r, h⟩ := (C49_errors solve 64 spike none 10 0 (some (-1, 3)) ((10 : ℕ) : ℤ) (1 / 10 ^ 9)).2.2 (by norm_num) (by norm_num) rfl ⟨-1, 3, rfl, by norm_num⟩
  obtain ⟨r', h', h1, -⟩ := C105_by_value solve hs 64 (by norm_num) spike (fun t => 1000 * spike t + 500) 1000 500 (by norm_num) (fun t _ => rfl) none (spike_start 64 (by norm_num)) 10 0
    (some (-1, 3)) (fun h => by cases h) 10 (1 / 10 ^ 9) r h
  exact ⟨r, r', h, h', h1⟩

/-- The spike counts as codes in both units. -/
example : (∃ t < 64, 2 < |spike t|) ∧ ∃ t < 64, 2 < |1000 * spike t + 500| := ⟨⟨0, by norm_num, by norm_num [spike]⟩, ⟨0, by norm_num, by norm_num [spike]⟩⟩

end Verif
