import Verif.Theorems.Tone
import Verif.Theorems.SpectrumEngine
import Verif.Theorems.CapMismatch

/-!
# C163: the expected spectrum of a noisy record
-/

namespace Verif

open Model Finset Spec MeasureTheory ProbabilityTheory

namespace Spec

/-- `M` runs of `N` samples. -/
noncomputable def runTable (M N : ℕ) (x : ℕ → ℕ → ℝ) : List (List ℝ) := (List.range M).map fun i => (List.range N).map (x i)

/-- One-sided weight of bin `k`: the bins 0 and `N/2` (even `N`) have no mirror image. -/
noncomputable def binWeight (N k : ℕ) : ℝ := if k = 0 ∨ 2 * k = N then 1 / 2 else 1

end Spec

/-! ## The windowed transform as a linear form in the samples -/

private theorem range_sum (f : ℕ → ℝ) (M : ℕ) : ((List.range M).map f).sum = ∑ i ∈ range M, f i := by
  induction M with
  | zero => simp
  | succ M ih => rw [List.range_succ, List.map_append, List.sum_append, ih, sum_range_succ]; simp

private noncomputable def coef (N : ℕ) (w : ℕ → ℝ) (V : ℝ) (k m : ℕ) : ℂ :=
  ((w m : ℂ) * cis (-(((k : ℤ) : ℝ) * m / N)) - dft N (fun m => (w m : ℂ)) (k : ℤ) / N) / V

private theorem prep_bin (N : ℕ) (hN : 0 < N) (w x : ℕ → ℝ) (V : ℝ) (k : ℕ) :
    dft N (fun m => (((((removeDc ((List.range N).map x)).map (· / V)).getD m 0 * w m : ℝ)) : ℂ)) (k : ℤ) = ∑ m ∈ range N, (x m : ℂ) * coef N w V k m := by
  have hNC : (N : ℂ) ≠ 0 := by exact_mod_cast hN.ne'
  have hsum : ((List.range N).map x).sum = ∑ m ∈ range N, x m := (range_sum x N)
  have hg : ∀ m ∈ range N, ((removeDc ((List.range N).map x)).map (· / V)).getD m 0 = (x m - (∑ m ∈ range N, x m) / N) / V := by
    intro m hm
    rw [mem_range] at hm
    unfold removeDc
    rw [List.getD_eq_getElem?_getD, List.getElem?_map, List.getElem?_map, List.getElem?_map, List.getElem?_range hm]
    simp only [Option.map_some, Option.getD_some, List.length_map, List.length_range]
    rw [hsum]
  have h1 : dft N (fun m => (((((removeDc ((List.range N).map x)).map (· / V)).getD m 0 * w m : ℝ)) : ℂ)) (k : ℤ)
      = ∑ m ∈ range N, ((x m : ℂ) * ((w m : ℂ) * cis (-(((k : ℤ) : ℝ) * m / N))) / V - (∑ m ∈ range N, (x m : ℂ)) / N / V * ((w m : ℂ) * cis (-(((k : ℤ) : ℝ) * m / N)))) := by
    unfold dft
    refine sum_congr rfl fun m hm => ?_
    beta_reduce
    rw [hg m hm]
    push_cast
    ring
  have h2 : ∑ m ∈ range N, (w m : ℂ) * cis (-(((k : ℤ) : ℝ) * m / N)) = dft N (fun m => (w m : ℂ)) (k : ℤ) := rfl
  rw [h1, sum_sub_distrib, ← mul_sum, h2]
  unfold coef
  rw [sum_congr rfl (fun m _ => show (x m : ℂ) * (((w m : ℂ) * cis (-(((k : ℤ) : ℝ) * m / N)) - dft N (fun m => (w m : ℂ)) (k : ℤ) / N) / V)
    = (x m : ℂ) * ((w m : ℂ) * cis (-(((k : ℤ) : ℝ) * m / N))) / V - (x m : ℂ) * (dft N (fun m => (w m : ℂ)) (k : ℤ) / N / V) by ring), sum_sub_distrib, ← sum_mul]
  ring

private theorem coef_power (N : ℕ) (hN : 0 < N) (w : ℕ → ℝ) (V : ℝ) (hV : 0 < V) (k : ℕ) :
    ∑ m ∈ range N, ‖coef N w V k m‖ ^ 2 = (∑ m ∈ range N, w m ^ 2 - ‖dft N (fun m => (w m : ℂ)) (k : ℤ)‖ ^ 2 / N) / V ^ 2 := by
  have hNR : (N : ℝ) ≠ 0 := by exact_mod_cast hN.ne'
  obtain ⟨W, hW⟩ : ∃ W, W = dft N (fun m => (w m : ℂ)) (k : ℤ) := ⟨_, rfl⟩
  have hre : W.re = ∑ m ∈ range N, w m * (cis (-(((k : ℤ) : ℝ) * m / N))).re := by
    rw [hW]
    unfold dft
    rw [Complex.re_sum]
    exact sum_congr rfl fun m _ => by simp
  have him : W.im = ∑ m ∈ range N, w m * (cis (-(((k : ℤ) : ℝ) * m / N))).im := by
    rw [hW]
    unfold dft
    rw [Complex.im_sum]
    exact sum_congr rfl fun m _ => by simp
  have hc : ∀ m : ℕ, (cis (-(((k : ℤ) : ℝ) * m / N))).re ^ 2 + (cis (-(((k : ℤ) : ℝ) * m / N))).im ^ 2 = 1 := by
    intro m
    have := norm_cis (-(((k : ℤ) : ℝ) * m / N))
    have h2 := Complex.sq_norm (cis (-(((k : ℤ) : ℝ) * m / N)))
    rw [this, Complex.normSq_apply] at h2
    linarith
  have hterm : ∀ m ∈ range N, ‖coef N w V k m‖ ^ 2 = (w m ^ 2 - 2 / N * (W.re * (w m * (cis (-(((k : ℤ) : ℝ) * m / N))).re) + W.im * (w m * (cis (-(((k : ℤ) : ℝ) * m / N))).im))
      + (W.re ^ 2 + W.im ^ 2) / N ^ 2) / V ^ 2 := by
    intro m _
    unfold coef
    rw [← hW, norm_div, div_pow, Complex.norm_real, Real.norm_eq_abs, sq_abs]
    congr 1
    rw [Complex.sq_norm, Complex.normSq_apply]
    have e1 : ((w m : ℂ) * cis (-(((k : ℤ) : ℝ) * m / N)) - W / N).re = w m * (cis (-(((k : ℤ) : ℝ) * m / N))).re - W.re / N := by
      rw [show W / (N : ℂ) = W / ((N : ℝ) : ℂ) by norm_cast]
      simp [Complex.div_ofReal_re]
    have e2 : ((w m : ℂ) * cis (-(((k : ℤ) : ℝ) * m / N)) - W / N).im = w m * (cis (-(((k : ℤ) : ℝ) * m / N))).im - W.im / N := by
      rw [show W / (N : ℂ) = W / ((N : ℝ) : ℂ) by norm_cast]
      simp [Complex.div_ofReal_im]
    rw [e1, e2]
    linear_combination w m ^ 2 * hc m
  rw [sum_congr rfl hterm, ← sum_div]
  congr 1
  rw [sum_add_distrib, sum_sub_distrib, ← mul_sum, sum_add_distrib, ← mul_sum, ← mul_sum, ← hre, ← him, sum_const, card_range, nsmul_eq_mul, ← hW, Complex.sq_norm,
    Complex.normSq_apply]
  field_simp
  ring

/-! ## Second moments -/

section Random

variable {Ω : Type*} [MeasurableSpace Ω] (μ : Measure Ω) [IsProbabilityMeasure μ]

private theorem real_form (Z : ℕ → Ω → ℝ) (σ : ℝ) (h2 : ∀ i, MemLp (Z i) 2 μ) (hmean : ∀ i, ∫ ω, Z i ω ∂μ = 0)
    (hcov : ∀ i j, ∫ ω, Z i ω * Z j ω ∂μ = if i = j then σ ^ 2 else 0) (x c : ℕ → ℝ) (N : ℕ) :
    Integrable (fun ω => (∑ m ∈ range N, (x m + Z m ω) * c m) ^ 2) μ ∧
      ∫ ω, (∑ m ∈ range N, (x m + Z m ω) * c m) ^ 2 ∂μ = (∑ m ∈ range N, x m * c m) ^ 2 + σ ^ 2 * ∑ m ∈ range N, c m ^ 2 := by
  have hL : ∀ m, Integrable (fun ω => Z m ω * c m) μ := fun m => ((h2 m).integrable (by norm_num)).mul_const _
  have hi : ∀ s t, Integrable (fun ω => c s * c t * (Z s ω * Z t ω)) μ := fun s t => ((h2 s).integrable_mul (h2 t)).const_mul _
  have e : (fun ω => (∑ m ∈ range N, (x m + Z m ω) * c m) ^ 2) = fun ω => ((∑ m ∈ range N, x m * c m) ^ 2 + 2 * (∑ m ∈ range N, x m * c m) * ∑ m ∈ range N, Z m ω * c m)
      + ∑ s ∈ range N, ∑ t ∈ range N, c s * c t * (Z s ω * Z t ω) := by
    funext ω
    have h1 : ∑ s ∈ range N, ∑ t ∈ range N, c s * c t * (Z s ω * Z t ω) = (∑ m ∈ range N, Z m ω * c m) ^ 2 := by
      rw [pow_two, sum_mul_sum]
      exact sum_congr rfl fun s _ => sum_congr rfl fun t _ => by ring
    rw [h1, sum_congr rfl (fun m _ => add_mul (x m) (Z m ω) (c m)), sum_add_distrib]
    ring
  have i1 : Integrable (fun ω => ∑ m ∈ range N, Z m ω * c m) μ := integrable_finset_sum _ fun m _ => hL m
  have i2 : Integrable (fun ω => (∑ m ∈ range N, x m * c m) ^ 2 + 2 * (∑ m ∈ range N, x m * c m) * ∑ m ∈ range N, Z m ω * c m) μ :=
    (integrable_const _).add (i1.const_mul _)
  have i3 : Integrable (fun ω => ∑ s ∈ range N, ∑ t ∈ range N, c s * c t * (Z s ω * Z t ω)) μ :=
    integrable_finset_sum _ fun s _ => integrable_finset_sum _ fun t _ => hi s t
  rw [e]
  refine ⟨i2.add i3, ?_⟩
  rw [integral_add i2 i3, integral_add (integrable_const _) (i1.const_mul _), integral_const_mul, integral_finset_sum _ fun m _ => hL m,
    integral_finset_sum _ fun s _ => integrable_finset_sum _ fun t _ => hi s t]
  have z1 : ∑ m ∈ range N, ∫ ω, Z m ω * c m ∂μ = 0 := sum_eq_zero fun m _ => by rw [integral_mul_const, hmean, zero_mul]
  have z2 : ∑ s ∈ range N, ∫ ω, ∑ t ∈ range N, c s * c t * (Z s ω * Z t ω) ∂μ = σ ^ 2 * ∑ m ∈ range N, c m ^ 2 := by
    rw [mul_sum]
    refine sum_congr rfl fun s hs => ?_
    rw [integral_finset_sum _ fun t _ => hi s t, sum_congr rfl (fun t _ => by rw [integral_const_mul, hcov s t, mul_ite, mul_zero]), sum_ite_eq, if_pos hs]
    ring
  rw [z1, z2]
  simp

private theorem complex_form (Z : ℕ → Ω → ℝ) (σ : ℝ) (h2 : ∀ i, MemLp (Z i) 2 μ) (hmean : ∀ i, ∫ ω, Z i ω ∂μ = 0)
    (hcov : ∀ i j, ∫ ω, Z i ω * Z j ω ∂μ = if i = j then σ ^ 2 else 0) (x : ℕ → ℝ) (c : ℕ → ℂ) (N : ℕ) :
    Integrable (fun ω => ‖∑ m ∈ range N, ((x m + Z m ω : ℝ) : ℂ) * c m‖ ^ 2) μ ∧
      ∫ ω, ‖∑ m ∈ range N, ((x m + Z m ω : ℝ) : ℂ) * c m‖ ^ 2 ∂μ = ‖∑ m ∈ range N, (x m : ℂ) * c m‖ ^ 2 + σ ^ 2 * ∑ m ∈ range N, ‖c m‖ ^ 2 := by
  have hn : ∀ y : ℕ → ℝ, ‖∑ m ∈ range N, (y m : ℂ) * c m‖ ^ 2 = (∑ m ∈ range N, y m * (c m).re) ^ 2 + (∑ m ∈ range N, y m * (c m).im) ^ 2 := by
    intro y
    rw [Complex.sq_norm, Complex.normSq_apply, Complex.re_sum, Complex.im_sum, sum_congr rfl (fun m _ => Complex.re_ofReal_mul (y m) (c m)),
      sum_congr rfl (fun m _ => Complex.im_ofReal_mul (y m) (c m))]
    ring
  obtain ⟨a1, a2⟩ := real_form μ Z σ h2 hmean hcov x (fun m => (c m).re) N
  obtain ⟨b1, b2⟩ := real_form μ Z σ h2 hmean hcov x (fun m => (c m).im) N
  have e : (fun ω => ‖∑ m ∈ range N, ((x m + Z m ω : ℝ) : ℂ) * c m‖ ^ 2) =
      fun ω => (∑ m ∈ range N, (x m + Z m ω) * (c m).re) ^ 2 + (∑ m ∈ range N, (x m + Z m ω) * (c m).im) ^ 2 := by
    funext ω
    exact hn fun m => x m + Z m ω
  rw [e]
  refine ⟨a1.add b1, ?_⟩
  rw [integral_add a1 b1, a2, b2, hn, sum_congr rfl (fun m _ => show ‖c m‖ ^ 2 = (c m).re ^ 2 + (c m).im ^ 2 by rw [Complex.sq_norm, Complex.normSq_apply]; ring),
    sum_add_distrib]
  ring

/-! ## The spectrum of a table of runs -/

private theorem table_power (lib : WinLib) (a : SpectrumArgs) (hco : a.coherent = false) (hcut : a.cutoff ≤ 0) (V : ℝ) (hV : 0 < V)
    (hpk : ∀ rows, peakAmplitude rows a.scale = .ok V) (M N : ℕ) (hM : 0 < M) (hN : 0 < N) (hshape : M = 1 ∨ (1 < N ∧ M ≤ 2 * N))
    (hw : ∑ m ∈ range N, windowVector lib a.win N m ≠ 0) (x : ℕ → ℕ → ℝ) (r : SpectrumResult) (hr : computeSpectrum lib (runTable M N x) a = .ok r) (k : ℕ) (hk : k ≤ N / 2) :
    r.power.getD k 0 = (∑ i ∈ range M, ‖∑ m ∈ range N, (x i m : ℂ) * coef N (windowVector lib a.win N) V k m‖ ^ 2) *
      (binWeight N k * (4 / (M * N * ∑ m ∈ range N, windowVector lib a.win N m ^ 2))) := by
  obtain ⟨d, n, hd, hn, -, -, -, -, -, -, hpw, -⟩ := computeSpectrum_ok lib _ a r hr
  have hNR : (N : ℝ) ≠ 0 := by exact_mod_cast hN.ne'
  have hMR : (M : ℝ) ≠ 0 := by exact_mod_cast hM.ne'
  have hhead : ((runTable M N x).headD []).length = N := by
    obtain ⟨M', rfl⟩ : ∃ M', M = M' + 1 := ⟨M - 1, by omega⟩
    unfold runTable
    rw [List.range_succ_eq_map]
    simp
  have hlen : (runTable M N x).length = M := by simp [runTable]
  have hor : orient (runTable M N x) = runTable M N x := by
    unfold orient
    simp only
    rw [hhead, hlen, if_neg (by omega), if_neg (by omega)]
  have hdd : d = (List.range M).map fun i => (removeDc ((List.range N).map (x i))).map (· / V) := by
    unfold prepareFftInput at hd
    simp only [hor, hpk] at hd
    injection hd with hd
    rw [← hd]
    unfold runTable
    rw [List.map_map]
    refine List.map_congr_left fun i _ => ?_
    simp only [Function.comp_apply]
    rw [if_pos hV.ne']
  have hdN : (d.headD []).length = N := by
    rw [hdd]
    obtain ⟨M', rfl⟩ : ∃ M', M = M' + 1 := ⟨M - 1, by omega⟩
    rw [List.range_succ_eq_map]
    simp [removeDc]
  rw [hpw, hdN]
  unfold applyCutoff
  rw [if_neg (not_lt.mpr hcut)]
  unfold rawSpectrum
  simp only [hco, Bool.false_eq_true, if_false]
  rw [List.getD_eq_getElem?_getD, List.getElem?_map]
  unfold powerAverage
  rw [List.getElem?_map, List.getElem?_range (by omega)]
  simp only [Option.map_some, Option.getD_some]
  have hsum : ((runsOf d (windowVector lib a.win N)).map fun x => ‖dft N (fun n => (x n : ℂ)) (k : ℤ)‖ ^ 2).sum
      = ∑ i ∈ range M, ‖∑ m ∈ range N, (x i m : ℂ) * coef N (windowVector lib a.win N) V k m‖ ^ 2 := by
    rw [hdd]
    unfold runsOf
    rw [List.map_map, List.map_map, ← range_sum]
    congr 1
    refine List.map_congr_left fun i _ => ?_
    simp only [Function.comp_apply]
    rw [prep_bin N hN]
  have hrl : (runsOf d (windowVector lib a.win N)).length = M := by rw [hdd]; simp [runsOf]
  rw [hsum, hrl]
  have hsq : 0 < ∑ m ∈ range N, windowVector lib a.win N m ^ 2 := by
    rcases (sum_nonneg fun m _ => sq_nonneg (windowVector lib a.win N m) : 0 ≤ ∑ m ∈ range N, windowVector lib a.win N m ^ 2).lt_or_eq with h3 | h3
    · exact h3
    · exfalso
      apply hw
      apply sum_eq_zero
      intro m hm
      exact pow_eq_zero_iff (by norm_num) |>.mp ((sum_eq_zero_iff_of_nonneg fun m _ => sq_nonneg (windowVector lib a.win N m)).mp h3.symm m hm)
  have hone : ∀ v : ℝ, oneSided N k v = v * binWeight N k := by
    intro v
    unfold oneSided binWeight
    simp only
    by_cases h0 : k = 0
    · rw [if_pos h0, if_pos (Or.inl h0), if_neg (by omega)]; ring
    · rw [if_neg h0]
      by_cases h1 : 2 * k = N
      · rw [if_pos (by omega), if_pos (Or.inr h1)]; ring
      · rw [if_neg (by omega), if_neg (by tauto)]; ring
  rw [hone]
  unfold powerCorrection windowGain windowEnbw
  generalize ∑ i ∈ range M, ‖∑ m ∈ range N, (x i m : ℂ) * coef N (windowVector lib a.win N) V k m‖ ^ 2 = T
  generalize ∑ m ∈ range N, windowVector lib a.win N m ^ 2 = Q at *
  generalize ∑ m ∈ range N, windowVector lib a.win N m = S at *
  have hQ := hsq.ne'
  field_simp

/-- **C163 (expected spectrum).** Any `M` runs of `N` samples, each with its own noise of mean 0 and variance `σ²`, uncorrelated from sample to sample of the run:
the expected power spectrum is the spectrum of the noiseless runs plus `4 σ²/(V² N)` in every bin, half of it in the bins 0 and `N/2` - whatever the window, its
length and the number of runs -, except for the share `|W_k|²/(N Σ w²)` of the window spectrum that the removal of the mean takes away. -/
theorem C163_expected_spectrum (lib : WinLib) (a : SpectrumArgs) (hco : a.coherent = false) (hcut : a.cutoff ≤ 0) (V : ℝ) (hV : 0 < V)
    (hpk : ∀ rows, peakAmplitude rows a.scale = .ok V) (M N : ℕ) (hM : 0 < M) (hN : 0 < N) (hshape : M = 1 ∨ (1 < N ∧ M ≤ 2 * N))
    (hw : ∑ m ∈ range N, windowVector lib a.win N m ≠ 0) (x : ℕ → ℕ → ℝ) (Z : ℕ → ℕ → Ω → ℝ) (σ : ℝ) (h2 : ∀ i m, MemLp (Z i m) 2 μ)
    (hmean : ∀ i m, ∫ ω, Z i m ω ∂μ = 0) (hcov : ∀ i m l, ∫ ω, Z i m ω * Z i l ω ∂μ = if m = l then σ ^ 2 else 0)
    (r0 : SpectrumResult) (hr0 : computeSpectrum lib (runTable M N x) a = .ok r0)
    (r : Ω → SpectrumResult) (hr : ∀ ω, computeSpectrum lib (runTable M N fun i m => x i m + Z i m ω) a = .ok (r ω)) (k : ℕ) (hk : k ≤ N / 2) :
    Integrable (fun ω => (r ω).power.getD k 0) μ ∧
      ∫ ω, (r ω).power.getD k 0 ∂μ = r0.power.getD k 0 + binWeight N k * (4 * σ ^ 2 / (V ^ 2 * N)) *
        (1 - ‖dft N (fun m => (windowVector lib a.win N m : ℂ)) (k : ℤ)‖ ^ 2 / (N * ∑ m ∈ range N, windowVector lib a.win N m ^ 2)) := by
  have hNR : (N : ℝ) ≠ 0 := by exact_mod_cast hN.ne'
  have hMR : (M : ℝ) ≠ 0 := by exact_mod_cast hM.ne'
  have hf : ∀ i, _ := fun i => complex_form μ (Z i) σ (h2 i) (hmean i) (hcov i) (x i) (coef N (windowVector lib a.win N) V k) N
  have e : (fun ω => (r ω).power.getD k 0) = fun ω => (∑ i ∈ range M, ‖∑ m ∈ range N, ((x i m + Z i m ω : ℝ) : ℂ) * coef N (windowVector lib a.win N) V k m‖ ^ 2) *
      (binWeight N k * (4 / (M * N * ∑ m ∈ range N, windowVector lib a.win N m ^ 2))) := by
    funext ω
    exact table_power lib a hco hcut V hV hpk M N hM hN hshape hw _ (r ω) (hr ω) k hk
  have i1 : Integrable (fun ω => ∑ i ∈ range M, ‖∑ m ∈ range N, ((x i m + Z i m ω : ℝ) : ℂ) * coef N (windowVector lib a.win N) V k m‖ ^ 2) μ :=
    integrable_finset_sum _ fun i _ => (hf i).1
  rw [e]
  refine ⟨i1.mul_const _, ?_⟩
  rw [integral_mul_const, integral_finset_sum _ fun i _ => (hf i).1, sum_congr rfl fun i _ => (hf i).2, sum_add_distrib, sum_const, card_range, nsmul_eq_mul,
    coef_power N hN _ V hV, table_power lib a hco hcut V hV hpk M N hM hN hshape hw x r0 hr0 k hk, add_mul]
  congr 1
  have hQ : ∑ m ∈ range N, windowVector lib a.win N m ^ 2 ≠ 0 := by
    intro h3
    apply hw
    apply sum_eq_zero
    intro m hm
    exact pow_eq_zero_iff (by norm_num) |>.mp ((sum_eq_zero_iff_of_nonneg fun m _ => sq_nonneg (windowVector lib a.win N m)).mp h3 m hm)
  generalize ∑ m ∈ range N, windowVector lib a.win N m ^ 2 = Q at *
  field_simp

/-- **C163 (flat).** With any window name but kaiser and chebwin, the noise adds exactly `4 σ²/(V² N)` to every bin beyond the default side bins of DC: the noise
density in the report does not depend on the window. -/
theorem C163_flat (lib : WinLib) (a : SpectrumArgs) (hco : a.coherent = false) (hcut : a.cutoff ≤ 0) (h1 : a.win ≠ "kaiser") (h3 : a.win ≠ "chebwin") (V : ℝ) (hV : 0 < V)
    (hpk : ∀ rows, peakAmplitude rows a.scale = .ok V) (M N : ℕ) (hM : 0 < M) (hN : 1 < N) (hMN : M ≤ 2 * N) (hside : 2 * defaultSideBin a.win < N)
    (x : ℕ → ℕ → ℝ) (Z : ℕ → ℕ → Ω → ℝ) (σ : ℝ) (h2 : ∀ i m, MemLp (Z i m) 2 μ)
    (hmean : ∀ i m, ∫ ω, Z i m ω ∂μ = 0) (hcov : ∀ i m l, ∫ ω, Z i m ω * Z i l ω ∂μ = if m = l then σ ^ 2 else 0)
    (r0 : SpectrumResult) (hr0 : computeSpectrum lib (runTable M N x) a = .ok r0)
    (r : Ω → SpectrumResult) (hr : ∀ ω, computeSpectrum lib (runTable M N fun i m => x i m + Z i m ω) a = .ok (r ω)) (k : ℕ) (hk0 : defaultSideBin a.win < k) (hk : k ≤ N / 2) :
    ∫ ω, (r ω).power.getD k 0 ∂μ = r0.power.getD k 0 + binWeight N k * (4 * σ ^ 2 / (V ^ 2 * N)) := by
  have hl := C26_default_side_bin_covers_lobe lib a.win h1 h3 N hN hside
  have hz : dft N (fun m => (windowVector lib a.win N m : ℂ)) (k : ℤ) = 0 := hl.band k (by
    intro j hj hd
    rw [abs_le] at hj
    have := Int.le_of_dvd (by omega) hd
    omega)
  rw [(C163_expected_spectrum μ lib a hco hcut V hV hpk M N hM (by omega) (Or.inr ⟨hN, hMN⟩) hl.mean x Z σ h2 hmean hcov r0 hr0 r hr k hk).2, hz]
  simp

/-- **C163 (mean removed).** The share taken away by the removal of the mean is between nothing and everything, for every window and bin. -/
theorem C163_share (w : ℕ → ℝ) (N : ℕ) (hN : 0 < N) (k : ℕ) :
    0 ≤ ‖dft N (fun m => (w m : ℂ)) (k : ℤ)‖ ^ 2 / (N * ∑ m ∈ range N, w m ^ 2) ∧ ‖dft N (fun m => (w m : ℂ)) (k : ℤ)‖ ^ 2 / (N * ∑ m ∈ range N, w m ^ 2) ≤ 1 := by
  have hNR : (0 : ℝ) < N := by exact_mod_cast hN
  have hQ : 0 ≤ ∑ m ∈ range N, w m ^ 2 := sum_nonneg fun m _ => sq_nonneg _
  refine ⟨by positivity, div_le_one_of_le₀ ?_ (by positivity)⟩
  have h := coef_power N hN w 1 one_pos k
  have h0 : 0 ≤ ∑ m ∈ range N, ‖coef N w 1 k m‖ ^ 2 := sum_nonneg fun m _ => sq_nonneg _
  rw [h, one_pow, div_one, sub_nonneg, div_le_iff₀ hNR] at h0
  linarith

/-- **C163 (runs).** At a given full scale the power-averaged spectrum of `M` runs is the mean of the spectra of the single runs. -/
theorem C163_mean_of_runs (lib : WinLib) (a : SpectrumArgs) (hco : a.coherent = false) (hcut : a.cutoff ≤ 0) (V : ℝ) (hV : 0 < V)
    (hpk : ∀ rows, peakAmplitude rows a.scale = .ok V) (M N : ℕ) (hM : 0 < M) (hN : 0 < N) (hshape : M = 1 ∨ (1 < N ∧ M ≤ 2 * N))
    (hw : ∑ m ∈ range N, windowVector lib a.win N m ≠ 0) (x : ℕ → ℕ → ℝ) (r : SpectrumResult) (hr : computeSpectrum lib (runTable M N x) a = .ok r)
    (ri : ℕ → SpectrumResult) (hri : ∀ i < M, computeSpectrum lib (runTable 1 N fun _ => x i) a = .ok (ri i)) (k : ℕ) (hk : k ≤ N / 2) :
    r.power.getD k 0 = (∑ i ∈ range M, (ri i).power.getD k 0) / M := by
  have hMR : (M : ℝ) ≠ 0 := by exact_mod_cast hM.ne'
  rw [table_power lib a hco hcut V hV hpk M N hM hN hshape hw x r hr k hk, sum_congr rfl fun i hi =>
    table_power lib a hco hcut V hV hpk 1 N one_pos hN (Or.inl rfl) hw (fun _ => x i) (ri i) (hri i (mem_range.mp hi)) k hk]
  simp only [sum_range_one, Nat.cast_one, one_mul]
  rw [← sum_mul, mul_div_assoc]
  congr 1
  have hQ : ∑ m ∈ range N, windowVector lib a.win N m ^ 2 ≠ 0 := by
    intro h3
    apply hw
    apply sum_eq_zero
    intro m hm
    exact pow_eq_zero_iff (by norm_num) |>.mp ((sum_eq_zero_iff_of_nonneg fun m _ => sq_nonneg (windowVector lib a.win N m)).mp h3 m hm)
  have hNR : (N : ℝ) ≠ 0 := by exact_mod_cast hN.ne'
  field_simp

/-- **C163 (scatter).** If the noise of different runs is independent, the variance of every bin is the mean of the variances of the single-run bins divided by the
number of runs: averaging does not lower the noise, it steadies it. -/
theorem C163_variance (lib : WinLib) (a : SpectrumArgs) (hco : a.coherent = false) (hcut : a.cutoff ≤ 0) (V : ℝ) (hV : 0 < V)
    (hpk : ∀ rows, peakAmplitude rows a.scale = .ok V) (M N : ℕ) (hM : 0 < M) (hN : 0 < N) (hshape : M = 1 ∨ (1 < N ∧ M ≤ 2 * N))
    (hw : ∑ m ∈ range N, windowVector lib a.win N m ≠ 0) (x : ℕ → ℕ → ℝ) (Z : ℕ → ℕ → Ω → ℝ)
    (hind : ∀ i < M, ∀ j < M, i ≠ j → IndepFun (fun ω m => Z i m ω) (fun ω m => Z j m ω) μ)
    (r : Ω → SpectrumResult) (hr : ∀ ω, computeSpectrum lib (runTable M N fun i m => x i m + Z i m ω) a = .ok (r ω))
    (ri : ℕ → Ω → SpectrumResult) (hri : ∀ i ω, computeSpectrum lib (runTable 1 N fun _ m => x i m + Z i m ω) a = .ok (ri i ω)) (k : ℕ) (hk : k ≤ N / 2)
    (hfin : ∀ i < M, MemLp (fun ω => (ri i ω).power.getD k 0) 2 μ) :
    Var[fun ω => (r ω).power.getD k 0; μ] = (∑ i ∈ range M, Var[fun ω => (ri i ω).power.getD k 0; μ]) / M / M := by
  have e : (fun ω => (r ω).power.getD k 0) = fun ω => (1 / M : ℝ) * ∑ i ∈ range M, (ri i ω).power.getD k 0 := by
    funext ω
    rw [C163_mean_of_runs lib a hco hcut V hV hpk M N hM hN hshape hw _ (r ω) (hr ω) (fun i => ri i ω) (fun i _ => hri i ω) k hk]
    ring
  have hG : ∀ i, (fun ω => (ri i ω).power.getD k 0) = (fun z : ℕ → ℝ => ‖∑ m ∈ range N, ((x i m + z m : ℝ) : ℂ) * coef N (windowVector lib a.win N) V k m‖ ^ 2 *
      (binWeight N k * (4 / (((1 : ℕ) : ℝ) * N * ∑ m ∈ range N, windowVector lib a.win N m ^ 2)))) ∘ fun ω m => Z i m ω := by
    intro i
    funext ω
    rw [table_power lib a hco hcut V hV hpk 1 N one_pos hN (Or.inl rfl) hw _ (ri i ω) (hri i ω) k hk, sum_range_one]
    rfl
  have hmeas : ∀ i, Measurable (fun z : ℕ → ℝ => ‖∑ m ∈ range N, ((x i m + z m : ℝ) : ℂ) * coef N (windowVector lib a.win N) V k m‖ ^ 2 *
      (binWeight N k * (4 / (((1 : ℕ) : ℝ) * N * ∑ m ∈ range N, windowVector lib a.win N m ^ 2)))) := by
    intro i
    fun_prop
  have e2 : (fun ω => ∑ i ∈ range M, (ri i ω).power.getD k 0) = ∑ i ∈ range M, fun ω => (ri i ω).power.getD k 0 := by
    funext ω
    rw [Finset.sum_apply]
  rw [e, variance_const_mul, e2, IndepFun.variance_sum]
  · ring
  · intro i hi
    exact hfin i (mem_range.mp hi)
  · intro i hi j hj hij
    show IndepFun (fun ω => (ri i ω).power.getD k 0) (fun ω => (ri j ω).power.getD k 0) μ
    rw [hG i, hG j]
    exact (hind i (mem_range.mp hi) j (mem_range.mp hj) hij).comp (hmeas i) (hmeas j)

/-- **C163 (averaging settles).** With single-run variances of at most `s`, the probability that a bin of the averaged spectrum is `c` or more away from the mean of the expected
single-run bins is at most `s / (M c²)`. (More than `2 N` runs would be read the other way round, hence the bound on `M`.) -/
theorem C163_settles (lib : WinLib) (a : SpectrumArgs) (hco : a.coherent = false) (hcut : a.cutoff ≤ 0) (V : ℝ) (hV : 0 < V)
    (hpk : ∀ rows, peakAmplitude rows a.scale = .ok V) (M N : ℕ) (hM : 0 < M) (hN : 0 < N) (hshape : M = 1 ∨ (1 < N ∧ M ≤ 2 * N))
    (hw : ∑ m ∈ range N, windowVector lib a.win N m ≠ 0) (x : ℕ → ℕ → ℝ) (Z : ℕ → ℕ → Ω → ℝ)
    (hind : ∀ i < M, ∀ j < M, i ≠ j → IndepFun (fun ω m => Z i m ω) (fun ω m => Z j m ω) μ)
    (r : Ω → SpectrumResult) (hr : ∀ ω, computeSpectrum lib (runTable M N fun i m => x i m + Z i m ω) a = .ok (r ω))
    (ri : ℕ → Ω → SpectrumResult) (hri : ∀ i ω, computeSpectrum lib (runTable 1 N fun _ m => x i m + Z i m ω) a = .ok (ri i ω)) (k : ℕ) (hk : k ≤ N / 2)
    (hfin : ∀ i < M, MemLp (fun ω => (ri i ω).power.getD k 0) 2 μ) (s : ℝ) (hs : ∀ i < M, Var[fun ω => (ri i ω).power.getD k 0; μ] ≤ s) (c : ℝ) (hc : 0 < c) :
    μ {ω | c ≤ |(r ω).power.getD k 0 - (∑ i ∈ range M, ∫ ω', (ri i ω').power.getD k 0 ∂μ) / M|} ≤ ENNReal.ofReal (s / (M * c ^ 2)) := by
  have hMR : (0 : ℝ) < M := by exact_mod_cast hM
  have e : (fun ω => (r ω).power.getD k 0) = fun ω => (1 / M : ℝ) * ∑ i ∈ range M, (ri i ω).power.getD k 0 := by
    funext ω
    rw [C163_mean_of_runs lib a hco hcut V hV hpk M N hM hN hshape hw _ (r ω) (hr ω) (fun i => ri i ω) (fun i _ => hri i ω) k hk]
    ring
  have hint : ∀ i ∈ range M, Integrable (fun ω => (ri i ω).power.getD k 0) μ := fun i hi => (hfin i (mem_range.mp hi)).integrable (by norm_num)
  have hL : MemLp (fun ω => (r ω).power.getD k 0) 2 μ := by
    rw [e]
    exact (memLp_finset_sum (range M) fun i hi => hfin i (mem_range.mp hi)).const_mul _
  have hE : ∫ ω, (r ω).power.getD k 0 ∂μ = (∑ i ∈ range M, ∫ ω', (ri i ω').power.getD k 0 ∂μ) / M := by
    rw [e, integral_const_mul, integral_finset_sum _ hint]
    ring
  have hch := meas_ge_le_variance_div_sq hL hc
  rw [hE] at hch
  refine hch.trans (ENNReal.ofReal_le_ofReal ?_)
  rw [C163_variance μ lib a hco hcut V hV hpk M N hM hN hshape hw x Z hind r hr ri hri k hk hfin]
  have hsum : ∑ i ∈ range M, Var[fun ω => (ri i ω).power.getD k 0; μ] ≤ M * s := by
    refine (sum_le_sum fun i hi => hs i (mem_range.mp hi)).trans (le_of_eq ?_)
    simp
  have h1 : (∑ i ∈ range M, Var[fun ω => (ri i ω).power.getD k 0; μ]) / M / M / c ^ 2 ≤ M * s / M / M / c ^ 2 := by gcongr
  refine h1.trans (le_of_eq ?_)
  field_simp

end Random

/-! ## Example -/

private theorem draws_cov {Ω : Type} [MeasurableSpace Ω] {μ : Measure Ω} [IsProbabilityMeasure μ] (Z : ℕ → Ω → ℝ) (h1 : ∀ i, MemLp (Z i) 2 μ) (h2 : ∀ i, ∫ ω, Z i ω ∂μ = 0)
    (h3 : ∀ i, Var[Z i; μ] = 1) (h4 : Pairwise fun i j => IndepFun (Z i) (Z j) μ) (i j : ℕ) : ∫ ω, Z i ω * Z j ω ∂μ = if i = j then 1 else 0 := by
  split_ifs with e
  · subst e
    have := variance_eq_sub (h1 i)
    rw [h2 i, h3 i] at this
    simp only [pow_two] at this ⊢
    simpa using this.symm
  · have := (h4 e).integral_fun_mul_eq_mul_integral (h1 i).1 (h1 j).1
    rw [this, h2 i, zero_mul]

private theorem table_ok (lib : WinLib) (M : ℕ) (hM : M = 1 ∨ M = 2 ∨ M = 3) (x : ℕ → ℕ → ℝ) :
    ∃ r, computeSpectrum lib (runTable M 64 x) { scale := .scalar 2 } = .ok r := by
  have hhead : ((runTable M 64 x).headD []).length = 64 := by
    rcases hM with rfl | rfl | rfl <;> unfold runTable <;> simp [List.range_succ_eq_map]
  have hlen : (runTable M 64 x).length = M := by simp [runTable]
  obtain ⟨d, hd, hl⟩ : ∃ d, prepareFftInput (runTable M 64 x) (.scalar 2) = .ok d ∧ 0 < (d.headD []).length := by
    refine ⟨_, rfl, ?_⟩
    unfold orient
    simp only
    rcases hM with rfl | rfl | rfl <;> rw [hhead, hlen] <;> unfold runTable <;> simp [removeDc, List.range_succ_eq_map]
  exact (C63_compute_spectrum_total lib _ { scale := .scalar 2 } d hd hl).mpr ⟨by norm_num, by norm_num, by norm_num, by norm_num⟩

/-- Three runs of 64 samples of a sine with normal noise of rms 1, Hann window, full scale 2: bin 10 gains `4 / (4 · 64) = 1/64` on average. -/
example (lib : WinLib) : ∃ (Ω : Type) (_ : MeasurableSpace Ω) (μ : Measure Ω) (_ : IsProbabilityMeasure μ) (r0 : SpectrumResult) (r : Ω → SpectrumResult),
    computeSpectrum lib (runTable 3 64 fun _ m => Real.cos (2 * Real.pi * (5 * m / 64))) { scale := .scalar 2 } = .ok r0 ∧
    ∫ ω, (r ω).power.getD 10 0 ∂μ = r0.power.getD 10 0 + 1 / 64 := by
  obtain ⟨Ω, mΩ, μ, hμ, Z, h1, h2, h3, h4, _⟩ := exists_normal_draws
  obtain ⟨r0, hr0⟩ := table_ok lib 3 (by simp) fun _ m => Real.cos (2 * Real.pi * (5 * m / 64))
  choose r hr using fun ω => table_ok lib 3 (by simp) fun i m => Real.cos (2 * Real.pi * (5 * m / 64)) + Z (Nat.pair i m) ω
  refine ⟨Ω, mΩ, μ, hμ, r0, r, hr0, ?_⟩
  rw [C163_flat μ lib { scale := .scalar 2 } rfl le_rfl (by decide) (by decide) 2 (by norm_num) (fun _ => rfl) 3 64 (by norm_num) (by norm_num) (by norm_num) (by decide)
    (fun _ m => Real.cos (2 * Real.pi * (5 * m / 64))) (fun i m => Z (Nat.pair i m)) 1 (fun _ _ => h1 _) (fun _ _ => h2 _)
    (fun i m l => by rw [draws_cov Z h1 h2 h3 h4]; simp [Nat.pair_eq_pair]) r0 hr0 r hr 10 (by decide) (by norm_num)]
  norm_num [binWeight]

/-- Two runs of 64 samples of a sine; in each run a coin decides the sign of an alternating disturbance. The bins of the average scatter with half the mean
variance, and stray far from their mean with small probability. -/
example (lib : WinLib) (P : Measure Bool) [IsProbabilityMeasure P] : ∃ (r : Bool × Bool → SpectrumResult) (ri : ℕ → Bool × Bool → SpectrumResult),
    ∀ k ≤ 32, Var[fun ω => (r ω).power.getD k 0; P.prod P] = (Var[fun ω => (ri 0 ω).power.getD k 0; P.prod P] + Var[fun ω => (ri 1 ω).power.getD k 0; P.prod P]) / 2 / 2 ∧
      ∀ c > 0, (P.prod P) {ω | c ≤ |(r ω).power.getD k 0 - (∑ i ∈ range 2, ∫ ω', (ri i ω').power.getD k 0 ∂(P.prod P)) / (2 : ℕ)|} ≤
        ENNReal.ofReal ((Var[fun ω => (ri 0 ω).power.getD k 0; P.prod P] + Var[fun ω => (ri 1 ω).power.getD k 0; P.prod P]) / ((2 : ℕ) * c ^ 2)) := by
  let x : ℕ → ℕ → ℝ := fun _ m => Real.cos (2 * Real.pi * (5 * m / 64))
  let c : Bool → ℕ → ℝ := fun b m => if b then (-1) ^ m else -(-1) ^ m
  let Z : ℕ → ℕ → Bool × Bool → ℝ := fun i m ω => if i = 0 then c ω.1 m else c ω.2 m
  choose r hr using fun ω => table_ok lib 2 (by simp) fun i m => x i m + Z i m ω
  choose ri hri using fun i ω => table_ok lib 1 (by simp) fun _ m => x i m + Z i m ω
  refine ⟨r, ri, fun k hk => ?_⟩
  have h01 : IndepFun (fun ω m => Z 0 m ω) (fun ω m => Z 1 m ω) (P.prod P) :=
    indepFun_prod (X := c) (Y := c) (measurable_of_finite _) (measurable_of_finite _)
  have hind : ∀ i < 2, ∀ j < 2, i ≠ j → IndepFun (fun ω m => Z i m ω) (fun ω m => Z j m ω) (P.prod P) := by
    intro i hi j hj hij
    have : i = 0 ∧ j = 1 ∨ i = 1 ∧ j = 0 := by omega
    rcases this with ⟨rfl, rfl⟩ | ⟨rfl, rfl⟩
    · exact h01
    · exact h01.symm
  have hm := (C26_default_side_bin_covers_lobe lib "hann" (by decide) (by decide) 64 (by norm_num) (by decide)).mean
  constructor
  · have h := C163_variance (P.prod P) lib { scale := .scalar 2 } rfl le_rfl 2 (by norm_num) (fun _ => rfl) 2 64 (by norm_num) (by norm_num) (by norm_num) hm x Z hind r hr ri hri k
      (by omega) (fun _ _ => MemLp.of_discrete)
    rw [h, sum_range_succ, sum_range_one]
    norm_num
  · intro e he
    refine C163_settles (P.prod P) lib { scale := .scalar 2 } rfl le_rfl 2 (by norm_num) (fun _ => rfl) 2 64 (by norm_num) (by norm_num) (by norm_num) hm x Z hind r hr ri hri k
      (by omega) (fun _ _ => MemLp.of_discrete) _ ?_ e he
    intro i hi
    have n0 := variance_nonneg (fun ω => (ri 0 ω).power.getD k 0) (P.prod P)
    have n1 := variance_nonneg (fun ω => (ri 1 ω).power.getD k 0) (P.prod P)
    interval_cases i <;> linarith

end Verif
