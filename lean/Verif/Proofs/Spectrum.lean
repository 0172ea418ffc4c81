import Verif.Model.Spectrum
import Verif.Proofs.SpectrumBins
import Verif.Theorems.BinRanges
import Verif.Theorems.SpectrumBins

/-!
# Helper lemmas for the spectrum engine
-/

namespace Verif

open Model Finset

theorem dB_mono {x y : ℝ} (hx : 0 ≤ x) (h : x ≤ y) : dB x ≤ dB y := by
  unfold dB
  split_ifs with h1 h2 h2
  · exact le_rfl
  · exact bot_le
  · exact absurd (le_antisymm (h2 ▸ h) hx) h1
  · rw [EReal.coe_le_coe_iff]
    apply mul_le_mul_of_nonneg_left _ (by norm_num)
    exact Real.logb_le_logb_of_le (by norm_num) (lt_of_le_of_ne hx (Ne.symm h1)) h

theorem dB_pos {x : ℝ} (hx : 0 < x) : dB x = ((10 * Real.logb 10 x : ℝ) : EReal) := by
  unfold dB; rw [if_neg hx.ne']

theorem oneSided_nonneg (N k : ℕ) (v : ℝ) (h : 0 ≤ v) : 0 ≤ oneSided N k v := by
  unfold oneSided
  simp only
  split_ifs <;> linarith

theorem powerAverage_length (r : List (ℕ → ℝ)) (N : ℕ) : (powerAverage r N).length = N / 2 + 1 := by simp [powerAverage]

theorem coherentAverage_length (r : List (ℕ → ℝ)) (N n : ℕ) : (coherentAverage r N n).length = N / 2 + 1 := by
  simp [coherentAverage]

theorem powerAverage_nonneg (r : List (ℕ → ℝ)) (N : ℕ) : NonnegSpec (powerAverage r N) := by
  intro v hv
  unfold powerAverage at hv
  rw [List.mem_map] at hv
  obtain ⟨k, _, rfl⟩ := hv
  apply oneSided_nonneg
  apply div_nonneg (div_nonneg _ (by positivity)) (by positivity)
  apply List.sum_nonneg
  intro x hx
  rw [List.mem_map] at hx
  obtain ⟨y, _, rfl⟩ := hx
  positivity

theorem coherentAverage_nonneg (r : List (ℕ → ℝ)) (N n : ℕ) : NonnegSpec (coherentAverage r N n) := by
  intro v hv
  unfold coherentAverage at hv
  rw [List.mem_map] at hv
  obtain ⟨k, _, rfl⟩ := hv
  apply oneSided_nonneg
  positivity

theorem powerCorrection_nonneg (w : ℕ → ℝ) (N : ℕ) : 0 ≤ powerCorrection (windowGain w N) (windowEnbw w N) := by
  unfold powerCorrection windowGain windowEnbw
  have : 0 ≤ ∑ n ∈ range N, w n ^ 2 := sum_nonneg fun n _ => sq_nonneg _
  positivity

theorem rawSpectrum_length (lib : WinLib) (a : SpectrumArgs) (d : List (List ℝ)) (N n : ℕ) :
    (rawSpectrum lib a d N n).length = N / 2 + 1 := by
  unfold rawSpectrum
  simp only [List.length_map]
  split_ifs
  · exact coherentAverage_length _ _ _
  · exact powerAverage_length _ _

theorem rawSpectrum_nonneg (lib : WinLib) (a : SpectrumArgs) (d : List (List ℝ)) (N n : ℕ) :
    NonnegSpec (rawSpectrum lib a d N n) := by
  intro v hv
  unfold rawSpectrum at hv
  simp only [List.mem_map] at hv
  obtain ⟨u, hu, rfl⟩ := hv
  apply mul_nonneg _ (powerCorrection_nonneg _ _)
  split_ifs at hu
  · exact coherentAverage_nonneg _ _ _ u hu
  · exact powerAverage_nonneg _ _ u hu

theorem applyCutoff_length (p : List ℝ) (c fs : ℝ) (N : ℕ) : (applyCutoff p c fs N).length = p.length := by
  unfold applyCutoff
  split_ifs <;> simp

theorem applyCutoff_nonneg (p : List ℝ) (hp : NonnegSpec p) (c fs : ℝ) (N : ℕ) : NonnegSpec (applyCutoff p c fs N) := by
  intro v hv
  unfold applyCutoff at hv
  split_ifs at hv
  · rw [List.mem_mapIdx] at hv
    obtain ⟨i, hi, rfl⟩ := hv
    split_ifs
    · positivity
    · exact hp _ (List.getElem_mem hi)
  · exact hp v hv

/-- What a successful `spectrumMetrics` went through. -/
theorem spectrumMetrics_ok (lib : WinLib) (a : SpectrumArgs) (M N n : ℕ) (p : List ℝ) (r : SpectrumResult)
    (h : spectrumMetrics lib a M N n p = .ok r) :
    ∃ hs spur noise, locateHarmonicBins (locateFundamental p n).2 a.maxHarmonic N = .ok hs ∧
      extractHighestSpur p (sideBinOf lib a N n p) n ((locateFundamental p n).1 - sideBinOf lib a N n p)
        (min ((locateFundamental p n).1 + sideBinOf lib a N n p + 1) n) = .ok spur ∧
      estimateNoisePower p a.nfMethod n M (locateFundamental p n).1 hs (sideBinOf lib a N n p) = .ok noise ∧
      r = assemble a M N n p (sideBinOf lib a N n p) hs spur noise := by
  unfold spectrumMetrics at h
  simp only at h
  split at h
  · simp at h
  · rename_i hs hhs
    split at h
    · simp at h
    · rename_i spur hspur
      split at h
      · simp at h
      · rename_i noise hnoise
        injection h with h
        exact ⟨hs, spur, noise, hhs, hspur, hnoise, h.symm⟩

/-- What a successful `computeSpectrum` went through: a non-negative one-sided spectrum with all in-band bins present. -/
theorem computeSpectrum_ok (lib : WinLib) (data : List (List ℝ)) (a : SpectrumArgs) (r : SpectrumResult)
    (h : computeSpectrum lib data a = .ok r) :
    ∃ d n, prepareFftInput data a.scale = .ok d ∧ rfftInbandBinCount (((d.headD []).length : ℕ) : ℤ) a.osr = .ok n ∧
      1 ≤ n ∧ n ≤ r.power.length ∧ r.power.length = (d.headD []).length / 2 + 1 ∧ 0 < (d.headD []).length ∧ 0 < a.osr ∧
      NonnegSpec r.power ∧
      r.power = applyCutoff (rawSpectrum lib a d (d.headD []).length n) a.cutoff a.fs (d.headD []).length ∧
      spectrumMetrics lib a d.length (d.headD []).length n r.power = .ok r := by
  unfold computeSpectrum at h
  split at h
  · simp at h
  · rename_i d hd
    simp only at h
    split at h
    · simp at h
    · rename_i n hn
      have hN : 0 < (d.headD []).length ∧ 0 < a.osr := by
        by_contra hc
        have he := (C25_error_iff (((d.headD []).length : ℕ) : ℤ) a.osr .valueError).mpr ⟨by
          by_contra hc2
          push Not at hc2
          exact hc ⟨by exact_mod_cast hc2.1, hc2.2⟩, rfl⟩
        rw [hn] at he
        simp at he
      obtain ⟨c, hc, hc1, hc2⟩ := C25_count_range (((d.headD []).length : ℕ) : ℤ) a.osr (by exact_mod_cast hN.1) hN.2
      have hnc : n = c := by rw [hn] at hc; injection hc
      subst hnc
      have hpow : r.power = applyCutoff (rawSpectrum lib a d (d.headD []).length n) a.cutoff a.fs (d.headD []).length := by
        obtain ⟨hs, spur, noise, _, _, _, hr⟩ := spectrumMetrics_ok _ _ _ _ _ _ _ h
        rw [hr]; rfl
      have hl : r.power.length = (d.headD []).length / 2 + 1 := by
        rw [hpow, applyCutoff_length, rawSpectrum_length]
      refine ⟨d, n, hd, hn, hc1, by omega, hl, hN.1, hN.2, ?_, hpow, ?_⟩
      · rw [hpow]; exact applyCutoff_nonneg _ (rawSpectrum_nonneg _ _ _ _ _) _ _ _
      · rw [hpow]; exact h

theorem signalPower_nonneg (p : List ℝ) (hp : NonnegSpec p) (n sb f : ℕ) : 0 ≤ signalPower p n sb f := by
  unfold signalPower
  rw [slice_sum]
  exact sum_nonneg fun i _ => getD_nonneg p hp i

theorem noiseAndDistortion_nonneg (p : List ℝ) (hp : NonnegSpec p) (n sb f : ℕ) (hn : n ≤ p.length) :
    0 ≤ noiseAndDistortion p n sb f := by
  rw [C28_noise_and_distortion_spec p n sb f hn]
  exact sum_nonneg fun i _ => getD_nonneg p hp i

theorem locateHarmonicBins_ok (f : ℝ) (H N : ℕ) (hH : 1 ≤ H) (hN : 0 < N) : ∃ hs, locateHarmonicBins f H N = .ok hs := by
  have hfold : ∀ b : ℝ, ∃ r, foldBin b N = .ok r := by
    intro b
    unfold foldBin
    rw [if_neg (by omega)]
    simp only
    split_ifs <;> exact ⟨_, rfl⟩
  unfold locateHarmonicBins
  rw [if_neg (by omega)]
  generalize List.range (H - 1) = l
  induction l with
  | nil => exact ⟨[], rfl⟩
  | cons i l ih =>
    obtain ⟨hs, hhs⟩ := ih
    obtain ⟨r, hr⟩ := hfold (f * ((i + 2 : ℕ) : ℝ))
    rw [List.mapM_cons, hr, hhs]
    exact ⟨_, rfl⟩

end Verif
