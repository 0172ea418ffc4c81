import Verif.Proofs.MultiTone
import Verif.Theorems.SpectrumReport
import Verif.Theorems.SpectrumFigure
import Verif.Theorems.Noise

/-!
# C109: compute_spectrum reads a multi-tone record exactly
-/

namespace Verif

open Model Finset Spec

namespace Spec

/-- A test signal and an analysis that fit each other: coherent tones with bins `S` and amplitudes `amp`, full scale `V`, a cosine-sum window with its default side
bin `m`, `n` in-band bins. No lobe straddles the band edge. The tone in bin `b0` is the strongest one in band. -/
structure ToneTest (a : SpectrumArgs) (N n : ℕ) (V : ℝ) (S : Finset ℕ) (amp : ℕ → ℝ) (b0 : ℕ) : Prop where
  kaiser : a.win ≠ "kaiser"
  chebwin : a.win ≠ "chebwin"
  side : a.sideBin = some (defaultSideBin a.win)
  average : a.coherent = false
  cutoff : a.cutoff = 0
  assumed : a.assumed = none
  inband : rfftInbandBinCount (N : ℤ) a.osr = .ok n
  full : 0 < V
  sep : Separated N (defaultSideBin a.win) S
  edge : ∀ b ∈ S, b + defaultSideBin a.win < n ∨ n ≤ b - defaultSideBin a.win
  carrier : b0 ∈ S
  carrier_in : b0 < n
  amp_pos : ∀ b ∈ S, 0 < amp b
  strongest : ∀ b ∈ S, b < n → b ≠ b0 → amp b < amp b0
  loud : 1 / 10 ^ 15 < amp b0 / V

/-- The in-band tones other than the carrier. -/
def others (S : Finset ℕ) (n b0 : ℕ) : Finset ℕ := S.filter fun b => b < n ∧ b ≠ b0

/-- Every searched harmonic bin is either the bin of a tone or more than two lobe half-widths away from every tone. -/
def CleanHarmonics (S : Finset ℕ) (m : ℕ) (hs : List ℤ) : Prop := ∀ h ∈ hs, (∃ b ∈ S, h = (b : ℤ)) ∨ ∀ b ∈ S, 2 * (m : ℤ) < |h - b|

/-- Runs of the same tones, each run with phases and a DC level of its own. -/
noncomputable def tonesData (N : ℕ) (S : Finset ℕ) (amp : ℕ → ℝ) (R : List ((ℕ → ℝ) × ℝ)) : List (List ℝ) := R.map fun q => tonesRow N S amp q.1 q.2

end Spec

private theorem prepare_data (N m : ℕ) (S : Finset ℕ) (hS : Separated N m S) (amp : ℕ → ℝ) (b0 : ℕ) (hb0 : b0 ∈ S) (R : List ((ℕ → ℝ) × ℝ)) (hR : R ≠ [])
    (hRN : R.length ≤ 2 * N) (V : ℝ) (hV : V ≠ 0) (sc : ScaleRange ℝ) (hsc : peakAmplitude (tonesData N S amp R) sc = .ok V) :
    prepareFftInput (tonesData N S amp R) sc = .ok (R.map fun q => tonesRow N S (fun b => amp b / V) q.1 0) := by
  have h2 := hS.nyquist b0 hb0
  have h3 := hS.dc b0 hb0
  have hcols : ((tonesData N S amp R).headD []).length = N := by
    cases R with
    | nil => exact absurd rfl hR
    | cons q R => simp [tonesData, tonesRow_length]
  have hrows : (tonesData N S amp R).length = R.length := by simp [tonesData]
  have ho : orient (tonesData N S amp R) = tonesData N S amp R := by
    unfold orient
    simp only
    rw [hcols, hrows, if_neg (by omega), if_neg (by omega)]
  unfold prepareFftInput
  simp only [ho, hsc]
  congr 1
  unfold tonesData
  rw [List.map_map]
  apply List.map_congr_left
  intro q _
  simp only [Function.comp]
  rw [if_pos hV]
  exact prepare_tonesRow N S amp q.1 q.2 V (by omega) (fun b hb => ⟨by have := hS.dc b hb; omega, by have := hS.nyquist b hb; omega⟩) hV

private theorem core (lib : WinLib) (a : SpectrumArgs) (N n : ℕ) (V : ℝ) (S : Finset ℕ) (amp : ℕ → ℝ) (b0 : ℕ) (t : ToneTest a N n V S amp b0)
    (R : List ((ℕ → ℝ) × ℝ)) (hR : R ≠ []) (hRN : R.length ≤ 2 * N) (hV : peakAmplitude (tonesData N S amp R) a.scale = .ok V)
    (r : SpectrumResult) (h : computeSpectrum lib (tonesData N S amp R) a = .ok r) :
    (∃ g, Comb r.power N S (fun b => amp b / V) (defaultSideBin a.win) g (1 / windowEnbw (windowVector lib a.win N) N)) ∧ n ≤ N / 2 + 1 ∧ r.N = N ∧
      NonnegSpec r.power ∧ r.fundamentalBin = b0 ∧ r.fundamentalFrac = b0 ∧ r.sigPwr = 20 * Real.logb 10 (amp b0 / V) ∧
      spectrumMetrics lib a R.length N n r.power = .ok r := by
  set m := defaultSideBin a.win with hm
  have h2 := t.sep.nyquist b0 t.carrier
  have h3 := t.sep.dc b0 t.carrier
  have hprep := prepare_data N m S t.sep amp b0 t.carrier R hR hRN V t.full.ne' a.scale hV
  obtain ⟨d, n', hd, hn', _, hnl, hpl, _, _, hnn, hpow, hmet⟩ := computeSpectrum_ok lib _ a r h
  have hdd : d = R.map fun q => tonesRow N S (fun b => amp b / V) q.1 0 := by rw [hprep] at hd; injection hd with h; exact h.symm
  have hcols : (d.headD []).length = N := by
    rw [hdd]
    cases R with
    | nil => exact absurd rfl hR
    | cons q R => simp [tonesRow_length]
  have hrows : d.length = R.length := by rw [hdd]; simp
  rw [hcols] at hn' hpow hmet hpl
  have hnn' : n' = n := by
    have := t.inband
    rw [this] at hn'
    injection hn' with h
    exact h.symm
  subst hnn'
  rw [hrows] at hmet
  have hw := C26_default_side_bin_covers_lobe lib a.win t.kaiser t.chebwin N (by omega) (by omega)
  have hp : r.power = (powerAverage (runsOf ((R.map Prod.fst).map fun φ => tonesRow N S (fun b => amp b / V) φ 0) (windowVector lib a.win N)) N).map
      (· * powerCorrection (windowGain (windowVector lib a.win N) N) (windowEnbw (windowVector lib a.win N) N)) := by
    rw [hpow]
    unfold applyCutoff rawSpectrum
    rw [if_neg (by rw [t.cutoff]; exact lt_irrefl 0)]
    simp only [t.average, Bool.false_eq_true, if_false]
    rw [hdd, List.map_map]
    rfl
  obtain ⟨g, c⟩ := tones_comb N m (by omega) S t.sep (fun b => amp b / V) (R.map Prod.fst) (by simpa using hR) (windowVector lib a.win N) hw r.power hp
  have hA : 0 < amp b0 / V := lt_trans (by positivity) t.loud
  have hb0n : b0 + m < n' := by
    have := t.edge b0 t.carrier
    have := t.carrier_in
    omega
  have hfund : fundamentalBin r.power n' = b0 := by
    obtain ⟨f1, f2, f3, _⟩ := C27_fundamental_strongest r.power n' hnl (by omega)
    have h5 := f3 b0 (by omega) (by omega)
    obtain ⟨k1, k2⟩ := c.strongest b0 t.carrier hA (fundamentalBin r.power n') (by omega) (by
      intro b' hb' hk
      rw [abs_of_pos (div_pos (t.amp_pos b' hb') t.full)]
      apply div_le_div_of_nonneg_right _ t.full.le
      by_cases he : b' = b0
      · rw [he]
      · apply (t.strongest b' hb' _ he).le
        rw [mem_lobe] at hk
        have := t.edge b' hb'
        omega) h5
    by_contra hne
    rw [abs_of_pos (div_pos (t.amp_pos _ k1) t.full)] at k2
    have h6 := t.strongest _ k1 f2 hne
    have := div_lt_div_of_pos_right h6 t.full
    linarith
  have hfrac : (locateFundamental r.power n').2 = b0 := by
    unfold locateFundamental
    simp only
    rw [hfund]
    unfold refineBin
    simp only
    have hfl := c.flanks b0 t.carrier
    split_ifs with g1 g2 g3
    · rfl
    · rw [List.length_take] at g1
      have e : ((r.power.take n').getD (b0 - 1) 0) = (r.power.take n').getD (b0 + 1) 0 := by
        rw [take_getD, take_getD, if_pos (by omega), if_pos (by omega), hfl]
      rw [e, sub_self, zero_div, add_zero]
    · rfl
    · rfl
  obtain ⟨bins, spur, noise, _, _, _, hr⟩ := spectrumMetrics_ok _ _ _ _ _ _ _ hmet
  have hsb' : sideBinOf lib a N n' r.power = m := by unfold sideBinOf; rw [t.side]
  rw [hsb'] at hr
  refine ⟨⟨g, c⟩, by omega, by rw [hr]; rfl, hnn, ?_, ?_, ?_, hmet⟩
  · rw [hr]
    exact hfund
  · rw [hr]
    exact hfrac
  · have e : r.sigPwr = sigPwrDbfs a (signalPower r.power n' m (locateFundamental r.power n').1) := by
      conv_lhs => rw [hr]
      rfl
    have hsig : signalPower r.power n' m b0 = (amp b0 / V) ^ 2 := by
      have hs := c.power_eq (lobe b0 m) (by intro k hk; rw [mem_lobe] at hk; omega) (by
        intro b hb
        by_cases he : b = b0
        · exact Or.inl (by rw [he])
        · right
          rw [disjoint_left]
          intro k hk hk'
          rw [mem_lobe] at hk hk'
          rcases lt_or_gt_of_ne he with hh | hh
          · have := t.sep.apart b hb b0 t.carrier hh
            omega
          · have := t.sep.apart b0 t.carrier b hb hh
            omega)
      have hfil : S.filter (· ∈ lobe b0 m) = {b0} := by
        ext b
        rw [mem_filter, mem_singleton, mem_lobe]
        constructor
        · rintro ⟨hb, hx⟩
          by_contra he
          rcases lt_or_gt_of_ne he with hh | hh
          · have := t.sep.apart b hb b0 t.carrier hh
            omega
          · have := t.sep.apart b0 t.carrier b hb hh
            omega
        · rintro rfl
          exact ⟨t.carrier, by omega⟩
      rw [hfil, sum_singleton] at hs
      rw [← hs]
      unfold signalPower power
      rw [slice_sum]
      congr 1
      ext k
      rw [mem_Ico, mem_lobe]
      omega
    rw [e, show (locateFundamental r.power n').1 = b0 from hfund, hsig]
    unfold sigPwrDbfs
    rw [t.assumed]
    simp only
    rw [max_eq_left, Real.logb_pow]
    · push_cast
      ring
    · calc (1 : ℝ) / 10 ^ 30 = (1 / 10 ^ 15) ^ 2 := by norm_num
        _ ≤ (amp b0 / V) ^ 2 := pow_le_pow_left₀ (by positivity) t.loud.le 2

section

variable (lib : WinLib) (a : SpectrumArgs) (N n : ℕ) (V : ℝ) (S : Finset ℕ) (amp : ℕ → ℝ) (b0 : ℕ) (t : ToneTest a N n V S amp b0)
    (R : List ((ℕ → ℝ) × ℝ)) (hR : R ≠ []) (hRN : R.length ≤ 2 * N) (hV : peakAmplitude (tonesData N S amp R) a.scale = .ok V)
    (r : SpectrumResult) (h : computeSpectrum lib (tonesData N S amp R) a = .ok r)

include t hR hRN hV h

/-- **C109 (carrier).** The strongest in-band tone is reported in its own bin, without interpolation error, at `20·log10(A/V)` dBFS, whatever else is in the record,
whatever the phases, and for any number of unsynchronised runs. -/
theorem C109_carrier : r.fundamentalBin = b0 ∧ r.fundamentalFrac = b0 ∧ r.sigPwr = 20 * Real.logb 10 (amp b0 / V) := by
  obtain ⟨_, _, _, _, h1, h2, h3, _⟩ := core lib a N n V S amp b0 t R hR hRN hV r h
  exact ⟨h1, h2, h3⟩

private theorem ledger : ∃ g, Comb r.power N S (fun b => amp b / V) (defaultSideBin a.win) g (1 / windowEnbw (windowVector lib a.win N) N) ∧ n ≤ N / 2 + 1 ∧
      b0 + defaultSideBin a.win < n ∧
      r.sndr = ((r.sigPwr - level (power (fun i => r.power.getD i 0) (nadBins n (defaultSideBin a.win) b0) + 1 / 10 ^ 20) : ℝ) : EReal) ∧
      r.sfdr = some (if power (fun i => r.power.getD i 0) (lobe r.spurBin (defaultSideBin a.win) ∩ nadBins n (defaultSideBin a.win) b0) = 0 then ⊤
        else ((r.sigPwr - level (power (fun i => r.power.getD i 0) (lobe r.spurBin (defaultSideBin a.win) ∩ nadBins n (defaultSideBin a.win) b0)) : ℝ) : EReal)) ∧
      r.thd = some ((level (max (power (fun i => r.power.getD i 0) (thdBins r.power.length b0 (defaultSideBin a.win) r.harmonicBins)) (1 / 10 ^ 15)) - r.sigPwr : ℝ) : EReal) ∧
      ∃ hl : List EReal, r.harmonics = some hl ∧ hl.length = r.harmonicBins.length ∧ ∀ i < r.harmonicBins.length,
        hl.getD i 0 = ((if 2 * ((defaultSideBin a.win : ℕ) : ℤ) < |r.harmonicBins.getD i 0 - b0| ∧ ((defaultSideBin a.win : ℕ) : ℤ) < r.harmonicBins.getD i 0 then
          level (max (power (fun j => r.power.getD j 0) (harmonicLobe r.power.length (defaultSideBin a.win) (r.harmonicBins.getD i 0))) (1 / 10 ^ 15)) - r.sigPwr
          else -150 - r.sigPwr : ℝ) : EReal) := by
  obtain ⟨⟨g, c⟩, hn, hN, _, h1, _, h3, _⟩ := core lib a N n V S amp b0 t R hR hRN hV r h
  have hlev : -300 < r.sigPwr := by
    rw [h3]
    have := Real.logb_lt_logb (b := 10) (by norm_num) (by positivity) t.loud
    rw [one_div, Real.logb_inv, Real.logb_pow, Real.logb_self_eq_one (by norm_num)] at this
    push_cast at this
    linarith
  obtain ⟨n', sb, e1, e2, _, e3⟩ := C62_decibel_ledger lib _ a r h (Or.inr hlev)
  have hnn : n' = n := by
    rw [hN, t.inband] at e1
    injection e1 with e
    exact e.symm
  have hsb : sb = defaultSideBin a.win := by rw [e2]; unfold sideBinOf; rw [t.side]
  rw [hnn, hsb, h1] at e3
  refine ⟨g, c, hn, ?_, e3⟩
  have := t.edge b0 t.carrier
  have := t.carrier_in
  omega

omit hR hRN hV h in
/-- The noise-and-distortion bins contain every other in-band lobe and cut none. -/
private theorem nad_lobes : (∀ b ∈ S, b ∈ nadBins n (defaultSideBin a.win) b0 ↔ b < n ∧ b ≠ b0) ∧
    ∀ b ∈ S, lobe b (defaultSideBin a.win) ⊆ nadBins n (defaultSideBin a.win) b0 ∨ Disjoint (lobe b (defaultSideBin a.win)) (nadBins n (defaultSideBin a.win) b0) := by
  have hmem : ∀ k, k ∈ nadBins n (defaultSideBin a.win) b0 ↔ k < n ∧ defaultSideBin a.win < k ∧ ¬ (b0 - defaultSideBin a.win ≤ k ∧ k ≤ b0 + defaultSideBin a.win) := by
    intro k
    unfold nadBins dcLobe lobe
    simp only [mem_sdiff, mem_range, mem_Icc]
    omega
  have hsp : ∀ b ∈ S, b ≠ b0 → b + 2 * defaultSideBin a.win < b0 ∨ b0 + 2 * defaultSideBin a.win < b := by
    intro b hb hne
    rcases lt_or_gt_of_ne hne with hh | hh
    · have := t.sep.apart b hb b0 t.carrier hh
      omega
    · have := t.sep.apart b0 t.carrier b hb hh
      omega
  constructor
  · intro b hb
    rw [hmem]
    constructor
    · rintro ⟨q1, q2, q3⟩
      exact ⟨q1, by rintro rfl; omega⟩
    · rintro ⟨q1, q2⟩
      have := hsp b hb q2
      have := t.sep.dc b hb
      omega
  · intro b hb
    have h3 := t.sep.dc b hb
    have h4 := t.edge b hb
    by_cases he : b = b0
    · right
      rw [disjoint_left]
      intro k hk hk'
      rw [mem_lobe, he] at hk
      rw [hmem] at hk'
      omega
    · have h5 := hsp b hb he
      rcases h4 with h4 | h4
      · left
        intro k hk
        rw [mem_lobe] at hk
        rw [hmem]
        omega
      · right
        rw [disjoint_left]
        intro k hk hk'
        rw [mem_lobe] at hk
        rw [hmem] at hk'
        omega

private theorem nad_power : ∃ g, Comb r.power N S (fun b => amp b / V) (defaultSideBin a.win) g (1 / windowEnbw (windowVector lib a.win N) N) ∧
    power (fun i => r.power.getD i 0) (nadBins n (defaultSideBin a.win) b0) = ∑ b ∈ others S n b0, (amp b / V) ^ 2 := by
  obtain ⟨g, c, hn, _, _⟩ := ledger lib a N n V S amp b0 t R hR hRN hV r h
  obtain ⟨q1, q2⟩ := nad_lobes a N n V S amp b0 t
  refine ⟨g, c, ?_⟩
  rw [c.power_eq _ _ q2]
  · congr 1
    unfold others
    ext b
    rw [mem_filter, mem_filter]
    constructor
    · rintro ⟨hb, hx⟩
      exact ⟨hb, (q1 b hb).mp hx⟩
    · rintro ⟨hb, hx⟩
      exact ⟨hb, (q1 b hb).mpr hx⟩
  · intro k hk
    unfold nadBins at hk
    simp only [mem_sdiff, mem_range] at hk
    omega

/-- **C109 (SNDR).** SNDR is the power of the carrier over the summed powers of the other in-band tones, up to the `1e-20` that keeps the quotient finite. -/
theorem C109_sndr : r.sndr = ((level ((amp b0 / V) ^ 2) - level ((∑ b ∈ others S n b0, (amp b / V) ^ 2) + 1 / 10 ^ 20) : ℝ) : EReal) := by
  obtain ⟨_, _, _, _, e, _⟩ := ledger lib a N n V S amp b0 t R hR hRN hV r h
  obtain ⟨_, _, e2⟩ := nad_power lib a N n V S amp b0 t R hR hRN hV r h
  have h3 := (C109_carrier lib a N n V S amp b0 t R hR hRN hV r h).2.2
  rw [e, e2, h3]
  unfold level
  rw [Real.logb_pow]
  congr 1
  push_cast
  ring

/-- **C109 (SFDR).** If there is another in-band tone, the reported spur bin is the bin of a strongest one and SFDR is the ratio of the two amplitudes in decibels. -/
theorem C109_sfdr (hex : (others S n b0).Nonempty) :
    r.spurBin ∈ others S n b0 ∧ (∀ b ∈ others S n b0, amp b ≤ amp r.spurBin) ∧ r.sfdr = some ((20 * Real.logb 10 (amp b0 / amp r.spurBin) : ℝ) : EReal) := by
  set m := defaultSideBin a.win with hm
  obtain ⟨g, c, hn, hb0n, _, e, _⟩ := ledger lib a N n V S amp b0 t R hR hRN hV r h
  obtain ⟨q1, q2⟩ := nad_lobes a N n V S amp b0 t
  obtain ⟨_, _, _, hnn, hf, _, h3, hmet⟩ := core lib a N n V S amp b0 t R hR hRN hV r h
  obtain ⟨bins, spur, noise, _, hs, _, hr⟩ := spectrumMetrics_ok _ _ _ _ _ _ _ hmet
  have hsb' : sideBinOf lib a N n r.power = m := by unfold sideBinOf; rw [t.side]
  have hfund : (locateFundamental r.power n).1 = b0 := by
    rw [← hf]
    conv_rhs => rw [hr]
    rfl
  have hspur : r.spurBin = spur.1 := by rw [hr]; rfl
  rw [hsb', hfund] at hs
  have hothers : ∀ b, b ∈ others S n b0 ↔ b ∈ S ∧ b ∈ nadBins n m b0 := by
    intro b
    unfold others
    rw [mem_filter]
    constructor
    · rintro ⟨hb, hx⟩
      exact ⟨hb, (q1 b hb).mpr hx⟩
    · rintro ⟨hb, hx⟩
      exact ⟨hb, (q1 b hb).mp hx⟩
  have hself : ∀ b, b ∈ lobe b m := fun b => by rw [mem_lobe]; omega
  have hmax := spur_max r.power hnn n m b0 (by rw [c.len]; omega) spur.1 spur.2 hs (by
    obtain ⟨b, hb⟩ := hex
    obtain ⟨hb1, hb2⟩ := (hothers b).mp hb
    refine ⟨b, hb2, ?_⟩
    rw [c.in_lobe b hb1 b (hself b), c.top b hb1]
    exact mul_pos (pow_pos (div_pos (t.amp_pos b hb1) t.full) 2) c.g0_pos)
  rw [← hspur] at hmax
  have hnadN : ∀ k ∈ nadBins n m b0, k ≤ N / 2 := by
    intro k hk
    unfold nadBins at hk
    simp only [mem_sdiff, mem_range] at hk
    omega
  obtain ⟨b1, hb1, hb1max⟩ := exists_max_image (others S n b0) amp hex
  obtain ⟨hb1S, hb1n⟩ := (hothers b1).mp hb1
  obtain ⟨k1, k2⟩ := c.strongest b1 hb1S (div_pos (t.amp_pos b1 hb1S) t.full) r.spurBin (hnadN _ hmax.1) (by
    intro b' hb' hk
    rw [abs_of_pos (div_pos (t.amp_pos b' hb') t.full)]
    apply div_le_div_of_nonneg_right _ t.full.le
    apply hb1max
    rw [hothers]
    refine ⟨hb', ?_⟩
    rcases q2 b' hb' with hq | hq
    · exact hq (hself b')
    · exact absurd hmax.1 (disjoint_left.mp hq hk)) (hmax.2 b1 hb1n)
  have hin : r.spurBin ∈ others S n b0 := (hothers _).mpr ⟨k1, hmax.1⟩
  rw [abs_of_pos (div_pos (t.amp_pos _ k1) t.full), div_left_inj' t.full.ne'] at k2
  refine ⟨hin, fun b hb => by rw [k2]; exact hb1max b hb, ?_⟩
  have hlobe : lobe r.spurBin m ∩ nadBins n m b0 = lobe r.spurBin m := by
    apply inter_eq_left.mpr
    rcases q2 _ k1 with hq | hq
    · exact hq
    · exact absurd hmax.1 (disjoint_left.mp hq (hself _))
  have hpw : power (fun i => r.power.getD i 0) (lobe r.spurBin m) = (amp r.spurBin / V) ^ 2 := by
    unfold power
    rw [sum_congr rfl fun k hk => c.in_lobe _ k1 k hk, ← mul_sum, c.total _ k1, mul_one]
  have hA : 0 < amp b0 := t.amp_pos _ t.carrier
  have hB : 0 < amp r.spurBin := t.amp_pos _ k1
  have hV0 := t.full
  rw [e, hlobe, hpw, if_neg (by positivity), h3]
  congr 2
  unfold level
  rw [Real.logb_pow, Real.logb_div hA.ne' hV0.ne', Real.logb_div hB.ne' hV0.ne', Real.logb_div hA.ne' hB.ne']
  push_cast
  ring

/-- **C109 (SFDR of a pure tone).** With no other in-band tone SFDR is infinite. -/
theorem C109_sfdr_pure (hex : others S n b0 = ∅) : r.sfdr = some ⊤ := by
  obtain ⟨g, c, hn, _, _, e, _⟩ := ledger lib a N n V S amp b0 t R hR hRN hV r h
  obtain ⟨_, _, _, hnn, _⟩ := core lib a N n V S amp b0 t R hR hRN hV r h
  obtain ⟨_, _, e2⟩ := nad_power lib a N n V S amp b0 t R hR hRN hV r h
  rw [hex, sum_empty] at e2
  rw [e, if_pos]
  have hnn' : ∀ i, 0 ≤ r.power.getD i 0 := fun i => getD_nonneg _ hnn i
  apply le_antisymm
  · refine le_trans ?_ e2.le
    exact sum_le_sum_of_subset_of_nonneg inter_subset_right fun i _ _ => hnn' i
  · exact sum_nonneg fun i _ => hnn' i

/-- **C109 (harmonic bins).** The `k`-th harmonic is looked up in the first-zone alias of `k` times the carrier's bin. -/
theorem C109_harmonic_bins : r.harmonicBins.length = a.maxHarmonic - 1 ∧ ∀ i < r.harmonicBins.length, 0 ≤ r.harmonicBins.getD i 0 ∧
    FirstZoneAlias ((b0 : ℝ) * ((i + 2 : ℕ) : ℝ)) (N : ℝ) ((r.harmonicBins.getD i 0 : ℤ) : ℝ) := by
  obtain ⟨_, _, _, _, _, hfr, _, hmet⟩ := core lib a N n V S amp b0 t R hR hRN hV r h
  obtain ⟨bins, spur, noise, hb, _, _, hr⟩ := spectrumMetrics_ok _ _ _ _ _ _ _ hmet
  have hfrac : (locateFundamental r.power n).2 = b0 := by
    rw [← hfr]
    conv_rhs => rw [hr]
    rfl
  have hbins : r.harmonicBins = bins := by rw [hr]; rfl
  have hH : 1 ≤ a.maxHarmonic := by
    by_contra hc
    unfold locateHarmonicBins at hb
    rw [if_pos (by omega)] at hb
    simp at hb
  have h2 := t.sep.nyquist b0 t.carrier
  obtain ⟨hs, e1, e2, e3⟩ := C29_harmonic_bin_is_alias (b0 : ℝ) a.maxHarmonic N hH (by omega) (Or.inl ⟨b0, by simp⟩)
  rw [hfrac, e1] at hb
  injection hb with hb
  rw [hbins, ← hb]
  refine ⟨e2, fun i hi => ?_⟩
  obtain ⟨p1, q, p2, _, p4⟩ := e3 i hi
  rw [List.getD_eq_getElem?_getD, List.getElem?_eq_getElem hi, Option.getD_some, p4 ⟨b0, by simp⟩]
  exact ⟨p1, p2⟩

/-- Power around a clean harmonic bin. -/
private theorem harmonic_cut (hh : ℤ) (hc : (∃ b ∈ S, hh = (b : ℤ)) ∨ ∀ b ∈ S, 2 * ((defaultSideBin a.win : ℕ) : ℤ) < |hh - b|) :
    power (fun j => r.power.getD j 0) (harmonicLobe r.power.length (defaultSideBin a.win) hh) = ∑ b ∈ S.filter fun b : ℕ => (b : ℤ) = hh, (amp b / V) ^ 2 := by
  obtain ⟨g, c, hn, _, _⟩ := ledger lib a N n V S amp b0 t R hR hRN hV r h
  set m := defaultSideBin a.win with hm
  have hmem : ∀ k, k ∈ harmonicLobe r.power.length m hh ↔ k ≤ N / 2 ∧ |(k : ℤ) - hh| ≤ m := by
    intro k
    unfold harmonicLobe
    rw [mem_filter, mem_range, c.len]
    omega
  have key : ∀ b ∈ S, ((b : ℤ) = hh ∧ lobe b m ⊆ harmonicLobe r.power.length m hh) ∨ ((b : ℤ) ≠ hh ∧ Disjoint (lobe b m) (harmonicLobe r.power.length m hh)) := by
    intro b hb
    have h2 := t.sep.nyquist b hb
    have h3 := t.sep.dc b hb
    by_cases he : (b : ℤ) = hh
    · left
      refine ⟨he, fun k hk => ?_⟩
      rw [mem_lobe] at hk
      rw [hmem, ← he, abs_le]
      omega
    · right
      refine ⟨he, ?_⟩
      have hfar : 2 * (m : ℤ) < |hh - b| := by
        rcases hc with ⟨b', hb', e⟩ | hc
        · rw [e, lt_abs]
          rcases lt_trichotomy b b' with hx | hx | hx
          · have := t.sep.apart b hb b' hb' hx
            omega
          · exact absurd (by rw [e, hx]) he
          · have := t.sep.apart b' hb' b hb hx
            omega
        · exact hc b hb
      rw [disjoint_left]
      intro k hk hk'
      rw [mem_lobe] at hk
      rw [hmem, abs_le] at hk'
      rw [lt_abs] at hfar
      omega
  rw [c.power_eq]
  · congr 1
    ext b
    rw [mem_filter, mem_filter]
    constructor
    · rintro ⟨hb, hx⟩
      refine ⟨hb, ?_⟩
      rcases key b hb with hk | hk
      · exact hk.1
      · exact absurd hx (disjoint_left.mp hk.2 (by rw [mem_lobe]; omega))
    · rintro ⟨hb, hx⟩
      refine ⟨hb, ?_⟩
      rcases key b hb with hk | hk
      · exact hk.2 (by rw [mem_lobe]; omega)
      · exact absurd hx hk.1
  · intro k hk
    exact ((hmem k).mp hk).1
  · intro b hb
    rcases key b hb with hk | hk
    · exact Or.inl hk.2
    · exact Or.inr hk.2

/-- **C109 (harmonics).** If the `k`-th harmonic's alias is the bin of a tone other than the carrier, that harmonic reads the ratio of the two amplitudes (limited
below by the `1e-15` power floor). If no tone is within two lobe half-widths of it, it reads the floor, `-150 dBFS` relative to the carrier. Out-of-band harmonics
are read as well. -/
theorem C109_harmonics : ∃ hl : List EReal, r.harmonics = some hl ∧ hl.length = r.harmonicBins.length ∧ ∀ i < r.harmonicBins.length,
    (∀ b ∈ S, b ≠ b0 → r.harmonicBins.getD i 0 = b →
      hl.getD i 0 = ((level (max ((amp b / V) ^ 2) (1 / 10 ^ 15)) - level ((amp b0 / V) ^ 2) : ℝ) : EReal) ∧
      (1 / 10 ^ 15 ≤ (amp b / V) ^ 2 → hl.getD i 0 = ((20 * Real.logb 10 (amp b / amp b0) : ℝ) : EReal))) ∧
    ((∀ b ∈ S, 2 * ((defaultSideBin a.win : ℕ) : ℤ) < |r.harmonicBins.getD i 0 - b|) →
      hl.getD i 0 = ((-150 - level ((amp b0 / V) ^ 2) : ℝ) : EReal)) := by
  obtain ⟨g, c, hn, _, _, _, _, hl, e1, e2, e3⟩ := ledger lib a N n V S amp b0 t R hR hRN hV r h
  have h3 : r.sigPwr = level ((amp b0 / V) ^ 2) := by
    rw [(C109_carrier lib a N n V S amp b0 t R hR hRN hV r h).2.2]
    unfold level
    rw [Real.logb_pow]
    push_cast
    ring
  refine ⟨hl, e1, e2, fun i hi => ⟨?_, ?_⟩⟩
  · intro b hb hne hh
    have hval : hl.getD i 0 = ((level (max ((amp b / V) ^ 2) (1 / 10 ^ 15)) - level ((amp b0 / V) ^ 2) : ℝ) : EReal) := by
      have h5 := t.sep.dc b hb
      rw [e3 i hi, hh, if_pos, harmonic_cut lib a N n V S amp b0 t R hR hRN hV r h _ (Or.inl ⟨b, hb, rfl⟩), h3]
      · have : S.filter (fun b' : ℕ => (b' : ℤ) = (b : ℤ)) = {b} := by
          ext x
          rw [mem_filter, mem_singleton]
          constructor
          · rintro ⟨_, hx⟩
            exact_mod_cast hx
          · rintro rfl
            exact ⟨hb, rfl⟩
        rw [this, sum_singleton]
      · refine ⟨?_, by omega⟩
        rw [lt_abs]
        rcases lt_or_gt_of_ne hne with hx | hx
        · have := t.sep.apart b hb b0 t.carrier hx
          omega
        · have := t.sep.apart b0 t.carrier b hb hx
          omega
    refine ⟨hval, fun hfl => ?_⟩
    have hA : 0 < amp b0 := t.amp_pos _ t.carrier
    have hB : 0 < amp b := t.amp_pos _ hb
    have hV0 := t.full
    rw [hval, max_eq_left hfl]
    congr 1
    unfold level
    rw [Real.logb_pow, Real.logb_pow, Real.logb_div hA.ne' hV0.ne', Real.logb_div hB.ne' hV0.ne', Real.logb_div hB.ne' hA.ne']
    push_cast
    ring
  · intro hfar
    rw [e3 i hi, harmonic_cut lib a N n V S amp b0 t R hR hRN hV r h _ (Or.inr hfar), h3]
    have hempty : S.filter (fun b : ℕ => (b : ℤ) = r.harmonicBins.getD i 0) = ∅ := by
      rw [filter_eq_empty_iff]
      intro b hb hx
      have := hfar b hb
      rw [← hx, sub_self, abs_zero] at this
      omega
    rw [hempty, sum_empty]
    split_ifs
    · congr 2
      unfold level
      rw [max_eq_right (by positivity), one_div, Real.logb_inv, Real.logb_pow, Real.logb_self_eq_one (by norm_num)]
      norm_num
    · rfl

/-- **C109 (THD).** If every harmonic bin is either a tone's bin or clear of all tones, THD is the summed power of the tones in harmonic bins over the power of the
carrier; a tone reached by several harmonics counts once and the carrier itself never counts. -/
theorem C109_thd (hclean : CleanHarmonics S (defaultSideBin a.win) r.harmonicBins) :
    r.thd = some ((level (max (∑ b ∈ S.filter fun b => b ≠ b0 ∧ (b : ℤ) ∈ r.harmonicBins, (amp b / V) ^ 2) (1 / 10 ^ 15)) - level ((amp b0 / V) ^ 2) : ℝ) : EReal) := by
  obtain ⟨g, c, hn, _, _, _, e, _⟩ := ledger lib a N n V S amp b0 t R hR hRN hV r h
  have h3 : r.sigPwr = level ((amp b0 / V) ^ 2) := by
    rw [(C109_carrier lib a N n V S amp b0 t R hR hRN hV r h).2.2]
    unfold level
    rw [Real.logb_pow]
    push_cast
    ring
  set m := defaultSideBin a.win with hm
  have key : ∀ b ∈ S, (b ≠ b0 ∧ (b : ℤ) ∈ r.harmonicBins ∧ lobe b m ⊆ thdBins r.power.length b0 m r.harmonicBins) ∨
      (¬ (b ≠ b0 ∧ (b : ℤ) ∈ r.harmonicBins) ∧ Disjoint (lobe b m) (thdBins r.power.length b0 m r.harmonicBins)) := by
    intro b hb
    have h2 := t.sep.nyquist b hb
    have h5 := t.sep.dc b hb
    have hsp : ∀ b' ∈ S, b' ≠ b → 2 * (m : ℤ) < |(b' : ℤ) - b| := by
      intro b' hb' hne
      rw [lt_abs]
      rcases lt_or_gt_of_ne hne with hx | hx
      · have := t.sep.apart b' hb' b hb hx
        omega
      · have := t.sep.apart b hb b' hb' hx
        omega
    by_cases hx : b ≠ b0 ∧ (b : ℤ) ∈ r.harmonicBins
    · left
      refine ⟨hx.1, hx.2, fun k hk => ?_⟩
      rw [mem_lobe] at hk
      rw [C29_thd_bins_spec, c.len]
      refine ⟨by omega, b, hx.2, ?_, by omega, ?_⟩
      · rw [abs_sub_comm]
        exact hsp b0 t.carrier (Ne.symm hx.1)
      · rw [abs_le]
        omega
    · right
      refine ⟨hx, ?_⟩
      rw [disjoint_left]
      intro k hk hk'
      rw [mem_lobe] at hk
      rw [C29_thd_bins_spec] at hk'
      obtain ⟨_, hh, hm1, hm2, hm3, hm4⟩ := hk'
      rw [abs_le] at hm4
      have hfar : 2 * (m : ℤ) < |hh - b| := by
        rcases hclean hh hm1 with ⟨b', hb', he⟩ | hc
        · subst he
          apply hsp b' hb'
          rintro rfl
          apply hx
          refine ⟨?_, hm1⟩
          rintro rfl
          rw [sub_self, abs_zero] at hm2
          omega
        · exact hc b hb
      rw [lt_abs] at hfar
      omega
  rw [e, h3, c.power_eq]
  · have : S.filter (· ∈ thdBins r.power.length b0 m r.harmonicBins) = S.filter fun b => b ≠ b0 ∧ (b : ℤ) ∈ r.harmonicBins := by
      ext b
      rw [mem_filter, mem_filter]
      constructor
      · rintro ⟨hb, hx⟩
        refine ⟨hb, ?_⟩
        rcases key b hb with hk | hk
        · exact ⟨hk.1, hk.2.1⟩
        · exact absurd hx (disjoint_left.mp hk.2 (by rw [mem_lobe]; omega))
      · rintro ⟨hb, hx⟩
        refine ⟨hb, ?_⟩
        rcases key b hb with hk | hk
        · exact hk.2.2 (by rw [mem_lobe]; omega)
        · exact absurd hx hk.1
    rw [this]
  · intro k hk
    rw [C29_thd_bins_spec, c.len] at hk
    omega
  · intro b hb
    rcases key b hb with hk | hk
    · exact Or.inl hk.2.2
    · exact Or.inr hk.2

private theorem snr_of (noise : Option ℝ) (hno : estimateNoisePower r.power a.nfMethod n R.length b0 r.harmonicBins (defaultSideBin a.win) = .ok noise) :
    ∀ s, r.snr = some s → ∃ v, noise = some v ∧ s = ((level ((amp b0 / V) ^ 2) - level v : ℝ) : EReal) := by
  obtain ⟨⟨g, c⟩, hn, hN, _, h1, _, h3, hmet⟩ := core lib a N n V S amp b0 t R hR hRN hV r h
  obtain ⟨_, _, _, hb0n, _⟩ := ledger lib a N n V S amp b0 t R hR hRN hV r h
  obtain ⟨bins, spur, noise', hb, _, hn', hr⟩ := spectrumMetrics_ok _ _ _ _ _ _ _ hmet
  have hfund : (locateFundamental r.power n).1 = b0 := by
    rw [← h1]
    conv_rhs => rw [hr]
    rfl
  have hbins : r.harmonicBins = bins := by rw [hr]; rfl
  have hsb' : sideBinOf lib a N n r.power = defaultSideBin a.win := by unfold sideBinOf; rw [t.side]
  rw [hfund, hsb', ← hbins, hno] at hn'
  injection hn' with hn'
  subst hn'
  intro s hs
  have e : r.snr = noise.map fun v => dB (sigLinear a (signalPower r.power n (defaultSideBin a.win) b0) / v) := by
    rw [← hsb', ← hfund]
    conv_lhs => rw [hr]
    rfl
  rw [e, Option.map_eq_some_iff] at hs
  obtain ⟨v, hv, hs⟩ := hs
  refine ⟨v, hv, ?_⟩
  rw [hv] at hno
  have hv0 : 0 < v := lt_of_lt_of_le (by positivity) (C37_estimate_floor _ _ _ _ _ _ _ _ hno)
  have hsig : signalPower r.power n (defaultSideBin a.win) b0 = (amp b0 / V) ^ 2 := by
    unfold signalPower
    rw [slice_sum]
    have h2 := c.sep.nyquist b0 t.carrier
    have : Ico (b0 - defaultSideBin a.win) (min (min (b0 + defaultSideBin a.win + 1) n) r.power.length) = lobe b0 (defaultSideBin a.win) := by
      ext k
      rw [mem_Ico, mem_lobe, c.len]
      omega
    rw [this, sum_congr rfl fun k hk => c.in_lobe b0 t.carrier k hk, ← mul_sum, c.total b0 t.carrier, mul_one]
  have hA : 0 < amp b0 / V := div_pos (t.amp_pos _ t.carrier) t.full
  rw [← hs, hsig]
  unfold sigLinear
  rw [t.assumed]
  simp only
  rw [dB_pos (by positivity), Real.logb_div (by positivity) hv0.ne']
  unfold level
  congr 1
  ring

/-- **C109 (SNR, wide exclusion).** With noise method 4 and clean harmonic bins, SNR counts exactly the in-band tones that are not in harmonic bins. -/
theorem C109_snr_wide (hm4 : a.nfMethod = 4) (hclean : CleanHarmonics S (defaultSideBin a.win) r.harmonicBins) (s : EReal) (hs : r.snr = some s) :
    s = ((level ((amp b0 / V) ^ 2) - level (max (∑ b ∈ (others S n b0).filter fun b : ℕ => (b : ℤ) ∉ r.harmonicBins, (amp b / V) ^ 2) (1 / 10 ^ 15)) : ℝ) : EReal) := by
  obtain ⟨g, c, hn, hb0n, _⟩ := ledger lib a N n V S amp b0 t R hR hRN hV r h
  have hno := C37_wide_exclusion r.power n R.length b0 r.harmonicBins (defaultSideBin a.win) (by rw [c.len]; omega)
  rw [← hm4] at hno
  obtain ⟨v, hv, e⟩ := snr_of lib a N n V S amp b0 t R hR hRN hV r h _ hno s hs
  rw [e]
  split_ifs at hv with hemp
  injection hv with hv
  rw [← hv]
  set m := defaultSideBin a.win with hm
  have hspec := C37_candidate_bins_spec n b0 r.harmonicBins m
  have key : ∀ b ∈ S, ((b < n ∧ b ≠ b0) ∧ (b : ℤ) ∉ r.harmonicBins ∧ lobe b m ⊆ candidateBins n b0 r.harmonicBins m) ∨
      (¬ ((b < n ∧ b ≠ b0) ∧ (b : ℤ) ∉ r.harmonicBins) ∧ Disjoint (lobe b m) (candidateBins n b0 r.harmonicBins m)) := by
    intro b hb
    have h2 := t.sep.nyquist b hb
    have h5 := t.sep.dc b hb
    have h6 := t.edge b hb
    have hsp : ∀ b' ∈ S, b' ≠ b → 2 * (m : ℤ) < |(b' : ℤ) - b| := by
      intro b' hb' hne
      rw [lt_abs]
      rcases lt_or_gt_of_ne hne with hx | hx
      · have := t.sep.apart b' hb' b hb hx
        omega
      · have := t.sep.apart b hb b' hb' hx
        omega
    by_cases hx : (b < n ∧ b ≠ b0) ∧ (b : ℤ) ∉ r.harmonicBins
    · left
      refine ⟨hx.1, hx.2, fun k hk => ?_⟩
      rw [mem_lobe] at hk
      rw [hspec]
      refine ⟨by omega, by omega, ?_⟩
      intro z hz _ _ hz3
      have hfar : 2 * (m : ℤ) < |z - b| := by
        rcases List.mem_cons.mp hz with rfl | hz
        · exact hsp b0 t.carrier (Ne.symm hx.1.2)
        · rcases hclean z hz with ⟨b', hb', rfl⟩ | hc
          · apply hsp b' hb'
            rintro rfl
            exact hx.2 hz
          · exact hc b hb
      rw [lt_abs] at hfar
      rw [abs_le] at hz3
      omega
    · right
      refine ⟨hx, ?_⟩
      rw [disjoint_left]
      intro k hk hk'
      rw [mem_lobe] at hk
      rw [hspec] at hk'
      obtain ⟨w1, w2, w3⟩ := hk'
      have hbn : b < n := by omega
      have hz : (b : ℤ) ∈ (b0 : ℤ) :: r.harmonicBins := by
        by_cases he : b = b0
        · rw [he]; simp
        · rw [List.mem_cons]
          right
          by_contra hq
          exact hx ⟨⟨hbn, he⟩, hq⟩
      apply w3 b hz (by omega) (by omega)
      rw [abs_le]
      omega
  rw [c.power_eq]
  · have : S.filter (· ∈ candidateBins n b0 r.harmonicBins m) = (others S n b0).filter fun b : ℕ => (b : ℤ) ∉ r.harmonicBins := by
      ext b
      unfold others
      rw [mem_filter, mem_filter, mem_filter]
      constructor
      · rintro ⟨hb, hx⟩
        rcases key b hb with hk | hk
        · exact ⟨⟨hb, hk.1⟩, hk.2.1⟩
        · exact absurd hx (disjoint_left.mp hk.2 (by rw [mem_lobe]; omega))
      · rintro ⟨⟨hb, hx⟩, hy⟩
        refine ⟨hb, ?_⟩
        rcases key b hb with hk | hk
        · exact hk.2.2 (by rw [mem_lobe]; omega)
        · exact absurd ⟨hx, hy⟩ hk.1
    rw [this]
  · intro k hk
    rw [hspec] at hk
    omega
  · intro b hb
    rcases key b hb with hk | hk
    · exact Or.inl hk.2.2
    · exact Or.inr hk.2

/-- **C109 (SNR, harmonic exclusion leaks).** Noise method 3 clears only the centre bin of each harmonic. Of a tone in a harmonic bin the share `1/ENBW` is removed
and the share `1 - 1/ENBW` stays in the noise (a third for the Hann window, nothing for the rectangular one). -/
theorem C109_snr_exclude (hm3 : a.nfMethod = 3) (hclean : CleanHarmonics S (defaultSideBin a.win) r.harmonicBins) (s : EReal) (hs : r.snr = some s) :
    s = ((level ((amp b0 / V) ^ 2) - level (max ((∑ b ∈ (others S n b0).filter fun b : ℕ => (b : ℤ) ∉ r.harmonicBins, (amp b / V) ^ 2) +
      (1 - 1 / windowEnbw (windowVector lib a.win N) N) * ∑ b ∈ (others S n b0).filter fun b : ℕ => (b : ℤ) ∈ r.harmonicBins, (amp b / V) ^ 2) (1 / 10 ^ 15)) : ℝ) : EReal) := by
  obtain ⟨g, c, hnadp⟩ := nad_power lib a N n V S amp b0 t R hR hRN hV r h
  obtain ⟨_, _, hn, hb0n, _⟩ := ledger lib a N n V S amp b0 t R hR hRN hV r h
  obtain ⟨_, _, _, hnn, _⟩ := core lib a N n V S amp b0 t R hR hRN hV r h
  set m := defaultSideBin a.win with hm
  have hex := (C37_exclude_harmonics r.power hnn n b0 r.harmonicBins m (by rw [c.len]; omega)).1
  have hno : estimateNoisePower r.power a.nfMethod n R.length b0 r.harmonicBins m
      = .ok (some (max (power (fun i => r.power.getD i 0) ((nadBins n m b0).filter fun i => (i : ℤ) ∉ r.harmonicBins)) (1 / 10 ^ 15))) := by
    rw [hm3, ← hex]
    rfl
  obtain ⟨v, hv, e⟩ := snr_of lib a N n V S amp b0 t R hR hRN hV r h _ hno s hs
  injection hv with hv
  rw [e, ← hv]
  obtain ⟨q1, q2⟩ := nad_lobes a N n V S amp b0 t
  -- the centre bins removed
  have hrem : power (fun i => r.power.getD i 0) ((nadBins n m b0).filter fun i => (i : ℤ) ∈ r.harmonicBins)
      = ∑ b ∈ (others S n b0).filter fun b : ℕ => (b : ℤ) ∈ r.harmonicBins, (amp b / V) ^ 2 * (1 / windowEnbw (windowVector lib a.win N) N) := by
    unfold power
    symm
    apply sum_subset_zero_on_sdiff
    · intro b hb
      unfold others at hb
      rw [mem_filter, mem_filter] at hb
      rw [mem_filter]
      exact ⟨(q1 b hb.1.1).mpr hb.1.2, hb.2⟩
    · intro k hk
      rw [mem_sdiff, mem_filter, mem_filter] at hk
      obtain ⟨⟨k1, k2⟩, k3⟩ := hk
      have hkn : k < n := by
        unfold nadBins at k1
        simp only [mem_sdiff, mem_range] at k1
        omega
      apply c.off_lobes k (by omega)
      intro b hb hkl
      have hkS : k ∉ S := by
        intro hkS
        apply k3
        refine ⟨?_, k2⟩
        unfold others
        rw [mem_filter]
        exact ⟨hkS, (q1 k hkS).mp k1⟩
      rw [mem_lobe] at hkl
      rcases hclean k k2 with ⟨b', hb', he⟩ | hc
      · have : k = b' := by exact_mod_cast he
        rw [this] at hkS
        exact hkS hb'
      · have h5 := hc b hb
        rw [lt_abs] at h5
        omega
    · intro b hb
      unfold others at hb
      rw [mem_filter, mem_filter] at hb
      rw [c.in_lobe b hb.1.1 b (by rw [mem_lobe]; omega), c.top b hb.1.1]
  have hsplit := sum_filter_add_sum_filter_not (nadBins n m b0) (fun i => (i : ℤ) ∈ r.harmonicBins) (fun i => r.power.getD i 0)
  have hsplit2 := sum_filter_add_sum_filter_not (others S n b0) (fun b => (b : ℤ) ∈ r.harmonicBins) (fun b => (amp b / V) ^ 2)
  have heq : power (fun i => r.power.getD i 0) ((nadBins n m b0).filter fun i => (i : ℤ) ∉ r.harmonicBins)
      = (∑ b ∈ (others S n b0).filter fun b : ℕ => (b : ℤ) ∉ r.harmonicBins, (amp b / V) ^ 2) +
      (1 - 1 / windowEnbw (windowVector lib a.win N) N) * ∑ b ∈ (others S n b0).filter fun b : ℕ => (b : ℤ) ∈ r.harmonicBins, (amp b / V) ^ 2 := by
    rw [← sum_mul] at hrem
    unfold power at hrem hnadp ⊢
    rw [hnadp, hrem] at hsplit
    linarith
  rw [heq]

end

/-- **C109 (Hann share).** The Hann window's `1/ENBW` is two thirds, so method 3 leaves a third of every harmonic's power in the noise; the rectangular window leaves none. -/
theorem C109_leak_share (lib : WinLib) (N : ℕ) (hN : 5 ≤ N) : 1 / windowEnbw (windowVector lib "hann" N) N = 2 / 3 ∧ 1 / windowEnbw (windowVector lib "rectangular" N) N = 1 := by
  have hNR : (N : ℝ) ≠ 0 := by
    have : N ≠ 0 := by omega
    exact_mod_cast this
  constructor
  · have hw : ∀ n : ℕ, windowVector lib "hann" N n = 1 / 2 - 1 / 2 * Real.cos (2 * Real.pi * ((1 : ℕ) * n / N) + 0) := by
      intro n
      have e : windowVector lib "hann" N n = generalCosine [1 / 2, 1 / 2] N n := rfl
      rw [e]
      unfold generalCosine
      rw [if_neg (by omega)]
      simp only [List.length_cons, List.length_nil, List.range_succ, List.range_zero, List.nil_append, List.map_append, List.map_cons, List.map_nil, List.sum_append,
        List.sum_cons, List.sum_nil, List.getD_cons_zero, List.getD_cons_succ]
      rw [show ((1 : ℕ) : ℝ) * (-Real.pi + 2 * Real.pi * n / N) = 2 * Real.pi * ((1 : ℕ) * n / N) + 0 - Real.pi by push_cast; ring, Real.cos_sub_pi]
      norm_num
      ring
    have hw2 : ∀ n : ℕ, windowVector lib "hann" N n ^ 2
        = 3 / 8 - 1 / 2 * Real.cos (2 * Real.pi * ((1 : ℕ) * n / N) + 0) + 1 / 8 * Real.cos (2 * Real.pi * ((2 : ℕ) * n / N) + 0) := by
      intro n
      rw [hw, show 2 * Real.pi * (((2 : ℕ) : ℝ) * n / N) + 0 = 2 * (2 * Real.pi * ((1 : ℕ) * n / N) + 0) by push_cast; ring, Real.cos_two_mul]
      ring
    have s1 := tone_sum N 1 (1 / 2) 0 (by norm_num) (by omega)
    have s2 := tone_sum N 2 (1 / 8) 0 (by norm_num) (by omega)
    have e1 : ∑ n ∈ range N, windowVector lib "hann" N n = N / 2 := by
      rw [sum_congr rfl fun n _ => hw n, sum_sub_distrib, s1, sum_const, card_range, nsmul_eq_mul]
      ring
    have e2 : ∑ n ∈ range N, windowVector lib "hann" N n ^ 2 = 3 / 8 * N := by
      rw [sum_congr rfl fun n _ => hw2 n, sum_add_distrib, sum_sub_distrib, s1, s2, sum_const, card_range, nsmul_eq_mul]
      ring
    unfold windowEnbw
    rw [e1, e2]
    field_simp
    norm_num
  · have hw : ∀ n : ℕ, windowVector lib "rectangular" N n = 1 := fun n => rfl
    unfold windowEnbw
    simp only [hw, one_pow, sum_const, card_range, nsmul_eq_mul, mul_one]
    field_simp

/-- **C109 (the analysis succeeds).** On such a record `compute_spectrum` returns for every `max_harmonic ≥ 1` and every noise method `0..4`. -/
theorem C109_succeeds (lib : WinLib) (a : SpectrumArgs) (N n : ℕ) (V : ℝ) (S : Finset ℕ) (amp : ℕ → ℝ) (b0 : ℕ) (t : ToneTest a N n V S amp b0)
    (R : List ((ℕ → ℝ) × ℝ)) (hR : R ≠ []) (hRN : R.length ≤ 2 * N) (hV : peakAmplitude (tonesData N S amp R) a.scale = .ok V) (h1 : 1 ≤ a.maxHarmonic) (h2 : 0 ≤ a.nfMethod) (h3 : a.nfMethod ≤ 4) :
    ∃ r, computeSpectrum lib (tonesData N S amp R) a = .ok r := by
  have hprep := prepare_data N _ S t.sep amp b0 t.carrier R hR hRN V t.full.ne' a.scale hV
  refine (C63_compute_spectrum_total lib _ a _ hprep ?_).mpr ⟨?_, h1, h2, h3⟩
  · have := t.sep.nyquist b0 t.carrier
    cases R with
    | nil => exact absurd rfl hR
    | cons q R =>
      simp only [List.map_cons, List.headD_cons, tonesRow_length]
      omega
  · by_contra hc
    have := t.inband
    unfold rfftInbandBinCount at this
    rw [if_pos (not_lt.mp hc)] at this
    split_ifs at this
    all_goals simp at this

/-- **C109 (quick_sndr).** The fast path reads the same SNDR and ENOB from the record. -/
theorem C109_quick_sndr (lib : WinLib) (a : SpectrumArgs) (N n : ℕ) (V : ℝ) (S : Finset ℕ) (amp : ℕ → ℝ) (b0 : ℕ) (t : ToneTest a N n V S amp b0)
    (R : List ((ℕ → ℝ) × ℝ)) (hR : R ≠ []) (hRN : R.length ≤ 2 * N) (hV : peakAmplitude (tonesData N S amp R) a.scale = .ok V) (h1 : 1 ≤ a.maxHarmonic) (h2 : 0 ≤ a.nfMethod) (h3 : a.nfMethod ≤ 4) (hosr : a.osr = 1) :
    ∃ s : ℝ, s = level ((amp b0 / V) ^ 2) - level ((∑ b ∈ others S n b0, (amp b / V) ^ 2) + 1 / 10 ^ 20) ∧
      quickSndr lib (tonesData N S amp R) a.win none a.scale = .ok ((s : EReal), ((s : EReal) - ((176 / 100 : ℝ) : EReal)) / ((602 / 100 : ℝ) : EReal)) := by
  obtain ⟨r, hr⟩ := C109_succeeds lib a N n V S amp b0 t R hR hRN hV h1 h2 h3
  have hq := C30_quick_sndr_agrees lib _ a r hr _ t.side hosr t.cutoff t.assumed t.average
  refine ⟨_, rfl, ?_⟩
  have hs := C109_sndr lib a N n V S amp b0 t R hR hRN hV r hr
  have e : quickSndr lib (tonesData N S amp R) a.win none a.scale = quickSndr lib (tonesData N S amp R) a.win (some ((defaultSideBin a.win : ℕ) : ℤ)) a.scale := by
    unfold quickSndr
    simp
  obtain ⟨_, _, _, _, _, _, _, _, _, _, _, hm⟩ := computeSpectrum_ok lib _ a r hr
  obtain ⟨_, _, _, _, _, _, e2⟩ := spectrumMetrics_ok _ _ _ _ _ _ _ hm
  have he : r.enob = enobOf r.sndr := by rw [e2]; rfl
  rw [e, hq, he, hs]
  rfl

/-! ### Concrete cases -/

/-- A carrier in bin 5 of 64 with a second harmonic and a spur, each at a tenth of the amplitude. -/
private theorem demo (M : ℕ) (nf : ℤ) : ToneTest { scale := .scalar 2, sideBin := some 1, maxHarmonic := M, nfMethod := nf } 64 33 2 {5, 10, 22} (fun b => if b = 5 then 1 else 1 / 10) 5 where
  kaiser := (by decide : "hann" ≠ "kaiser")
  chebwin := (by decide : "hann" ≠ "chebwin")
  side := rfl
  average := rfl
  cutoff := rfl
  assumed := rfl
  inband := C25_osr_one (K := ℝ) 64 (by norm_num)
  full := by norm_num
  sep := (⟨by decide, by decide, by decide⟩ : Separated 64 1 {5, 10, 22})
  edge := (by decide : ∀ b ∈ ({5, 10, 22} : Finset ℕ), b + 1 < 33 ∨ 33 ≤ b - 1)
  carrier := by decide
  carrier_in := by norm_num
  amp_pos := fun b _ => by
    beta_reduce
    split_ifs <;> norm_num
  strongest := fun b _ _ hb => by
    beta_reduce
    rw [if_neg hb, if_pos rfl]
    norm_num
  loud := by norm_num

private theorem demo_others : others {5, 10, 22} 33 5 = {10, 22} := by decide

-- two unsynchronised runs: the carrier at -6 dBFS, SFDR 20 dB, SNDR 17 dB
example (lib : WinLib) : ∃ r, computeSpectrum lib (tonesData 64 {5, 10, 22} (fun b => if b = 5 then 1 else 1 / 10) [(fun _ => 0, 3), (fun b => b, -1)])
      { scale := .scalar 2, sideBin := some 1 } = .ok r ∧ r.fundamentalBin = 5 ∧ r.sigPwr = 20 * Real.logb 10 (1 / 2) ∧ r.sfdr = some ((20 : ℝ) : EReal) ∧
      r.sndr = ((10 * Real.logb 10 (1 / 4) - 10 * Real.logb 10 (1 / 200 + 1 / 10 ^ 20) : ℝ) : EReal) := by
  have t := demo 5 0
  obtain ⟨r, hr⟩ := C109_succeeds lib _ _ _ _ _ _ _ t [(fun _ => 0, 3), (fun b => b, -1)] (by simp) (by simp) rfl (by norm_num) (by norm_num) (by norm_num)
  obtain ⟨h1, _, h3⟩ := C109_carrier lib _ _ _ _ _ _ _ t _ (by simp) (by simp) rfl r hr
  have h4 := C109_sndr lib _ _ _ _ _ _ _ t _ (by simp) (by simp) rfl r hr
  obtain ⟨h5, _, h7⟩ := C109_sfdr lib _ _ _ _ _ _ _ t _ (by simp) (by simp) rfl r hr (by rw [demo_others]; decide)
  rw [demo_others] at h4 h5
  refine ⟨r, hr, h1, by simpa using h3, ?_, ?_⟩
  · rw [h7]
    have hne : r.spurBin ≠ 5 := by
      intro hc
      rw [hc] at h5
      revert h5
      decide
    rw [if_pos rfl, if_neg hne, show (1 : ℝ) / (1 / 10) = 10 by norm_num, Real.logb_self_eq_one (by norm_num), mul_one]
  · rw [h4, sum_pair (by decide)]
    unfold level
    norm_num

/-- With `max_harmonic = 2` the only harmonic bin of the record is 10. -/
private theorem demo_bins (lib : WinLib) (nf : ℤ) (R : List ((ℕ → ℝ) × ℝ)) (hR : R ≠ []) (hRN : R.length ≤ 128) (r : SpectrumResult)
    (hr : computeSpectrum lib (tonesData 64 {5, 10, 22} (fun b => if b = 5 then 1 else 1 / 10) R) { scale := .scalar 2, sideBin := some 1, maxHarmonic := 2, nfMethod := nf } = .ok r) :
    r.harmonicBins = [10] := by
  obtain ⟨g1, g2⟩ := C109_harmonic_bins lib _ _ _ _ _ _ _ (demo 2 nf) _ hR hRN rfl r hr
  have hlen : r.harmonicBins.length = 1 := g1
  obtain ⟨g3, g4⟩ := g2 0 (by omega)
  have h10 : FirstZoneAlias (((5 : ℕ) : ℝ) * ((0 + 2 : ℕ) : ℝ)) ((64 : ℕ) : ℝ) 10 := ⟨by norm_num, by norm_num, 0, Or.inl (by norm_num)⟩
  have := (C04_fold_unique _ _ _ (by norm_num) g4).trans (C04_fold_unique _ _ _ (by norm_num) h10).symm
  obtain ⟨z, hz⟩ := List.length_eq_one_iff.mp hlen
  rw [hz] at this ⊢
  have hz10 : z = 10 := by exact_mod_cast this
  rw [hz10]

-- the second harmonic of the carrier reads -20 dB and so does THD
example (lib : WinLib) : ∃ r hl, computeSpectrum lib (tonesData 64 {5, 10, 22} (fun b => if b = 5 then 1 else 1 / 10) [(fun _ => 0, 0)])
      { scale := .scalar 2, sideBin := some 1, maxHarmonic := 2, nfMethod := 4 } = .ok r ∧ r.harmonics = some hl ∧ hl.length = 1 ∧ hl.getD 0 0 = ((-20 : ℝ) : EReal) ∧
      r.thd = some ((level (1 / 400) - level (1 / 4) : ℝ) : EReal) := by
  have t := demo 2 4
  obtain ⟨r, hr⟩ := C109_succeeds lib _ _ _ _ _ _ _ t [(fun _ => 0, 0)] (by simp) (by simp) rfl (by norm_num) (by norm_num) (by norm_num)
  have hb := demo_bins lib 4 _ (by simp) (by simp) r hr
  obtain ⟨hl, e1, e2, e3⟩ := C109_harmonics lib _ _ _ _ _ _ _ t _ (by simp) (by simp) rfl r hr
  have h5 := C109_thd lib _ _ _ _ _ _ _ t _ (by simp) (by simp) rfl r hr (by
    intro z hz
    rw [hb, List.mem_singleton] at hz
    exact Or.inl ⟨10, by decide, hz⟩)
  obtain ⟨_, e4⟩ := (e3 0 (by rw [hb]; simp)).1 10 (by decide) (by decide) (by rw [hb]; rfl)
  refine ⟨r, hl, hr, e1, by rw [e2, hb]; rfl, ?_, ?_⟩
  · rw [e4 (by norm_num), if_neg (by norm_num), if_pos rfl, div_one, one_div, Real.logb_inv, Real.logb_self_eq_one (by norm_num)]
    norm_num
  · rw [h5, hb]
    have : ({5, 10, 22} : Finset ℕ).filter (fun b : ℕ => b ≠ 5 ∧ (b : ℤ) ∈ ([10] : List ℤ)) = {10} := by decide
    rw [this, sum_singleton]
    norm_num

-- method 4 counts the spur alone; method 3 adds a third of the second harmonic to the noise
example (lib : WinLib) (r : SpectrumResult) (s : EReal) (hr : computeSpectrum lib (tonesData 64 {5, 10, 22} (fun b => if b = 5 then 1 else 1 / 10) [(fun _ => 0, 0)])
      { scale := .scalar 2, sideBin := some 1, maxHarmonic := 2, nfMethod := 4 } = .ok r) (hs : r.snr = some s) : s = ((level (1 / 4) - level (1 / 400) : ℝ) : EReal) := by
  have hb := demo_bins lib 4 _ (by simp) (by simp) r hr
  rw [C109_snr_wide lib _ _ _ _ _ _ _ (demo 2 4) _ (by simp) (by simp) rfl r hr rfl (by
    intro z hz
    rw [hb, List.mem_singleton] at hz
    exact Or.inl ⟨10, by decide, hz⟩) s hs, hb, demo_others]
  have : ({10, 22} : Finset ℕ).filter (fun b : ℕ => (b : ℤ) ∉ ([10] : List ℤ)) = {22} := by decide
  rw [this, sum_singleton]
  norm_num

example (lib : WinLib) : ∃ r, computeSpectrum lib (tonesData 64 {5, 10, 22} (fun b => if b = 5 then 1 else 1 / 10) [(fun _ => 0, 0)])
      { scale := .scalar 2, sideBin := some 1, maxHarmonic := 2, nfMethod := 3 } = .ok r ∧ ∀ s, r.snr = some s → s = ((level (1 / 4) - level (1 / 400 + 1 / 3 * (1 / 400)) : ℝ) : EReal) := by
  obtain ⟨r, hr⟩ := C109_succeeds lib _ _ _ _ _ _ _ (demo 2 3) [(fun _ => 0, 0)] (by simp) (by simp) rfl (by norm_num) (by norm_num) (by norm_num)
  have hb := demo_bins lib 3 _ (by simp) (by simp) r hr
  refine ⟨r, hr, fun s hs => ?_⟩
  rw [C109_snr_exclude lib _ _ _ _ _ _ _ (demo 2 3) _ (by simp) (by simp) rfl r hr rfl (by
    intro z hz
    rw [hb, List.mem_singleton] at hz
    exact Or.inl ⟨10, by decide, hz⟩) s hs, hb, demo_others, (C109_leak_share lib 64 (by norm_num)).1]
  have h1 : ({10, 22} : Finset ℕ).filter (fun b : ℕ => (b : ℤ) ∉ ([10] : List ℤ)) = {22} := by decide
  have h2 : ({10, 22} : Finset ℕ).filter (fun b : ℕ => (b : ℤ) ∈ ([10] : List ℤ)) = {10} := by decide
  rw [h1, h2, sum_singleton, sum_singleton]
  norm_num

end Verif
