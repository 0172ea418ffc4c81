import Verif.Model.MatlabCutoff
import Verif.Theorems.MatlabSpectrum
import Verif.Theorems.SpectrumReport

/-!
# C137: cutoff, assumed signal and removed harmonics in `plotspec.m`

The three options of `plotspec.m` that change the reported numbers, next to what `compute_spectrum` does with the same record.
-/

namespace Verif

open Model Spec Finset

/-! ### Lists -/

private theorem out_getD (l : List ℝ) (i : ℕ) (h : l.length ≤ i) : l.getD i 0 = 0 := by
  rw [List.getD_eq_getElem?_getD, List.getElem?_eq_none h]
  rfl

private theorem take_getD' (l : List ℝ) (n i : ℕ) (h : i < n) : (l.take n).getD i 0 = l.getD i 0 := by
  rw [List.getD_eq_getElem?_getD, List.getElem?_take, if_pos h, ← List.getD_eq_getElem?_getD]

private theorem cut_length (p : List ℝ) (c fs : ℝ) (N : ℕ) : (mlCutoff p c fs N).length = p.length := by
  unfold mlCutoff
  split_ifs
  · exact zeroRange_length _ _ _
  · rfl

/-- The bins strictly below the cutoff frequency are zero, the others untouched. -/
private theorem cut_getD (p : List ℝ) (c fs : ℝ) (N i : ℕ) (hfs : 0 < fs) (hN : 0 < N) (hc : 0 < c) :
    (mlCutoff p c fs N).getD i 0 = if (i : ℝ) * fs / N < c then 0 else p.getD i 0 := by
  have hNR : (0 : ℝ) < N := by exact_mod_cast hN
  have hkey : (0 ≤ i ∧ i < ⌈c / fs * N⌉.toNat) ↔ (i : ℝ) * fs / N < c := by
    rw [and_iff_right (Nat.zero_le i), Int.lt_toNat, Int.lt_ceil]
    push_cast
    rw [div_lt_iff₀ hNR, div_mul_eq_mul_div, lt_div_iff₀ hfs]
  unfold mlCutoff
  rw [if_pos hc, zeroRange_getD]
  by_cases hx : (i : ℝ) * fs / N < c
  · rw [if_pos hx, if_pos (hkey.mpr hx)]
  · rw [if_neg hx, if_neg (fun hy => hx (hkey.mp hy))]

private theorem nonneg_getD (l : List ℝ) (h : ∀ v ∈ l, 0 ≤ v) (i : ℕ) : 0 ≤ l.getD i 0 := getD_nonneg l h i

private theorem spectrum_nonneg (d : List (List ℝ)) (P : ℝ) (w : ℕ → ℝ) (N : ℕ) (ml : List ℝ) (h : mlPowerSpectrum d P w N = some ml) (i : ℕ) : 0 ≤ ml.getD i 0 := by
  apply nonneg_getD
  unfold mlPowerSpectrum at h
  simp only at h
  split_ifs at h
  obtain rfl := Option.some.inj h
  intro v hv
  rw [List.mem_map] at hv
  obtain ⟨k, -, rfl⟩ := hv
  have hx : ∀ x : ℝ, 0 ≤ x → 0 ≤ mlNyquist N k x := by
    intro x hx
    unfold mlNyquist
    split_ifs <;> linarith
  apply hx
  split_ifs
  · exact le_refl 0
  · have hs : 0 ≤ ((mlLive d).map fun r => ‖dft N (fun n => (mlRun r P w N n : ℂ)) k‖ ^ 2).sum := by
      apply List.sum_nonneg
      intro x hx
      rw [List.mem_map] at hx
      obtain ⟨r, -, rfl⟩ := hx
      positivity
    positivity

private theorem cleared_getD' (p : List ℝ) (s b i : ℕ) :
    (mlCleared p s b).getD i 0 = if s ≤ i ∧ ¬ (b - s ≤ i ∧ i < b + s + 1) then p.getD i 0 else 0 := by
  unfold mlCleared
  rw [zeroRange_getD, zeroRange_getD]
  have hout := out_getD p i
  split_ifs with h1 h2 h3 h4 h5 h6
  any_goals rfl
  any_goals omega
  exact hout (by omega)

private theorem noise_sum (p : List ℝ) (n s b : ℕ) (hn : n ≤ p.length) :
    mlNoiseDist p n s b = ∑ i ∈ range n, if s ≤ i ∧ ¬ (b - s ≤ i ∧ i < b + s + 1) then p.getD i 0 else 0 := by
  unfold mlNoiseDist
  have hl : ((mlCleared p s b).take n).length = n := by
    unfold mlCleared
    rw [List.length_take, zeroRange_length, zeroRange_length, min_eq_left hn]
  rw [list_sum_eq, hl]
  apply sum_congr rfl
  intro i hi
  rw [take_getD' _ _ _ (mem_range.mp hi), cleared_getD']

/-! ### The two cut spectra -/

private theorem live_all (d : List (List ℝ)) (h : ∀ r ∈ d, ∃ v ∈ r, v ≠ 0) : mlLive d = d := by
  unfold mlLive
  rw [List.filter_eq_self]
  intro r hr
  simpa using h r hr

/-- What the two programs share: the record, its full scale and window, live runs, power averaging, and a positive cutoff. -/
structure SameCut (d : List (List ℝ)) (P : ℝ) (hann : Bool) (a : SpectrumArgs) (s : ℕ) : Prop where
  shape : RunsBySamples d
  scale0 : P ≠ 0
  scale : SameScale d P a.scale
  win : a.win = pyName hann
  power : a.coherent = false
  runs : d ≠ []
  live : ∀ r ∈ d, ∃ v ∈ r, v ≠ 0
  cutoff : 0 < a.cutoff
  rate : 0 < a.fs
  side : a.sideBin = some s
  edge : ∀ z : ℤ, ((d.headD []).length : ℝ) / (2 * a.osr) ≠ z → 1 / 10 ^ 12 + 1 / 10 ^ 12 * |(z : ℝ)| < |((d.headD []).length : ℝ) / (2 * a.osr) - z|

private theorem cut_core (lib : WinLib) (d : List (List ℝ)) (P : ℝ) (hann : Bool) (a : SpectrumArgs) (s : ℕ) (h : SameCut d P hann a s) (r : SpectrumResult)
    (hr : computeSpectrum lib d a = .ok r) :
    ∃ ml, mlPowerSpectrum d P (mlWindow hann (d.headD []).length) (d.headD []).length = some ml ∧ ml.getD 0 0 = 0 ∧ r.power.length = ml.length ∧
      0 < (d.headD []).length ∧ mlInbandEnd (d.headD []).length a.osr ≤ ml.length ∧ 1 ≤ mlInbandEnd (d.headD []).length a.osr ∧
      (∀ k < ml.length, r.power.getD k 0 = if (k : ℝ) * a.fs / (d.headD []).length < a.cutoff then 1 / 10 ^ 20 else ml.getD k 0) ∧
      r.fundamentalBin = fundamentalBin r.power (mlInbandEnd (d.headD []).length a.osr) ∧
      r.sigPwr = sigPwrDbfs a (signalPower r.power (mlInbandEnd (d.headD []).length a.osr) s r.fundamentalBin) ∧
      r.sndr = dB (sigLinear a (signalPower r.power (mlInbandEnd (d.headD []).length a.osr) s r.fundamentalBin) /
        (noiseAndDistortion r.power (mlInbandEnd (d.headD []).length a.osr) s r.fundamentalBin + 1 / 10 ^ 20)) := by
  have hla := live_all d h.live
  obtain ⟨d', ml, h1, hdl, hdN, h2, h3, h4, h5⟩ := C121_spectrum lib d h.shape P h.scale0 hann a h.scale h.win h.power (by rw [hla]; exact h.runs)
  obtain ⟨r₀, hr0, hN0, hl0, hb0⟩ := C82_cutoff_bins lib d a h.cutoff h.rate r hr
  obtain ⟨d'', n, hd, hn, hn1, hnl, hpl, hN, hosr, hnn, hpow, hm⟩ := computeSpectrum_ok lib d a r hr
  obtain ⟨e'', n0, hd0, hn0, -, -, -, -, -, -, hpow0, -⟩ := computeSpectrum_ok lib d { a with cutoff := 0 } r₀ hr0
  obtain ⟨bins, spur, noise, g1, g2, g3, hres⟩ := spectrumMetrics_ok _ _ _ _ _ _ _ hm
  rw [h1] at hd
  cases hd
  have ed : e'' = d' := by
    have h1' : prepareFftInput d a.scale = .ok e'' := hd0
    rw [h1] at h1'
    exact (Except.ok.inj h1').symm
  subst ed
  rw [hdN] at hn hpl hN hres hn0 hpow0
  have eN : r.N = (d.headD []).length := by rw [hres]; rfl
  set N := (d.headD []).length with hNd
  have hn' := hn
  rw [C121_inband N hN a.osr hosr h.edge] at hn'
  have hn' : mlInbandEnd N a.osr = n := Except.ok.inj hn'
  have hraw0 : r₀.power = rawSpectrum lib a e'' N n0 := by
    rw [hpow0]
    unfold applyCutoff
    rw [if_neg (lt_irrefl _)]
    rfl
  have hlen : r.power.length = ml.length := by omega
  have hso : sideBinOf lib a N n r.power = s := by
    unfold sideBinOf
    rw [h.side]
  rw [hso] at hres
  have hf : r.fundamentalBin = fundamentalBin r.power n := by
    conv_lhs => rw [hres]
    rfl
  rw [hn']
  refine ⟨ml, h2, h4, hlen, hN, by omega, by omega, ?_, hf, ?_, ?_⟩
  · intro k hk
    rw [hb0 k (by omega), eN]
    by_cases hx : (k : ℝ) * a.fs / N < a.cutoff
    · rw [if_pos hx, if_pos hx]
    · rw [if_neg hx, if_neg hx]
      have hk1 : 1 ≤ k := by
        rcases Nat.eq_zero_or_pos k with rfl | hp
        · exact absurd (by simpa using h.cutoff) hx
        · exact hp
      have e := h5 n0 k hk1 (by omega)
      rw [hla] at e
      have hD : (d.length : ℝ) ≠ 0 := by
        have : d.length ≠ 0 := fun h' => h.runs (List.length_eq_zero_iff.mp h')
        exact_mod_cast this
      rw [hraw0]
      exact (mul_right_cancel₀ hD e).symm
  · rw [hf]
    conv_lhs => rw [hres]
    rfl
  · rw [hf]
    conv_lhs => rw [hres]
    rfl

/-- A strict maximum over the bins above DC is the fundamental. -/
private theorem fund_of_max (q : List ℝ) (n b : ℕ) (hn : n ≤ q.length) (hb1 : 1 ≤ b) (hbn : b < n) (hmax : ∀ j, 1 ≤ j → j < n → q.getD j 0 ≤ q.getD b 0)
    (hfirst : ∀ j, 1 ≤ j → j < b → q.getD j 0 < q.getD b 0) : fundamentalBin q n = b := by
  have hql : (q.take n).length = n := by rw [List.length_take]; omega
  have hdl : ((q.take n).drop 1).length = n - 1 := by rw [List.length_drop, hql]
  have hdg : ∀ i, i < n - 1 → ((q.take n).drop 1).getD i 0 = q.getD (i + 1) 0 := by
    intro i hi
    rw [List.getD_eq_getElem?_getD, List.getElem?_drop, ← List.getD_eq_getElem?_getD, take_getD' q _ _ (by omega), add_comm]
  have := ml_argmax_unique ((q.take n).drop 1) (b - 1) (by omega)
    (fun j hj => by
      rw [hdg _ (by omega), hdg _ (by omega), show b - 1 + 1 = b by omega]
      exact hmax _ (by omega) (by omega))
    (fun j hj => by
      rw [hdg _ (by omega), hdg _ (by omega), show b - 1 + 1 = b by omega]
      exact hfirst _ (by omega) (by omega))
  unfold fundamentalBin
  simp only
  rw [if_pos (by omega), this]
  omega

private theorem bin_spec (p : List ℝ) (n : ℕ) (hn : n ≤ p.length) (h1 : 1 ≤ n) :
    mlBin p n < n ∧ (∀ j < n, p.getD j 0 ≤ p.getD (mlBin p n) 0) ∧ ∀ j < mlBin p n, p.getD j 0 < p.getD (mlBin p n) 0 := by
  have hl : (p.take n).length = n := by rw [List.length_take]; omega
  have hne : p.take n ≠ [] := by
    intro h
    rw [h, List.length_nil] at hl
    omega
  have hlt := argmax_lt _ hne
  rw [hl] at hlt
  have hg : ∀ j, j < n → (p.take n)[j]? = some (p.getD j 0) := by
    intro j hj
    rw [← take_getD' p n j hj, List.getD_eq_getElem?_getD, List.getElem?_eq_getElem (by omega)]
    rfl
  refine ⟨hlt, fun j hj => argmax_max _ _ (hg _ hlt) _ (List.mem_of_getElem? (hg j hj)), fun j hj => ?_⟩
  have hj' : j < argmax (p.take n) := hj
  exact argmax_first _ _ (hg _ hlt) j _ hj (hg j (by omega))

private theorem freq_mono (fs : ℝ) (N i j : ℕ) (hfs : 0 < fs) (hN : 0 < N) (h : i ≤ j) : (i : ℝ) * fs / N ≤ (j : ℝ) * fs / N := by
  have hNR : (0 : ℝ) < N := by exact_mod_cast hN
  have : (i : ℝ) ≤ j := by exact_mod_cast h
  gcongr

/-! ### Cutoff -/

/-- **C137 (cutoff below the signal).** A report with a positive cutoff that leaves the lobe of the strongest bin alone, whatever the assumed signal power: same bin and
same signal power as `plotspec.m`. The noise and distortion differ by the bin next to DC (C120) and by the `1e-20` that `compute_spectrum` writes into each cut bin where
`plotspec.m` writes zero. -/
theorem C137_report (lib : WinLib) (d : List (List ℝ)) (P : ℝ) (hann : Bool) (a : SpectrumArgs) (s : ℕ) (h : SameCut d P hann a s) (r : SpectrumResult)
    (hr : computeSpectrum lib d a = .ok r) :
    ∃ ml, mlPowerSpectrum d P (mlWindow hann (d.headD []).length) (d.headD []).length = some ml ∧
      let N := (d.headD []).length
      let n := mlInbandEnd N a.osr
      let b := mlBin ml n
      ∀ (binR : ℝ) (harmonic : ℤ) (nThd : ℕ), 0 ≤ harmonic → a.cutoff ≤ ((b - s : ℕ) : ℝ) * a.fs / N → 1 / 10 ^ 20 < ml.getD b 0 →
        let m := mlNumbers ml N n s a.cutoff a.fs a.assumed binR harmonic nThd
        r.fundamentalBin = m.bin ∧ (r.sigPwr : EReal) = m.pwr ∧
        r.sndr = dB (m.sig / (m.noi - (if a.cutoff ≤ (s : ℝ) * a.fs / N then guardBin ml s b else 0)
          + ((range n).filter fun (k : ℕ) => s < k ∧ (k : ℝ) * a.fs / N < a.cutoff).card * (1 / 10 ^ 20) + 1 / 10 ^ 20)) := by
  obtain ⟨ml, h2, h4, hlen, hN, hnml, hn1, hpow, hf, hsp, hsn⟩ := cut_core lib d P hann a s h r hr
  refine ⟨ml, h2, ?_⟩
  intro N n b binR harmonic nThd hh hcb hbp m
  have hnml : n ≤ ml.length := hnml
  have hnn := spectrum_nonneg d P _ _ ml h2
  obtain ⟨b1, b2, b3⟩ := bin_spec ml n hnml hn1
  have hfs := h.rate
  have hc := h.cutoff
  have hb : s < b := by
    by_contra hx
    rw [show b - s = 0 by omega] at hcb
    simp only [Nat.cast_zero, zero_mul, zero_div] at hcb
    linarith
  have habove : ∀ k, b - s ≤ k → ¬ (k : ℝ) * a.fs / N < a.cutoff := fun k hk hx => by
    have := freq_mono a.fs N (b - s) k hfs hN hk
    linarith
  have hpb : ∀ k, b - s ≤ k → k < ml.length → r.power.getD k 0 = ml.getD k 0 := fun k hk hkl => by rw [hpow k hkl, if_neg (habove k hk)]
  have hle : ∀ j < n, r.power.getD j 0 ≤ ml.getD b 0 ∧ (j < b → r.power.getD j 0 < ml.getD b 0) := by
    intro j hj
    rw [hpow j (by omega)]
    split_ifs with hx
    · exact ⟨hbp.le, fun _ => hbp⟩
    · exact ⟨b2 j hj, fun hjb => b3 j hjb⟩
  have hb' : r.power.getD b 0 = ml.getD b 0 := hpb b (by omega) (by omega)
  have hfb : r.fundamentalBin = b := by
    rw [hf]
    refine fund_of_max _ _ _ (by omega) (by omega) b1 ?_ ?_
    · intro j _ hj
      rw [hb']
      exact (hle j hj).1
    · intro j _ hj
      rw [hb']
      exact (hle j (by omega)).2 hj
  have hcut : ∀ k, (mlCutoff ml a.cutoff a.fs N).getD k 0 = if (k : ℝ) * a.fs / N < a.cutoff then 0 else ml.getD k 0 := fun k => cut_getD ml _ _ N k hfs hN hc
  have hsig : signalPower r.power n s b = mlSignal (mlCutoff ml a.cutoff a.fs N) n s b := by
    unfold signalPower mlSignal
    rw [slice_sum, slice_sum, cut_length, hlen]
    apply sum_congr rfl
    intro k hk
    rw [mem_Ico] at hk
    rw [hpb k (by omega) (by omega), hcut, if_neg (habove k (by omega))]
  have hbig : 1 / 10 ^ 20 < mlSignal (mlCutoff ml a.cutoff a.fs N) n s b := by
    unfold mlSignal
    rw [slice_sum, cut_length]
    refine lt_of_lt_of_le ?_ (single_le_sum (f := fun i => (mlCutoff ml a.cutoff a.fs N).getD i 0) (a := b) (fun i _ => ?_) (mem_Ico.mpr ⟨by omega, by omega⟩))
    · rw [hcut, if_neg (habove b (by omega))]
      exact hbp
    · rw [hcut]
      split_ifs
      · exact le_refl 0
      · exact hnn i
  have hnad : noiseAndDistortion r.power n s b = mlNoiseDist (mlCutoff ml a.cutoff a.fs N) n s b - (if a.cutoff ≤ (s : ℝ) * a.fs / N then guardBin ml s b else 0)
      + ((range n).filter fun (k : ℕ) => s < k ∧ (k : ℝ) * a.fs / N < a.cutoff).card * (1 / 10 ^ 20) := by
    rw [noise_sum _ _ _ _ (by rw [cut_length]; exact hnml), nad_eq_cleared _ _ _ _ (by omega), list_sum_eq, cleared_length, min_eq_left (show n ≤ r.power.length by omega)]
    have hcard : (((range n).filter fun (k : ℕ) => s < k ∧ (k : ℝ) * a.fs / N < a.cutoff).card : ℝ) * (1 / 10 ^ 20) =
        ∑ k ∈ range n, if s < k ∧ (k : ℝ) * a.fs / N < a.cutoff then (1 / 10 ^ 20 : ℝ) else 0 := by
      rw [← sum_filter, sum_const, nsmul_eq_mul]
    have hg : (if a.cutoff ≤ (s : ℝ) * a.fs / N then guardBin ml s b else 0) =
        ∑ k ∈ range n, if k = s then (if a.cutoff ≤ (s : ℝ) * a.fs / N then guardBin ml s b else 0) else 0 := by
      rw [sum_ite_eq' (range n) s, if_pos (mem_range.mpr (by omega))]
    rw [hcard, hg, ← sum_sub_distrib, ← sum_add_distrib]
    apply sum_congr rfl
    intro i hi
    rw [mem_range] at hi
    rw [cleared_getD, hcut, hpow i (by omega)]
    change (if _ then (if (i : ℝ) * a.fs / N < a.cutoff then _ else _) else _) = _
    unfold guardBin
    by_cases hx : (i : ℝ) * a.fs / N < a.cutoff
    · have hib : i < b - s := by
        by_contra hy
        exact habove i (by omega) hx
      rw [if_pos hx, if_pos hx]
      rcases lt_trichotomy i s with hl | hl | hl
      · rw [if_neg (by omega), if_neg (by omega), if_neg (by omega), if_neg (by omega)]
        ring
      · subst hl
        rw [if_pos rfl, if_neg (not_le.mpr hx)]
        split_ifs <;> first | omega | ring
      · rw [if_pos (by omega), if_neg (show ¬ i = s by omega), if_pos (show s < i ∧ (i : ℝ) * a.fs / N < a.cutoff from ⟨hl, hx⟩)]
        split_ifs <;> ring
    · rw [if_neg hx, if_neg hx, if_neg (show ¬ (s < i ∧ (i : ℝ) * a.fs / N < a.cutoff) from fun hy => hx hy.2)]
      rcases lt_trichotomy i s with hl | hl | hl
      · rw [if_neg (by omega), if_neg (by omega), if_neg (by omega)]
        ring
      · subst hl
        rw [if_pos rfl, if_pos (not_lt.mp hx)]
        split_ifs with h1 h2 h3 h3 h3 <;> first | omega | ring
      · rw [if_neg (show ¬ i = s by omega)]
        split_ifs with h1 h2 h2 <;> first | omega | ring
  have hm1 : m.bin = b := rfl
  have hm2 : m.noi = mlNoiseDist (mlCutoff ml a.cutoff a.fs N) n s b := by
    show mlNoiseDist (if harmonic < 0 then _ else mlCutoff ml a.cutoff a.fs N) n s b = _
    rw [if_neg (not_lt.mpr hh)]
  have hm3 : m.sig = sigLinear a (mlSignal (mlCutoff ml a.cutoff a.fs N) n s b) := by
    show (match a.assumed with | some v => (10 : ℝ) ^ (v / 10) | none => mlSignal (mlCutoff ml a.cutoff a.fs N) n s b) = _
    unfold sigLinear
    cases a.assumed <;> rfl
  have hm4 : m.pwr = match a.assumed with | some v => ((v : ℝ) : EReal) | none => dB m.sig := rfl
  refine ⟨hfb.trans hm1.symm, ?_, ?_⟩
  · rw [hsp, hfb]
    change ((sigPwrDbfs a (signalPower r.power n s b) : ℝ) : EReal) = _
    rw [hsig, hm4, hm3]
    unfold sigPwrDbfs sigLinear
    cases a.assumed with
    | some v => rfl
    | none =>
      simp only
      have hge : (1 : ℝ) / 10 ^ 30 ≤ mlSignal (mlCutoff ml a.cutoff a.fs N) n s b := le_trans (by norm_num) hbig.le
      rw [max_eq_left hge]
      unfold dB
      rw [if_neg (by
        have : (0 : ℝ) < 1 / 10 ^ 20 := by norm_num
        linarith)]
  · rw [hsn, hfb]
    change dB (sigLinear a (signalPower r.power n s b) / (noiseAndDistortion r.power n s b + 1 / 10 ^ 20)) = _
    rw [hsig, hnad, hm3, hm2]

/-- **C137 (refuted: cutoff above the strongest bin).** `plotspec.m` looks for the signal in a copy of the band taken before the cutoff. With the lobe of the strongest bin
below the cutoff, and some in-band bin at or above it holding more than `1e-20`, it reports the cleared bins as the signal: power and SNDR minus infinity.
`compute_spectrum` finds a fundamental at or above the cutoff, in another bin, with a power above -200 dBFS. -/
theorem C137_cutoff_above_false (lib : WinLib) (d : List (List ℝ)) (P : ℝ) (hann : Bool) (a : SpectrumArgs) (s : ℕ) (h : SameCut d P hann a s) (has : a.assumed = none)
    (r : SpectrumResult) (hr : computeSpectrum lib d a = .ok r) :
    ∃ ml, mlPowerSpectrum d P (mlWindow hann (d.headD []).length) (d.headD []).length = some ml ∧
      let N := (d.headD []).length
      let n := mlInbandEnd N a.osr
      let b := mlBin ml n
      ∀ (i : ℕ) (binR : ℝ) (harmonic : ℤ) (nThd : ℕ), 0 ≤ harmonic → ((b + s : ℕ) : ℝ) * a.fs / N < a.cutoff → i < n → a.cutoff ≤ (i : ℝ) * a.fs / N →
        1 / 10 ^ 20 < ml.getD i 0 →
        let m := mlNumbers ml N n s a.cutoff a.fs a.assumed binR harmonic nThd
        m.bin = b ∧ m.pwr = ⊥ ∧ m.sndr = some ⊥ ∧ a.cutoff ≤ (r.fundamentalBin : ℝ) * a.fs / N ∧ r.fundamentalBin ≠ m.bin ∧ -200 < r.sigPwr := by
  obtain ⟨ml, h2, h4, hlen, hN, hnml, hn1, hpow, hf, hsp, hsn⟩ := cut_core lib d P hann a s h r hr
  refine ⟨ml, h2, ?_⟩
  intro N n b i binR harmonic nThd hh hcb hin hci hip m
  have hnml : n ≤ ml.length := hnml
  have hnn := spectrum_nonneg d P _ _ ml h2
  have hfs := h.rate
  have hc := h.cutoff
  have hcut : ∀ k, (mlCutoff ml a.cutoff a.fs N).getD k 0 = if (k : ℝ) * a.fs / N < a.cutoff then 0 else ml.getD k 0 := fun k => cut_getD ml _ _ N k hfs hN hc
  have hbi : b + s < i := by
    by_contra hx
    have := freq_mono a.fs N i (b + s) hfs hN (by omega)
    linarith
  have hsig : mlSignal (mlCutoff ml a.cutoff a.fs N) n s b = 0 := by
    unfold mlSignal
    rw [slice_sum]
    apply sum_eq_zero
    intro k hk
    rw [mem_Ico] at hk
    rw [hcut, if_pos]
    have := freq_mono a.fs N k (b + s) hfs hN (by omega)
    linarith
  have hms : m.sig = 0 := by
    show (match a.assumed with | some v => (10 : ℝ) ^ (v / 10) | none => mlSignal (mlCutoff ml a.cutoff a.fs N) n s b) = 0
    rw [has]
    exact hsig
  have hm2 : m.noi = mlNoiseDist (mlCutoff ml a.cutoff a.fs N) n s b := by
    show mlNoiseDist (if harmonic < 0 then _ else mlCutoff ml a.cutoff a.fs N) n s b = _
    rw [if_neg (not_lt.mpr hh)]
  have hpos20 : (0 : ℝ) < 1 / 10 ^ 20 := by norm_num
  have hnoi : m.noi ≠ 0 := by
    rw [hm2, noise_sum _ _ _ _ (by rw [cut_length]; exact hnml)]
    apply ne_of_gt
    refine lt_of_lt_of_le ?_ (single_le_sum (f := fun j => if s ≤ j ∧ ¬ (b - s ≤ j ∧ j < b + s + 1) then (mlCutoff ml a.cutoff a.fs N).getD j 0 else 0) (a := i)
      (fun j _ => ?_) (mem_range.mpr hin))
    · beta_reduce
      rw [if_pos (by omega), hcut, if_neg (not_lt.mpr hci)]
      linarith
    · beta_reduce
      rw [hcut]
      have := hnn j
      split_ifs <;> first | exact le_refl 0 | exact this
  have hpi : r.power.getD i 0 = ml.getD i 0 := by
    rw [hpow i (by omega), if_neg (not_lt.mpr hci)]
  obtain ⟨g1, g2, g3, -⟩ := C27_fundamental_strongest r.power n (by omega) (by omega)
  have h5 := g3 i (by omega) hin
  rw [show fundamentalBin r.power n = r.fundamentalBin from hf.symm] at g1 g2 h5
  have hbig : 1 / 10 ^ 20 < r.power.getD r.fundamentalBin 0 := by
    rw [hpi] at h5
    linarith
  have hfc : a.cutoff ≤ (r.fundamentalBin : ℝ) * a.fs / N := by
    by_contra hx
    have h6 := hpow r.fundamentalBin (by omega)
    rw [if_pos (not_le.mp hx)] at h6
    linarith
  refine ⟨rfl, ?_, ?_, hfc, ?_, ?_⟩
  · show (match a.assumed with | some v => ((v : ℝ) : EReal) | none => dB m.sig) = ⊥
    rw [has, hms]
    simp [dB]
  · show mlRatio m.sig m.noi = some ⊥
    unfold mlRatio
    rw [if_neg hnoi, hms, zero_div]
    simp [dB]
  · intro hx
    have hx : r.fundamentalBin = b := hx
    rw [hx] at hfc
    have := freq_mono a.fs N b (b + s) hfs hN (by omega)
    linarith
  · have hge : 1 / 10 ^ 20 < signalPower r.power n s r.fundamentalBin := by
      unfold signalPower
      rw [slice_sum]
      refine lt_of_lt_of_le hbig (single_le_sum (f := fun j => r.power.getD j 0) (fun j hj => ?_) (mem_Ico.mpr ⟨by omega, by omega⟩))
      rw [mem_Ico] at hj
      rw [hpow j (by omega)]
      have := hnn j
      split_ifs
      · exact hpos20.le
      · exact this
    rw [hsp]
    change -200 < sigPwrDbfs a (signalPower r.power n s r.fundamentalBin)
    unfold sigPwrDbfs
    rw [has]
    simp only
    rw [max_eq_left (le_trans (by norm_num) hge.le)]
    have hl := Real.logb_lt_logb (b := 10) (by norm_num) hpos20 hge
    have he : Real.logb 10 (1 / 10 ^ 20) = -20 := by
      rw [one_div, Real.logb_inv, ← Real.rpow_natCast, Real.logb_rpow (by norm_num) (by norm_num)]
      norm_num
    linarith

/-! ### Removed harmonics -/

/-- Bin `i` belongs to the lobe of one of the harmonics. -/
def InLobes (hs : List ℤ) (s i : ℕ) : Prop := ∃ h ∈ hs, h - s ≤ (i : ℤ) ∧ (i : ℤ) ≤ h + s

instance (hs : List ℤ) (s i : ℕ) : Decidable (InLobes hs s i) := by unfold InLobes; infer_instance

private theorem remove_getD (p : List ℝ) (s : ℕ) (hs : List ℤ) (i : ℕ) (hi : i < p.length) :
    (mlRemove p s hs).getD i 0 = if InLobes hs s i then 0 else p.getD i 0 := by
  unfold mlRemove
  have key : ∀ (c : List ℝ), (hs.foldl (fun (c : List ℝ) (h : ℤ) => zeroRange c (max (h - s) 0).toNat (min (h + s + 1) p.length).toNat) c).getD i 0 =
      if InLobes hs s i then 0 else c.getD i 0 := by
    induction hs with
    | nil => intro c; simp [InLobes]
    | cons h t ih =>
      intro c
      rw [List.foldl_cons, ih, zeroRange_getD]
      have hc : InLobes (h :: t) s i ↔ (h - s ≤ (i : ℤ) ∧ (i : ℤ) ≤ h + s) ∨ InLobes t s i := by
        unfold InLobes
        simp
      by_cases h1 : InLobes t s i
      · rw [if_pos h1, if_pos (hc.mpr (Or.inr h1))]
      · rw [if_neg h1]
        by_cases h2 : h - s ≤ (i : ℤ) ∧ (i : ℤ) ≤ h + s
        · rw [if_pos (hc.mpr (Or.inl h2)), if_pos (by omega)]
        · rw [if_neg (fun hx => (hc.mp hx).elim h2 h1), if_neg (by omega)]
  exact key p

private theorem remove_length (p : List ℝ) (s : ℕ) (hs : List ℤ) : (mlRemove p s hs).length = p.length := by
  unfold mlRemove
  have key : ∀ (c : List ℝ), (hs.foldl (fun (c : List ℝ) (h : ℤ) => zeroRange c (max (h - s) 0).toNat (min (h + s + 1) p.length).toNat) c).length = c.length := by
    induction hs with
    | nil => intro c; rfl
    | cons h t ih => intro c; rw [List.foldl_cons, ih, zeroRange_length]
  exact key p

/-- **C137 (removed harmonics).** With `harmonic = -H` the noise and distortion of `plotspec.m` is the power of the in-band bins outside DC, outside the signal lobe and outside
the lobes of harmonics 2 to `H`. Bin, signal power and signal level stay those of a call with a positive `harmonic`. -/
theorem C137_removed (spec : List ℝ) (N nIn s : ℕ) (cutoff fs : ℝ) (assumed : Option ℝ) (binR : ℝ) (H : ℕ) (nThd : ℕ) (hH : 0 < H) (hn : nIn ≤ spec.length) :
    let m := mlNumbers spec N nIn s cutoff fs assumed binR (-(H : ℤ)) nThd
    let m0 := mlNumbers spec N nIn s cutoff fs assumed binR H nThd
    m.bin = m0.bin ∧ m.sig = m0.sig ∧ m.pwr = m0.pwr ∧
    m0.noi = ∑ i ∈ range nIn, (if s ≤ i ∧ ¬ (m.bin - s ≤ i ∧ i ≤ m.bin + s) then (mlCutoff spec cutoff fs N).getD i 0 else 0) ∧
    m.noi = ∑ i ∈ range nIn, (if (s ≤ i ∧ ¬ (m.bin - s ≤ i ∧ i ≤ m.bin + s)) ∧ ¬ InLobes (mlHarmonicBins binR H N) s i then (mlCutoff spec cutoff fs N).getD i 0 else 0) := by
  intro m m0
  refine ⟨rfl, rfl, rfl, ?_, ?_⟩
  · show mlNoiseDist (if (H : ℤ) < 0 then _ else mlCutoff spec cutoff fs N) nIn s (mlBin spec nIn) = _
    rw [if_neg (by omega), noise_sum _ _ _ _ (by rw [cut_length]; exact hn)]
    apply sum_congr rfl
    intro i _
    have e : m.bin = mlBin spec nIn := rfl
    rw [e]
    simp only [Nat.lt_succ_iff]
  · show mlNoiseDist (if -(H : ℤ) < 0 then mlRemove (mlCutoff spec cutoff fs N) s (mlHarmonicBins binR (-(-(H : ℤ))).toNat N) else _) nIn s (mlBin spec nIn) = _
    rw [if_pos (by omega), show (-(-(H : ℤ))).toNat = H by omega, noise_sum _ _ _ _ (by rw [remove_length, cut_length]; exact hn)]
    apply sum_congr rfl
    intro i hi
    have e : m.bin = mlBin spec nIn := rfl
    rw [e, remove_getD _ _ _ _ (by rw [cut_length]; have := mem_range.mp hi; omega)]
    by_cases h1 : s ≤ i ∧ ¬ (mlBin spec nIn - s ≤ i ∧ i < mlBin spec nIn + s + 1)
    · rw [if_pos h1]
      by_cases h2 : InLobes (mlHarmonicBins binR H N) s i
      · rw [if_pos h2, if_neg (fun hx => hx.2 h2)]
      · rw [if_neg h2, if_pos ⟨by omega, h2⟩]
    · rw [if_neg h1, if_neg (fun hx => h1 (by omega))]

/-- **C137 (refuted: THD of removed harmonics).** If the harmonics counted by the THD are among the removed ones, `plotspec.m` reports a THD of minus infinity, for every spectrum with
a signal. -/
theorem C137_thd_false (spec : List ℝ) (N nIn s : ℕ) (cutoff fs : ℝ) (assumed : Option ℝ) (binR : ℝ) (H : ℕ) (nThd : ℕ) (hH : 0 < H) (hn : nIn ≤ spec.length) (hT : nThd ≤ H)
    (hsig : (mlNumbers spec N nIn s cutoff fs assumed binR (-(H : ℤ)) nThd).sig ≠ 0) :
    (mlNumbers spec N nIn s cutoff fs assumed binR (-(H : ℤ)) nThd).thd = some ⊥ := by
  have hsub : ∀ h ∈ mlHarmonicBins binR nThd N, h ∈ mlHarmonicBins binR H N := by
    intro h hh
    unfold mlHarmonicBins at hh ⊢
    rw [List.mem_map] at hh ⊢
    obtain ⟨i, hi, rfl⟩ := hh
    rw [List.mem_range] at hi
    exact ⟨i, List.mem_range.mpr (by omega), rfl⟩
  have hmask : ∀ (hs : List ℤ) (m : Finset ℕ) (i : ℕ), i ∈ hs.foldl (fun (m : Finset ℕ) (h : ℤ) => m ∪ Ico (max (h - s) 0).toNat (min (h + s + 1) nIn).toNat) m →
      i ∈ m ∨ (i < nIn ∧ InLobes hs s i) := by
    intro hs
    induction hs with
    | nil => intro m i hi; exact Or.inl hi
    | cons h t ih =>
      intro m i hi
      rw [List.foldl_cons] at hi
      rcases ih _ _ hi with h1 | ⟨h1, h, h2, h3⟩
      · rw [mem_union, mem_Ico] at h1
        rcases h1 with h1 | h1
        · exact Or.inl h1
        · exact Or.inr ⟨by omega, h, by simp, by omega⟩
      · exact Or.inr ⟨h1, h, by simp [h2], h3⟩
  have hz : mlThd (mlRemove (mlCutoff spec cutoff fs N) s (mlHarmonicBins binR H N)) nIn s (mlBin spec nIn) (mlHarmonicBins binR nThd N) = 0 := by
    unfold mlThd mlThdBins
    apply sum_eq_zero
    intro i hi
    rcases hmask _ _ _ hi with h1 | ⟨h1, h, h2, h3⟩
    · simp at h1
    · rw [cleared_getD', remove_getD _ _ _ _ (by rw [cut_length]; omega), if_pos (show InLobes (mlHarmonicBins binR H N) s i from ⟨h, hsub h h2, h3⟩)]
      split_ifs <;> rfl
  show mlRatio (mlThd (if -(H : ℤ) < 0 then mlRemove (mlCutoff spec cutoff fs N) s (mlHarmonicBins binR (-(-(H : ℤ))).toNat N) else _) nIn s (mlBin spec nIn) _)
    (mlNumbers spec N nIn s cutoff fs assumed binR (-(H : ℤ)) nThd).sig = some ⊥
  rw [if_pos (by omega), show (-(-(H : ℤ))).toNat = H by omega, hz]
  unfold mlRatio
  rw [if_neg hsig, zero_div]
  simp [dB]

/-- **C137 (Python never removes).** The SNDR, SFDR and signal power of `compute_spectrum` do not depend on the number of harmonics asked for. -/
theorem C137_python (lib : WinLib) (d : List (List ℝ)) (a : SpectrumArgs) (hc : a.coherent = false) (H : ℕ) (r r' : SpectrumResult) (hr : computeSpectrum lib d a = .ok r)
    (hr' : computeSpectrum lib d { a with maxHarmonic := H } = .ok r') : r'.sndr = r.sndr ∧ r'.sfdr = r.sfdr ∧ r'.sigPwr = r.sigPwr ∧ r'.power = r.power := by
  obtain ⟨d1, n, hd, hn, -, -, -, -, -, -, hpow, hm⟩ := computeSpectrum_ok lib d a r hr
  obtain ⟨d2, n', hd', hn', -, -, -, -, -, -, hpow', hm'⟩ := computeSpectrum_ok lib d { a with maxHarmonic := H } r' hr'
  have ed : d2 = d1 := Except.ok.inj (hd'.symm.trans hd)
  subst ed
  have en : n' = n := Except.ok.inj (hn'.symm.trans hn)
  subst en
  have ep : r'.power = r.power := by
    rw [hpow, hpow']
    unfold rawSpectrum
    simp only [hc, Bool.false_eq_true, if_false]
  obtain ⟨bins, spur, noise, -, g2, -, hres⟩ := spectrumMetrics_ok _ _ _ _ _ _ _ hm
  obtain ⟨bins', spur', noise', -, g2', -, hres'⟩ := spectrumMetrics_ok _ _ _ _ _ _ _ hm'
  have es : ∀ p, sideBinOf lib { a with maxHarmonic := H } (d2.headD []).length n' p = sideBinOf lib a (d2.headD []).length n' p := fun _ => rfl
  rw [ep] at g2' hres'
  rw [es] at g2' hres'
  have esp : spur' = spur := Except.ok.inj (g2'.symm.trans g2)
  subst esp
  refine ⟨?_, ?_, ?_, ep⟩
  · rw [hres, hres']; rfl
  · rw [hres, hres']; rfl
  · rw [hres, hres']; rfl

/-! ### Cases -/

/-- A spectrum with a tone in bin 1 and its third harmonic in bin 3. Asked for `harmonic = 3` the SNDR is 10 log 4; asked for `harmonic = -3` nothing is left and it is infinite. -/
example : (mlNumbers [0, 4, 0, 1, 0] 8 5 0 0 1 none 1 3 3).sndr = some (dB 4) ∧ (mlNumbers [0, 4, 0, 1, 0] 8 5 0 0 1 none 1 (-3) 3).sndr = some ⊤ ∧
    (mlNumbers [0, 4, 0, 1, 0] 8 5 0 0 1 none 1 (-3) 3).thd = some ⊥ := by
  have hb : mlBin [0, 4, 0, 1, 0] 5 = 1 := by
    unfold mlBin
    norm_num [argmax]
  have hh : mlHarmonicBins (1 : ℝ) 3 8 = [2, 3] := by
    have r2 : mlRound ((1 : ℝ) * ((0 + 2 : ℕ) : ℝ)) = 2 := by
      unfold mlRound
      norm_num
    have r3 : mlRound ((1 : ℝ) * ((1 + 2 : ℕ) : ℝ)) = 3 := by
      unfold mlRound
      norm_num
    have f1 : ⌊(2 : ℝ) / 8 * 2⌋ = 0 := by norm_num
    have f2 : ⌊(3 : ℝ) / 8 * 2⌋ = 0 := by norm_num
    have f3 : ⌊(2 : ℝ) / 8⌋ = 0 := by norm_num
    have f4 : ⌊(3 : ℝ) / 8⌋ = 0 := by norm_num
    unfold mlHarmonicBins
    simp only [List.range_succ, List.range_zero, List.nil_append, List.map_append, List.map_cons, List.map_nil, r2, r3, mlAlias]
    push_cast
    norm_num [f1, f2, f3, f4]
  have hc : mlCutoff [0, 4, 0, 1, 0] 0 1 8 = [0, 4, 0, 1, 0] := if_neg (lt_irrefl 0)
  have hs : mlSignal ([0, 4, 0, 1, 0] : List ℝ) 5 0 1 = 4 := by
    simp [mlSignal, slice]
  obtain ⟨-, e1, -, e2, e3⟩ := C137_removed [0, 4, 0, 1, 0] 8 5 0 0 1 none 1 3 3 (by norm_num) (by simp)
  have e0 : (mlNumbers [0, 4, 0, 1, 0] 8 5 0 0 1 none 1 (3 : ℕ) 3).sig = 4 := by
    show mlSignal (mlCutoff [0, 4, 0, 1, 0] 0 1 8) 5 0 (mlBin [0, 4, 0, 1, 0] 5) = 4
    rw [hc, hb, hs]
  have eb : (mlNumbers [0, 4, 0, 1, 0] 8 5 0 0 1 none 1 (-(3 : ℕ) : ℤ) 3).bin = 1 := hb
  rw [eb, hc] at e2 e3
  rw [hh] at e3
  simp [sum_range_succ, InLobes] at e2 e3
  have e1' : (mlNumbers [0, 4, 0, 1, 0] 8 5 0 0 1 none 1 (-(3 : ℕ) : ℤ) 3).sig = 4 := e1.trans e0
  refine ⟨?_, ?_, C137_thd_false [0, 4, 0, 1, 0] 8 5 0 0 1 none 1 3 3 (by norm_num) (by simp) le_rfl (by rw [e1']; norm_num)⟩
  · show mlRatio (mlNumbers [0, 4, 0, 1, 0] 8 5 0 0 1 none 1 (3 : ℕ) 3).sig (mlNumbers [0, 4, 0, 1, 0] 8 5 0 0 1 none 1 3 3).noi = _
    rw [e0, e2]
    simp [mlRatio]
  · show mlRatio (mlNumbers [0, 4, 0, 1, 0] 8 5 0 0 1 none 1 (-(3 : ℕ) : ℤ) 3).sig (mlNumbers [0, 4, 0, 1, 0] 8 5 0 0 1 none 1 (-3) 3).noi = _
    rw [e1', e3]
    simp [mlRatio]

private theorem cis_fourth (k n : ℕ) : cis (-(((k : ℤ) : ℝ) * n / ((4 : ℕ) : ℝ))) = (-Complex.I) ^ (k * n) := by
  have c1 : cis (-(1 / 4)) = -Complex.I := by
    unfold cis
    rw [show (2 * (Real.pi : ℂ) * ((-(1 / 4) : ℝ) : ℂ) * Complex.I) = -(Real.pi / 2 * Complex.I) by push_cast; ring, Complex.exp_neg, Complex.exp_pi_div_two_mul_I, Complex.inv_I]
  rw [← c1, ← cis_nat_mul]
  congr 1
  push_cast
  ring

/-- The record 4, -1, -2, -1 (a tone of amplitude 3 at a quarter of the rate and one of amplitude 1 at half the rate): powers 9 and 2. -/
private theorem two_tones : mlPowerSpectrum [[4, -1, -2, -1]] 2 (mlWindow false 4) 4 = some [0, 9, 2] := by
  have hl : mlLive [[4, -1, -2, -1]] = ([[4, -1, -2, -1]] : List (List ℝ)) := by
    apply live_all
    intro r hr
    simp at hr
    exact ⟨4, by simp [hr], by norm_num⟩
  have hrun : ∀ n, mlRun [4, -1, -2, -1] 2 (mlWindow false 4) 4 n = ([2, -1 / 2, -1, -1 / 2] : List ℝ).getD n 0 := by
    intro n
    have hm : removeDc (([4, -1, -2, -1] : List ℝ).map (· / 2)) = [2, -1 / 2, -1, -1 / 2] := by
      simp [removeDc]
      norm_num
    unfold mlRun
    rw [hm]
    have hw : ∀ i, mlWindow false 4 i = 1 := fun i => by simp [mlWindow]
    simp only [hw]
    norm_num
  have hd1 : dft 4 (fun n => (mlRun [4, -1, -2, -1] 2 (mlWindow false 4) 4 n : ℂ)) ((1 : ℕ) : ℤ) = 3 := by
    unfold dft
    rw [sum_range_succ, sum_range_succ, sum_range_succ, sum_range_succ, range_zero, sum_empty]
    rw [cis_fourth 1 0, cis_fourth 1 1, cis_fourth 1 2, cis_fourth 1 3]
    simp only [hrun, List.getD_cons_zero, List.getD_cons_succ]
    have : Complex.I ^ 3 = -Complex.I := Complex.I_pow_three
    have h2 := Complex.I_sq
    push_cast
    linear_combination (-1 : ℂ) * h2 + (1 / 2 : ℂ) * this
  have hd2 : dft 4 (fun n => (mlRun [4, -1, -2, -1] 2 (mlWindow false 4) 4 n : ℂ)) ((2 : ℕ) : ℤ) = 2 := by
    unfold dft
    rw [sum_range_succ, sum_range_succ, sum_range_succ, sum_range_succ, range_zero, sum_empty]
    rw [cis_fourth 2 0, cis_fourth 2 1, cis_fourth 2 2, cis_fourth 2 3]
    simp only [hrun, List.getD_cons_zero, List.getD_cons_succ]
    have h2 : (-Complex.I) ^ 2 = -1 := by rw [neg_sq, Complex.I_sq]
    rw [pow_mul, pow_mul, pow_mul, pow_mul, h2]
    push_cast
    norm_num
  unfold mlPowerSpectrum
  simp only [hl]
  rw [if_neg (by simp)]
  simp only [List.range_succ, List.range_zero, List.nil_append, List.map_append, List.map_cons, List.map_nil, List.sum_cons, List.sum_nil, hd1, hd2, mlNyquist]
  norm_num

/-- The two tones with a cutoff above the stronger one: every hypothesis of the refutation holds. -/
example (lib : WinLib) (c : ℝ) (hc : 0 < c) : ∃ r, computeSpectrum lib [[4, -1, -2, -1]] { scale := .scalar 1, win := "boxcar", sideBin := some 0, nfMethod := 3, cutoff := c } = .ok r ∧
    SameCut [[4, -1, -2, -1]] 2 false { scale := .scalar 1, win := "boxcar", sideBin := some 0, nfMethod := 3, cutoff := c } 0 ∧
    mlPowerSpectrum [[4, -1, -2, -1]] 2 (mlWindow false 4) 4 = some [0, 9, 2] ∧ mlInbandEnd 4 1 = 3 ∧ mlBin [0, 9, 2] 3 = 1 := by
  have h : RunsBySamples ([[4, -1, -2, -1]] : List (List ℝ)) := ⟨by intro r hr; simp at hr; subst hr; rfl, Or.inl rfl⟩
  have hsc : SameScale [[4, -1, -2, -1]] 2 (.scalar 1) := by
    show (2 : ℝ) = 2 * 1
    norm_num
  obtain ⟨r, hr⟩ := (C63_compute_spectrum_total lib [[4, -1, -2, -1]] { scale := .scalar 1, win := "boxcar", sideBin := some 0, nfMethod := 3, cutoff := c } _
    (ml_prepared _ h 2 two_ne_zero (.scalar 1) hsc) (by simp [removeDc])).mpr ⟨one_pos, by norm_num, by norm_num, by norm_num⟩
  refine ⟨r, hr, ⟨h, two_ne_zero, hsc, rfl, rfl, by simp, ?_, hc, one_pos, rfl, ?_⟩, two_tones, ?_, ?_⟩
  · intro r hr
    simp at hr
    exact ⟨4, by simp [hr], by norm_num⟩
  · intro z hz
    norm_num at hz ⊢
    have h1 : z ≠ 2 := by rintro rfl; norm_num at hz
    have h2 : (1 : ℝ) ≤ |2 - (z : ℝ)| := by
      have : (1 : ℤ) ≤ |2 - z| := Int.one_le_abs (by omega)
      exact_mod_cast this
    have h3 : |(z : ℝ)| ≤ |2 - (z : ℝ)| + 2 := by
      have := abs_sub_abs_le_abs_sub (z : ℝ) 2
      rw [abs_sub_comm] at this
      have h5 : |(2 : ℝ)| = 2 := by norm_num
      linarith
    linarith
  · unfold mlInbandEnd
    norm_num
    rfl
  · unfold mlBin
    norm_num [argmax]

-- cutoff 0.3 of the rate: bin 1 (0.25) is cut, bin 2 (0.5) is not; cutoff 0.1 leaves both
example : ((1 + 0 : ℕ) : ℝ) * 1 / (4 : ℕ) < 3 / 10 ∧ (3 / 10 : ℝ) ≤ ((2 : ℕ) : ℝ) * 1 / (4 : ℕ) ∧ (1 / 10 : ℝ) ≤ ((1 - 0 : ℕ) : ℝ) * 1 / (4 : ℕ) := by norm_num

end Verif
