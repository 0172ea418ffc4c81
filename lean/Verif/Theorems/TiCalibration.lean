import Verif.Theorems.Mismatch
import Verif.Theorems.FftDelay
import Verif.Theorems.Interleave
import Mathlib.Analysis.SpecialFunctions.Trigonometric.Bounds

/-!
# C139: extraction and foreground calibration of a time-interleaved converter, end to end
-/

namespace Verif

open Model Spec Finset

/-! ### The converter, as a user describes it -/

/-- An input waveform: a finite sum of tones `A·cos(2π f t + φ)`. -/
noncomputable def tones {ι : Type} (S : Finset ι) (A f φ : ι → ℝ) (t : ℝ) : ℝ :=
  ∑ i ∈ S, A i * Real.cos (2 * Real.pi * (f i * t) + φ i)

/-- Sample `n` of an interleaved converter for the waveform `s`: channel `m = n mod M` has gain `g_m`, offset `o_m` and
samples late by `t_m`. -/
noncomputable def tiRecord (gain offset skew : List ℝ) (s : ℝ → ℝ) (fs : ℝ) (n : ℕ) : ℝ :=
  let m := n % gain.length
  offset.getD m 0 + gain.getD m 0 * s (n / fs + skew.getD m 0)

/-- What is left of the skew `d` of a channel for a tone `q` channel-rates above the one its channel sees: skews below
`1e-18` s are left alone (phase `f·d`), the others are turned by the frequency inside the channel only. -/
noncomputable def leftTurn (q : ℤ) (f fs : ℝ) (M : ℕ) (d : ℝ) : ℝ :=
  if |d| < 1 / 10 ^ 18 then f * d else q * (fs / M) * d

/-! ### Rows -/

private theorem rows_deint {α : Type} [Zero α] (F : ℕ → α) (m k : ℕ) (hm : m ≠ 0) :
    deinterleave 1 ((List.range (k * m)).map F) m
      = .ok ((List.range m).map fun c => (List.range k).map fun r => F (r * m + c)) := by
  unfold deinterleave
  rw [if_neg (by simp), if_neg (by omega), if_neg (by simp)]
  simp only [Int.toNat_natCast, List.length_map, List.length_range]
  rw [Nat.mul_div_cancel _ (Nat.pos_of_ne_zero hm)]
  congr 1
  apply List.map_congr_left
  intro c hc
  rw [List.mem_range] at hc
  apply List.map_congr_left
  intro r hr
  rw [List.mem_range] at hr
  have hlt : r * m + c < k * m := by
    have : (r + 1) * m ≤ k * m := Nat.mul_le_mul_right m hr
    rw [Nat.add_mul] at this; omega
  rw [List.getD_eq_getElem?_getD, List.getElem?_map, List.getElem?_eq_getElem (by simpa using hlt)]
  simp only [List.getElem_range, Option.map_some, Option.getD_some]

private theorem rows_inter {α : Type} [Zero α] (F : ℕ → α) (m k : ℕ) (hm : m ≠ 0) :
    interleave 2 ((List.range m).map fun c => (List.range k).map fun r => F (r * m + c))
      = .ok ((List.range (k * m)).map F) :=
  C17_interleave_deinterleave 1 _ m _ (rows_deint F m k hm)

private theorem loop_rows (fft farrow : List ℝ → ℝ → ℝ → Py (List ℝ)) (method : String) (fsCh : ℝ) (l : List ℕ)
    (f : ℕ → List ℝ) (g : ℕ → ℝ) (h : ℕ → List ℝ) (H : ∀ c ∈ l, skewRow fft farrow method fsCh (f c) (g c) = .ok (h c)) :
    skewLoop fft farrow method fsCh (l.map f) (l.map g) = .ok (l.map h) := by
  induction l with
  | nil => rfl
  | cons c l ih =>
    simp only [List.map_cons]
    unfold skewLoop
    rw [H c (by simp), ih fun c' hc' => H c' (by simp [hc'])]
    rfl

/-- A tone sampled `q` whole rates above the one inside the channel is turned by the inner frequency only. -/
private theorem delay_row {ι : Type} (S : Finset ι) (A θ : ι → ℝ) (a : ι → ℤ) (K : ℕ) (hK : K ≠ 0)
    (ha : ∀ i ∈ S, 2 * |a i| < K) (d fsCh : ℝ) (hfs : fsCh ≠ 0) :
    fftDelay 1 ((List.range K).map fun (r : ℕ) => ∑ i ∈ S, A i * Real.cos (2 * Real.pi * (a i * r / K) + θ i)) d fsCh
      = .ok ((List.range K).map fun (r : ℕ) =>
          ∑ i ∈ S, A i * Real.cos (2 * Real.pi * (a i * (r - d * fsCh) / K) + θ i)) := by
  have hsgn : ∀ (i : ι) (u : ℝ), Real.cos (2 * Real.pi * (a i * u / K) + θ i)
      = Real.cos (2 * Real.pi * (((a i).natAbs : ℝ) * u / K) + (if 0 ≤ a i then θ i else -θ i)) := by
    intro i u
    by_cases h : 0 ≤ a i
    · rw [if_pos h, Nat.cast_natAbs, abs_of_nonneg h]
    · rw [if_neg h, Nat.cast_natAbs, abs_of_neg (by omega), ← Real.cos_neg]
      congr 1
      push_cast
      ring
  have key := C22_bandlimited_delay_exact S A (fun i => if 0 ≤ a i then θ i else -θ i) (fun i => (a i).natAbs) K hK
    (fun i hi => by have := ha i hi; rw [Int.abs_eq_natAbs] at this; exact_mod_cast this) d fsCh hfs
  simp only [hsgn]
  exact key

/-! ### One calibration -/

/-- **C139 (every signal, every zone).** Record any sum of coherent tones with an `M`-channel converter of arbitrary
non-zero gains, offsets and skews, `K` samples per channel, tone `i` lying `a i` bins from `q i` times the channel rate
`fs/M` (`2|a i| < K`: not half-way). Calibrating with the offsets, the gains up to a common factor `1/c` and the skews
up to a common shift `τ` (`skew_method = "fft"`) returns exactly: `c` times the waveform delayed by `τ`, in which channel
`m` of tone `i` is turned by `leftTurn`: `q i·fs/M·(t_m - τ)` cycles. -/
theorem C139_every_zone {ι : Type} (S : Finset ι) (A f φ : ι → ℝ) (q a : ι → ℤ) (gain offset skew : List ℝ) (fs c τ : ℝ)
    (K : ℕ) (farrow : List ℝ → ℝ → ℝ → Py (List ℝ)) (hM : gain ≠ []) (ho : offset.length = gain.length)
    (hs : skew.length = gain.length) (hg : ∀ g ∈ gain, g ≠ 0) (hc : c ≠ 0) (hfs : fs ≠ 0) (hK : K ≠ 0)
    (hcoh : ∀ i ∈ S, f i * (K * gain.length) / fs = q i * K + a i) (ha : ∀ i ∈ S, 2 * |a i| < K) :
    calibrateForeground (fftDelay 1) farrow 1
        ((List.range (K * gain.length)).map (tiRecord gain offset skew (tones S A f φ) fs)) gain.length
        offset (gain.map (· / c)) (skew.map (· - τ)) fs "fft"
      = .ok ((List.range (K * gain.length)).map fun (n : ℕ) =>
          c * ∑ i ∈ S, A i * Real.cos (2 * Real.pi * (f i * (n / fs + τ)
            + leftTurn (q i) (f i) fs gain.length (skew.getD (n % gain.length) 0 - τ)) + φ i)) := by
  set M := gain.length with hMdef
  have hM0 : M ≠ 0 := by simpa [hMdef] using hM
  have hMR : (M : ℝ) ≠ 0 := by exact_mod_cast hM0
  have hKR : (K : ℝ) ≠ 0 := by exact_mod_cast hK
  unfold calibrateForeground
  rw [rows_deint _ M K hM0]
  simp only [bind, Except.bind]
  rw [if_neg (by simp [ho, hs, hMdef])]
  -- offset and gain
  have hrow : ∀ m < M, ∀ r : ℕ, tiRecord gain offset skew (tones S A f φ) fs (r * M + m)
      = offset.getD m 0 + gain.getD m 0 * tones S A f φ ((r * M + m : ℕ) / fs + skew.getD m 0) := by
    intro m hm r
    have e1 : (r * M + m) % M = m := by rw [Nat.add_comm, Nat.add_mul_mod_self_right, Nat.mod_eq_of_lt hm]
    unfold tiRecord
    simp only [← hMdef, e1]
  have hch : List.zipWith (fun row (og : ℝ × ℝ) => row.map fun v => (v - og.1) / og.2)
      ((List.range M).map fun m => (List.range K).map fun r => tiRecord gain offset skew (tones S A f φ) fs (r * M + m))
      (offset.zip (gain.map (· / c)))
      = (List.range M).map fun m => (List.range K).map fun (r : ℕ) => ∑ i ∈ S, c * A i *
          Real.cos (2 * Real.pi * (a i * r / K) + (2 * Real.pi * (f i * (m / fs + skew.getD m 0)) + φ i)) := by
    apply List.ext_getElem
    · simp [ho, hMdef]
    · intro m h1 h2
      have hm : m < M := by simpa using h2
      have hgm : gain[m] ≠ 0 := hg _ (List.getElem_mem _)
      simp only [List.getElem_zipWith, List.getElem_map, List.getElem_range, List.getElem_zip, List.map_map]
      apply List.map_congr_left
      intro r _
      simp only [Function.comp]
      rw [hrow m hm]
      have e2 : offset.getD m 0 = offset[m]'(by rw [ho]; exact hm) := by
        rw [List.getD_eq_getElem?_getD, List.getElem?_eq_getElem (by rw [ho]; exact hm)]; rfl
      have e3 : gain.getD m 0 = gain[m] := by
        rw [List.getD_eq_getElem?_getD, List.getElem?_eq_getElem hm]; rfl
      rw [e2, e3, add_sub_cancel_left]
      rw [show gain[m] * tones S A f φ ((r * M + m : ℕ) / fs + skew.getD m 0) / (gain[m] / c)
        = c * tones S A f φ ((r * M + m : ℕ) / fs + skew.getD m 0) by field_simp]
      unfold tones
      rw [mul_sum]
      apply sum_congr rfl
      intro i hi
      rw [mul_assoc c (A i)]
      congr 2
      symm
      have hf : f i = (q i * K + a i) * fs / (K * M) := by
        rw [← hcoh i hi]; field_simp
      rw [← Real.cos_add_int_mul_two_pi _ (q i * r)]
      congr 1
      rw [hf]
      push_cast
      field_simp
      ring
  rw [hch]
  -- skew
  have hsk : skew.map (· - τ) = (List.range M).map fun m => skew.getD m 0 - τ := by
    apply List.ext_getElem
    · simp [hs]
    · intro m h1 h2
      have hm : m < skew.length := by simpa using h1
      simp [List.getD_eq_getElem?_getD, List.getElem?_eq_getElem hm]
  rw [hsk, loop_rows (h := fun m => (List.range K).map fun (r : ℕ) => c * ∑ i ∈ S, A i *
    Real.cos (2 * Real.pi * (f i * (((r * M + m : ℕ) : ℝ) / fs + τ)
            + leftTurn (q i) (f i) fs M (skew.getD ((r * M + m) % M) 0 - τ)) + φ i))]
  · exact rows_inter (fun n : ℕ => c * ∑ i ∈ S, A i * Real.cos (2 * Real.pi * (f i * (n / fs + τ)
            + leftTurn (q i) (f i) fs M (skew.getD (n % M) 0 - τ)) + φ i)) M K hM0
  · intro m hm
    rw [List.mem_range] at hm
    have e1 : ∀ r, (r * M + m) % M = m := fun r => by rw [Nat.add_comm, Nat.add_mul_mod_self_right, Nat.mod_eq_of_lt hm]
    simp only [e1]
    have hf : ∀ i ∈ S, f i = (q i * K + a i) * fs / (K * M) := by
      intro i hi
      rw [← hcoh i hi]; field_simp
    unfold skewRow leftTurn
    by_cases hd : |skew.getD m 0 - τ| < 1 / 10 ^ 18
    · simp only [if_pos hd]
      congr 1
      apply List.map_congr_left
      intro r _
      rw [mul_sum]
      apply sum_congr rfl
      intro i hi
      rw [mul_assoc]
      congr 2
      rw [← Real.cos_add_int_mul_two_pi _ (q i * r), hf i hi]
      congr 1
      push_cast
      field_simp
      ring
    · simp only [if_neg hd, if_true]
      rw [delay_row S (fun i => c * A i) _ a K hK ha _ _ (by simpa using ⟨hfs, hM0⟩)]
      simp only [bind, Except.bind, List.length_map, List.length_range, if_true]
      congr 1
      apply List.map_congr_left
      intro r _
      rw [mul_sum]
      apply sum_congr rfl
      intro i hi
      rw [mul_assoc]
      congr 2
      rw [← Real.cos_add_int_mul_two_pi _ (q i * r), hf i hi]
      congr 1
      push_cast
      field_simp
      ring

private theorem mean_pos (gain : List ℝ) (hM : gain ≠ []) (hg : ∀ g ∈ gain, 0 < g) : 0 < mean gain := by
  unfold mean
  apply div_pos
  · obtain ⟨g, l, hgl⟩ := List.exists_cons_of_ne_nil hM
    rw [hgl, List.sum_cons]
    have h1 := hg g (by simp [hgl])
    have h2 : 0 ≤ l.sum := List.sum_nonneg fun v hv => (hg v (by simp [hgl, hv])).le
    linarith
  · exact_mod_cast List.length_pos_of_ne_nil hM

/-- **C139 (any signal below the channel's Nyquist rate).** If every tone is below `fs/(2M)`, the calibrated record is
the input waveform itself, `c·s(n/fs + τ)`, sample for sample: no trace of the gains, offsets and skews is left. Skews
smaller than `1e-18` s, other than zero, are not corrected and excluded here; see `C139_tiny_skew`. -/
theorem C139_any_signal {ι : Type} (S : Finset ι) (A φ : ι → ℝ) (a : ι → ℤ) (gain offset skew : List ℝ) (fs c τ : ℝ)
    (K : ℕ) (farrow : List ℝ → ℝ → ℝ → Py (List ℝ)) (hM : gain ≠ []) (ho : offset.length = gain.length)
    (hs : skew.length = gain.length) (hg : ∀ g ∈ gain, g ≠ 0) (hc : c ≠ 0) (hfs : fs ≠ 0) (hK : K ≠ 0)
    (ha : ∀ i ∈ S, 2 * |a i| < K) (hd : ∀ t ∈ skew, t = τ ∨ 1 / 10 ^ 18 ≤ |t - τ|) :
    calibrateForeground (fftDelay 1) farrow 1
        ((List.range (K * gain.length)).map
          (tiRecord gain offset skew (tones S A (fun i => a i * fs / (K * gain.length)) φ) fs)) gain.length
        offset (gain.map (· / c)) (skew.map (· - τ)) fs "fft"
      = .ok ((List.range (K * gain.length)).map fun (n : ℕ) =>
          c * tones S A (fun i => a i * fs / (K * gain.length)) φ (n / fs + τ)) := by
  have hM0 : gain.length ≠ 0 := by simpa using hM
  have hMR : (gain.length : ℝ) ≠ 0 := by exact_mod_cast hM0
  have hKR : (K : ℝ) ≠ 0 := by exact_mod_cast hK
  rw [C139_every_zone S A _ φ (fun _ => 0) a gain offset skew fs c τ K farrow hM ho hs hg hc hfs hK
    (fun i _ => by push_cast; field_simp; ring) ha]
  congr 1
  apply List.map_congr_left
  intro n _
  have hm : n % gain.length < skew.length := by rw [hs]; exact Nat.mod_lt _ (by omega)
  have hl : ∀ f, leftTurn 0 f fs gain.length (skew.getD (n % gain.length) 0 - τ) = 0 := by
    intro f
    unfold leftTurn
    have e : skew.getD (n % gain.length) 0 = skew[n % gain.length] := by
      rw [List.getD_eq_getElem?_getD, List.getElem?_eq_getElem hm]; rfl
    rw [e]
    rcases hd _ (List.getElem_mem hm) with h | h
    · rw [h]; simp
    · rw [if_neg (not_lt.mpr h)]; simp
  simp only [hl, add_zero]
  rfl

/-- **C139 (the skews that are not corrected).** With no condition on the skews, the calibrated record differs from the
waveform by at most `|c|·Σ|A_i|·2π f_i·1e-18`. -/
theorem C139_tiny_skew {ι : Type} (S : Finset ι) (A φ : ι → ℝ) (a : ι → ℤ) (gain offset skew : List ℝ) (fs c τ : ℝ)
    (K : ℕ) (farrow : List ℝ → ℝ → ℝ → Py (List ℝ)) (hM : gain ≠ []) (ho : offset.length = gain.length)
    (hs : skew.length = gain.length) (hg : ∀ g ∈ gain, g ≠ 0) (hc : c ≠ 0) (hfs : fs ≠ 0) (hK : K ≠ 0)
    (ha : ∀ i ∈ S, 2 * |a i| < K) :
    ∃ y : ℕ → ℝ, calibrateForeground (fftDelay 1) farrow 1
        ((List.range (K * gain.length)).map
          (tiRecord gain offset skew (tones S A (fun i => a i * fs / (K * gain.length)) φ) fs)) gain.length
        offset (gain.map (· / c)) (skew.map (· - τ)) fs "fft" = .ok ((List.range (K * gain.length)).map y) ∧
      ∀ n, |y n - c * tones S A (fun i => a i * fs / (K * gain.length)) φ (n / fs + τ)|
        ≤ |c| * ∑ i ∈ S, |A i| * (2 * Real.pi * |a i * fs / (K * gain.length)| / 10 ^ 18) := by
  have hM0 : gain.length ≠ 0 := by simpa using hM
  have hMR : (gain.length : ℝ) ≠ 0 := by exact_mod_cast hM0
  have hKR : (K : ℝ) ≠ 0 := by exact_mod_cast hK
  refine ⟨_, C139_every_zone S A _ φ (fun _ => 0) a gain offset skew fs c τ K farrow hM ho hs hg hc hfs hK
    (fun i _ => by push_cast; field_simp; ring) ha, ?_⟩
  intro n
  set d := skew.getD (n % gain.length) 0 - τ with hd
  unfold tones
  rw [← mul_sub, abs_mul, ← sum_sub_distrib]
  apply mul_le_mul_of_nonneg_left _ (abs_nonneg c)
  refine (abs_sum_le_sum_abs _ _).trans (sum_le_sum fun i _ => ?_)
  rw [← mul_sub, abs_mul]
  apply mul_le_mul_of_nonneg_left _ (abs_nonneg _)
  set f : ℝ := a i * fs / (K * gain.length) with hf
  have hl : |leftTurn 0 f fs gain.length d| ≤ |f| / 10 ^ 18 := by
    unfold leftTurn
    by_cases h : |d| < 1 / 10 ^ 18
    · rw [if_pos h, abs_mul, div_eq_mul_one_div]
      exact mul_le_mul_of_nonneg_left h.le (abs_nonneg _)
    · rw [if_neg h]
      simp only [Int.cast_zero, zero_mul, abs_zero]
      positivity
  have hpi := Real.pi_pos
  refine (Real.abs_cos_sub_cos_le _ _).trans ?_
  rw [show 2 * Real.pi * (f * (n / fs + τ) + leftTurn 0 f fs gain.length d) + φ i - (2 * Real.pi * (f * (n / fs + τ)) + φ i)
    = 2 * Real.pi * leftTurn 0 f fs gain.length d by ring, abs_mul, abs_of_pos (by positivity : 0 < 2 * Real.pi), mul_div_assoc]
  exact mul_le_mul_of_nonneg_left hl (by positivity)

/-- **C139 (trained on a sine, used on anything).** Extract the mismatch from the record of one coherent sine — in any
Nyquist zone — and calibrate with it the record of any waveform of tones below `fs/(2M)`, of any other length. The result is
the waveform with the mean gain of the channels at the mean sampling instant. -/
theorem C139_trained {ι : Type} (S : Finset ι) (A φ : ι → ℝ) (a : ι → ℤ) (gain offset skew : List ℝ) (fs : ℝ) (K : ℕ)
    (A' fin φ' : ℝ) (K' : ℕ) (b : ℤ) (farrow : List ℝ → ℝ → ℝ → Py (List ℝ))
    (hM : gain ≠ []) (ho : offset.length = gain.length) (hs : skew.length = gain.length) (hg : ∀ g ∈ gain, 0 < g)
    (hfs : fs ≠ 0) (hK : K ≠ 0) (ha : ∀ i ∈ S, 2 * |a i| < K)
    (hd : ∀ t ∈ skew, t = mean skew ∨ 1 / 10 ^ 18 ≤ |t - mean skew|)
    (hfin : fin ≠ 0) (hcoh : fin * (K' * gain.length) / fs = b) (hb : ¬ (K' : ℤ) ∣ b) (hb2 : ¬ (K' : ℤ) ∣ 2 * b)
    (hA : 0 < A') (hsk : skew.IsChain fun s t => |2 * Real.pi * fin * (t - s)| < Real.pi) :
    ∃ r, extractMismatch 1 ((List.range (K' * gain.length)).map (tiCapture gain offset skew A' fs fin φ'))
        (gain.length : ℤ) fs fin = .ok r ∧
      calibrateForeground (fftDelay 1) farrow 1
        ((List.range (K * gain.length)).map
          (tiRecord gain offset skew (tones S A (fun i => a i * fs / (K * gain.length)) φ) fs)) gain.length
        r.offset r.gain r.skew fs "fft"
      = .ok ((List.range (K * gain.length)).map fun (n : ℕ) =>
          mean gain * tones S A (fun i => a i * fs / (K * gain.length)) φ (n / fs + mean skew)) := by
  obtain ⟨r, h1, h2, _, h4, h5⟩ := C20_recovers_parameters gain offset skew A' fs fin φ' K' b hM ho hs hfs hfin hcoh hb hb2 hA hg hsk
  refine ⟨r, h1, ?_⟩
  rw [h2, h4, h5]
  exact C139_any_signal S A φ a gain offset skew fs _ _ K farrow hM ho hs (fun g h => (hg g h).ne')
    (mean_pos gain hM hg).ne' hfs hK ha hd

/-! ### The record of one sine calibrated with its own mismatch -/

/-- The skews left after one calibration of a sine at `fin`, when `q` is the multiple of the channel rate next to `fin`. -/
noncomputable def leftSkew (q : ℤ) (fin fs : ℝ) (skew : List ℝ) : List ℝ :=
  skew.map fun t => leftTurn q fin fs skew.length (t - mean skew) / fin

/-- **C139 (own record).** Extracting the mismatch of a sine record and calibrating the record with it gives exactly the
record of a converter with equal unit gains, no offsets and the skews `leftSkew`: nothing if the sine is below `fs/(2M)`
(`q = 0`), otherwise `q·(fs/M)/fin` times the old ones. -/
theorem C139_own_record (gain offset skew : List ℝ) (A fs fin φ : ℝ) (K : ℕ) (q a : ℤ) (farrow : List ℝ → ℝ → ℝ → Py (List ℝ))
    (hM : gain ≠ []) (ho : offset.length = gain.length) (hs : skew.length = gain.length) (hg : ∀ g ∈ gain, 0 < g)
    (hfs : fs ≠ 0) (hfin : fin ≠ 0) (hcoh : fin * (K * gain.length) / fs = q * K + a) (ha0 : a ≠ 0) (ha : 2 * |a| < K) (hA : 0 < A)
    (hsk : skew.IsChain fun s t => |2 * Real.pi * fin * (t - s)| < Real.pi) :
    ∃ r, extractMismatch 1 ((List.range (K * gain.length)).map (tiCapture gain offset skew A fs fin φ))
        (gain.length : ℤ) fs fin = .ok r ∧
      calibrateForeground (fftDelay 1) farrow 1
        ((List.range (K * gain.length)).map (tiCapture gain offset skew A fs fin φ)) gain.length
        r.offset r.gain r.skew fs "fft"
      = .ok ((List.range (K * gain.length)).map (tiCapture (List.replicate gain.length 1) (List.replicate gain.length 0)
          (leftSkew q fin fs skew) (A * mean gain) fs fin (φ + 2 * Real.pi * fin * mean skew))) := by
  have hM0 : gain.length ≠ 0 := by simpa using hM
  have hK : K ≠ 0 := by
    rintro rfl
    have := abs_nonneg a
    simp at ha
    omega
  have nd : ∀ k : ℤ, k ≠ 0 → |k| < K → ¬ (K : ℤ) ∣ k := fun k h0 h1 h => h0 (Int.eq_zero_of_abs_lt_dvd h h1)
  have hb : ¬ (K : ℤ) ∣ q * K + a := by
    intro h
    have := (Int.dvd_add_right (Dvd.intro_left q rfl)).mp h
    exact nd a ha0 (by have := abs_nonneg a; omega) this
  have hb2 : ¬ (K : ℤ) ∣ 2 * (q * K + a) := by
    intro h
    rw [mul_add, ← mul_assoc] at h
    have := (Int.dvd_add_right (Dvd.intro_left (2 * q) rfl)).mp h
    exact nd (2 * a) (by omega) (by rw [abs_mul]; simpa using ha) this
  obtain ⟨r, h1, h2, _, h4, h5⟩ := C20_recovers_parameters gain offset skew A fs fin φ K (q * K + a) hM ho hs hfs hfin
    (by rw [hcoh]; push_cast; ring) hb hb2 hA hg hsk
  refine ⟨r, h1, ?_⟩
  rw [h2, h4, h5]
  have hcap : tiCapture gain offset skew A fs fin φ
      = tiRecord gain offset skew (tones {()} (fun _ : Unit => A) (fun _ => fin) fun _ => φ) fs := by
    funext n
    unfold tiCapture tiRecord tones
    simp only [sum_singleton]
    ring
  rw [hcap, C139_every_zone {()} (fun _ : Unit => A) (fun _ => fin) (fun _ => φ) (fun _ => q) (fun _ => a) gain offset skew fs _ _ K
    farrow hM ho hs (fun g h => (hg g h).ne') (mean_pos gain hM hg).ne' hfs hK (fun _ _ => hcoh) (fun _ _ => ha)]
  congr 1
  apply List.map_congr_left
  intro n _
  have hm : n % gain.length < gain.length := Nat.mod_lt _ (by omega)
  have hm' : n % gain.length < skew.length := by rw [hs]; exact hm
  unfold tiCapture leftSkew
  simp only [sum_singleton, List.length_replicate]
  have e1 : (List.replicate gain.length (0 : ℝ)).getD (n % gain.length) 0 = 0 := by
    rw [List.getD_eq_getElem?_getD, List.getElem?_replicate, if_pos hm]; rfl
  have e2 : (List.replicate gain.length (1 : ℝ)).getD (n % gain.length) 0 = 1 := by
    rw [List.getD_eq_getElem?_getD, List.getElem?_replicate, if_pos hm]; rfl
  have e3 : (skew.map fun t => leftTurn q fin fs skew.length (t - mean skew) / fin).getD (n % gain.length) 0
      = leftTurn q fin fs gain.length (skew.getD (n % gain.length) 0 - mean skew) / fin := by
    rw [List.getD_eq_getElem?_getD, List.getElem?_map, List.getD_eq_getElem?_getD, List.getElem?_eq_getElem hm']
    simp [hs]
  rw [e1, e2, e3, zero_add, mul_one, ← mul_assoc, mul_comm (mean gain) A]
  congr 2
  generalize leftTurn q fin fs gain.length (skew.getD (n % gain.length) 0 - mean skew) = u
  rw [mul_add fin (n / fs) (u / fin), mul_div_cancel₀ u hfin]
  ring

private theorem mean_replicate (M : ℕ) (hM : M ≠ 0) : mean (List.replicate M (1 : ℝ)) = 1 := by
  have : (M : ℝ) ≠ 0 := by exact_mod_cast hM
  unfold mean
  simp [this]

private theorem left_scaled (q : ℤ) (fin fs : ℝ) (skew : List ℝ) (hd : ∀ t ∈ skew, t = mean skew ∨ 1 / 10 ^ 18 ≤ |t - mean skew|) :
    leftSkew q fin fs skew = skew.map fun t => q * (fs / skew.length) / fin * (t - mean skew) := by
  unfold leftSkew
  apply List.map_congr_left
  intro t ht
  unfold leftTurn
  rcases hd t ht with h | h
  · rw [← h]; simp
  · rw [if_neg (not_lt.mpr h)]; ring

private theorem mean_left (ρ : ℝ) (skew : List ℝ) (h : skew ≠ []) : mean (skew.map fun t => ρ * (t - mean skew)) = 0 := by
  have hl : (skew.length : ℝ) ≠ 0 := by exact_mod_cast (List.length_pos_of_ne_nil h).ne'
  have key : ∀ (l : List ℝ) (c : ℝ), (l.map fun t => ρ * (t - c)).sum = ρ * (l.sum - l.length * c) := by
    intro l c
    induction l with
    | nil => simp
    | cons a l ih => simp [ih]; ring
  unfold mean
  rw [key]
  field_simp
  simp

/-- **C139 (measured again).** Extract, calibrate, and extract again from the calibrated record: the offsets are now zero, the
gains one, the amplitude is unchanged, and every skew is the first result times `q·(fs/M)/fin`, where `q·fs/M` is the
multiple of the channel rate next to `fin`. -/
theorem C139_again (gain offset skew : List ℝ) (A fs fin φ : ℝ) (K : ℕ) (q a : ℤ) (farrow : List ℝ → ℝ → ℝ → Py (List ℝ))
    (hM : gain ≠ []) (ho : offset.length = gain.length) (hs : skew.length = gain.length) (hg : ∀ g ∈ gain, 0 < g)
    (hfs : fs ≠ 0) (hfin : fin ≠ 0) (hcoh : fin * (K * gain.length) / fs = q * K + a) (ha0 : a ≠ 0) (ha : 2 * |a| < K) (hA : 0 < A)
    (hsk : skew.IsChain fun s t => |2 * Real.pi * fin * (t - s)| < Real.pi)
    (hsk' : skew.IsChain fun s t => |2 * Real.pi * (q * (fs / gain.length)) * (t - s)| < Real.pi)
    (hd : ∀ t ∈ skew, t = mean skew ∨ 1 / 10 ^ 18 ≤ |t - mean skew|) :
    ∃ r y r', extractMismatch 1 ((List.range (K * gain.length)).map (tiCapture gain offset skew A fs fin φ))
        (gain.length : ℤ) fs fin = .ok r ∧
      calibrateForeground (fftDelay 1) farrow 1
        ((List.range (K * gain.length)).map (tiCapture gain offset skew A fs fin φ)) gain.length
        r.offset r.gain r.skew fs "fft" = .ok y ∧
      extractMismatch 1 y (gain.length : ℤ) fs fin = .ok r' ∧
      r'.A = r.A ∧ (∀ o ∈ r'.offset, o = 0) ∧ (∀ g ∈ r'.gain, g = 1) ∧
      r.skew = skew.map (· - mean skew) ∧ r'.skew = r.skew.map (q * (fs / gain.length) / fin * ·) := by
  have hM0 : gain.length ≠ 0 := by simpa using hM
  have hsn : skew ≠ [] := by rintro rfl; simp at hs; omega
  obtain ⟨r, h1, h2⟩ := C139_own_record gain offset skew A fs fin φ K q a farrow hM ho hs hg hfs hfin hcoh ha0 ha hA hsk
  have hK : K ≠ 0 := by
    rintro rfl
    have := abs_nonneg a
    simp at ha
    omega
  have nd : ∀ k : ℤ, k ≠ 0 → |k| < K → ¬ (K : ℤ) ∣ k := fun k h0 h1 h => h0 (Int.eq_zero_of_abs_lt_dvd h h1)
  have hb : ¬ (K : ℤ) ∣ q * K + a := by
    intro h
    have := (Int.dvd_add_right (Dvd.intro_left q rfl)).mp h
    exact nd a ha0 (by have := abs_nonneg a; omega) this
  have hb2 : ¬ (K : ℤ) ∣ 2 * (q * K + a) := by
    intro h
    rw [mul_add, ← mul_assoc] at h
    have := (Int.dvd_add_right (Dvd.intro_left (2 * q) rfl)).mp h
    exact nd (2 * a) (by omega) (by rw [abs_mul]; simpa using ha) this
  obtain ⟨r₁, g1, g2, g3, g4, g5⟩ := C20_recovers_parameters gain offset skew A fs fin φ K (q * K + a) hM ho hs hfs hfin
    (by rw [hcoh]; push_cast; ring) hb hb2 hA hg hsk
  have hrr : r₁ = r := by rw [h1] at g1; injection g1 with g1; exact g1.symm
  subst hrr
  have hrl : (List.replicate gain.length (1 : ℝ)).length = gain.length := List.length_replicate
  have hls := left_scaled q fin fs skew hd
  obtain ⟨r', k1, k2, k3, k4, k5⟩ := C20_recovers_parameters (List.replicate gain.length 1) (List.replicate gain.length 0)
    (leftSkew q fin fs skew) (A * mean gain) fs fin (φ + 2 * Real.pi * fin * mean skew) K (q * K + a) (by simpa using hM)
    (by simp) (by rw [hls, hrl]; simpa using hs) hfs hfin (by rw [hrl, hcoh]; push_cast; ring) hb hb2
    (mul_pos hA (mean_pos gain hM hg)) (fun g hg' => by rw [(List.mem_replicate.mp hg').2]; exact one_pos) (by
      rw [hls, List.isChain_map]
      refine hsk'.imp ?_
      intro s t h
      rw [hs]
      rw [show 2 * Real.pi * fin * (q * (fs / gain.length) / fin * (t - mean skew) - q * (fs / gain.length) / fin * (s - mean skew))
        = 2 * Real.pi * (q * (fs / gain.length)) * (t - s) by field_simp; ring]
      exact h)
  rw [hrl] at k1
  have hm1 := mean_replicate gain.length hM0
  refine ⟨r₁, _, r', h1, h2, k1, ?_, ?_, ?_, g5, ?_⟩
  · rw [k3, g3, hm1, mul_one]
  · intro o h
    rw [k2] at h
    exact (List.mem_replicate.mp h).2
  · intro g h
    rw [k4, hm1] at h
    obtain ⟨v, hv, rfl⟩ := List.mem_map.mp h
    rw [(List.mem_replicate.mp hv).2, div_one]
  · rw [k5, g5, hls, mean_left _ _ hsn, List.map_map, List.map_map, hs]
    apply List.map_congr_left
    intro t _
    simp only [Function.comp, sub_zero]

/-- **C139 (above the channel's Nyquist rate the skew correction is wrong).** If the sine lies below the multiple of the
channel rate next to it (`0 < fin < q·fs/M`, a folded zone), calibrating makes every non-zero skew larger; if it lies above
(`0 < q·fs/M < fin`), every non-zero skew is left with the same sign and is not removed. -/
theorem C139_upper_zones (gain offset skew : List ℝ) (A fs fin φ : ℝ) (K : ℕ) (q a : ℤ) (farrow : List ℝ → ℝ → ℝ → Py (List ℝ))
    (hM : gain ≠ []) (ho : offset.length = gain.length) (hs : skew.length = gain.length) (hg : ∀ g ∈ gain, 0 < g)
    (hfs : 0 < fs) (hfin : 0 < fin) (hcoh : fin * (K * gain.length) / fs = q * K + a) (ha0 : a ≠ 0) (ha : 2 * |a| < K) (hA : 0 < A)
    (hsk : skew.IsChain fun s t => |2 * Real.pi * fin * (t - s)| < Real.pi)
    (hsk' : skew.IsChain fun s t => |2 * Real.pi * (q * (fs / gain.length)) * (t - s)| < Real.pi)
    (hd : ∀ t ∈ skew, t = mean skew ∨ 1 / 10 ^ 18 ≤ |t - mean skew|) (hq : 0 < q) :
    ∃ r y r', extractMismatch 1 ((List.range (K * gain.length)).map (tiCapture gain offset skew A fs fin φ))
        (gain.length : ℤ) fs fin = .ok r ∧
      calibrateForeground (fftDelay 1) farrow 1
        ((List.range (K * gain.length)).map (tiCapture gain offset skew A fs fin φ)) gain.length
        r.offset r.gain r.skew fs "fft" = .ok y ∧
      extractMismatch 1 y (gain.length : ℤ) fs fin = .ok r' ∧ r'.skew.length = r.skew.length ∧
      ∀ m, r.skew.getD m 0 ≠ 0 → 0 < r'.skew.getD m 0 / r.skew.getD m 0 ∧
        (fin < q * (fs / gain.length) → |r.skew.getD m 0| < |r'.skew.getD m 0|) := by
  obtain ⟨r, y, r', h1, h2, h3, _, _, _, h4, h5⟩ := C139_again gain offset skew A fs fin φ K q a farrow hM ho hs hg hfs.ne' hfin.ne' hcoh
    ha0 ha hA hsk hsk' hd
  refine ⟨r, y, r', h1, h2, h3, by rw [h5, List.length_map], ?_⟩
  have hMp : (0 : ℝ) < gain.length := by exact_mod_cast List.length_pos_of_ne_nil hM
  have hqp : (0 : ℝ) < q := by exact_mod_cast hq
  have hρ : 0 < q * (fs / gain.length) / fin := by positivity
  intro m hm
  have e : r'.skew.getD m 0 = q * (fs / gain.length) / fin * r.skew.getD m 0 := by
    rw [h5, List.getD_eq_getElem?_getD, List.getElem?_map, List.getD_eq_getElem?_getD]
    cases r.skew[m]? <;> simp
  rw [e]
  refine ⟨by rw [mul_div_assoc, div_self hm, mul_one]; exact hρ, ?_⟩
  intro hlt
  rw [abs_mul, abs_of_pos hρ]
  have h1 : 1 < q * (fs / gain.length) / fin := (one_lt_div hfin).mpr hlt
  have h2 := abs_pos.mpr hm
  nlinarith

/-! ### Concrete cases -/

/-- Two channels at rate 1, ten samples each, a sine at 0.3 (bin 6 of 20, `q = 1`): after the calibration the skews are
5/3 of the ones before. -/
example : ∃ r y r', extractMismatch 1 ((List.range (10 * 2)).map (tiCapture [1, 1] [0, 0] [0, 1 / 10] 1 1 (3 / 10) 0)) 2 1 (3 / 10) = .ok r ∧
    calibrateForeground (fftDelay 1) (fun x _ _ => .ok x) 1 ((List.range (10 * 2)).map (tiCapture [1, 1] [0, 0] [0, 1 / 10] 1 1 (3 / 10) 0)) 2
      r.offset r.gain r.skew 1 "fft" = .ok y ∧
    extractMismatch 1 y 2 1 (3 / 10) = .ok r' ∧ r.skew = [-1 / 20, 1 / 20] ∧ r'.skew = [-1 / 12, 1 / 12] := by
  have hp := Real.pi_pos
  have hm : mean [(0 : ℝ), 1 / 10] = 1 / 20 := by unfold mean; norm_num
  obtain ⟨r, y, r', h1, h2, h3, _, _, _, h4, h5⟩ := C139_again [1, 1] [0, 0] [0, 1 / 10] 1 1 (3 / 10) 0 10 1 (-4) (fun x _ _ => .ok x)
    (by simp) rfl rfl (by simp) (by norm_num) (by norm_num) (by norm_num) (by norm_num) (by norm_num) (by norm_num)
    (by
      simp only [List.isChain_cons_cons, List.isChain_singleton, and_true]
      rw [abs_of_pos (by positivity)]; nlinarith)
    (by
      simp only [List.isChain_cons_cons, List.isChain_singleton, and_true]
      norm_num
      rw [abs_of_pos (by positivity)]; nlinarith)
    (by rw [hm]; norm_num)
  refine ⟨r, y, r', h1, h2, h3, ?_, ?_⟩
  · rw [h4, hm]; norm_num
  · rw [h5, h4, hm]; norm_num

/-- The same converter and two tones below a quarter of the rate, one of them DC-free and one at zero frequency: the calibrated
record is the waveform at the mean sampling instant. -/
example : calibrateForeground (fftDelay 1) (fun x _ _ => .ok x) 1
      ((List.range (10 * 2)).map (tiRecord [1, 3] [5, 7] [0, 1 / 10] (tones (univ : Finset (Fin 2)) ![2, 1]
        (fun i => (![0, 4] i : ℤ) * 1 / (10 * ([1, 3] : List ℝ).length)) ![0, 1]) 1)) 2
      [5, 7] ([1, 3].map (· / 2)) ([0, 1 / 10].map (· - 1 / 20)) 1 "fft"
    = .ok ((List.range (10 * 2)).map fun (n : ℕ) => 2 * tones (univ : Finset (Fin 2)) ![2, 1]
        (fun i => (![0, 4] i : ℤ) * 1 / (10 * ([1, 3] : List ℝ).length)) ![0, 1] (n / 1 + 1 / 20)) := by
  have := C139_any_signal (univ : Finset (Fin 2)) ![2, 1] ![0, 1] ![0, 4] [1, 3] [5, 7] [0, 1 / 10] 1 2 (1 / 20) 10 (fun x _ _ => .ok x)
    (by simp) rfl rfl (by simp) (by norm_num) (by norm_num) (by norm_num) (by decide) (by norm_num)
  exact_mod_cast this

end Verif
