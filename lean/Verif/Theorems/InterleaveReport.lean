import Verif.Theorems.Spurs
import Verif.Theorems.Mismatch
import Verif.Theorems.Sinad
import Verif.Model.Metrics
import Mathlib.Analysis.Real.Pi.Bounds

/-!
# C143: predicted interleaving spurs and the reported SNDR
-/

namespace Verif

open Model Finset Spec

/-! ## Specification -/

/-- Mean square of the tone that one entry of `predict_spurs` stands for: the
offset entries `k` and `M - k` fall on one tone of twice the amplitude (the entry `k = M/2` alternates in sign), so each carries `amp^2`; a gain or skew entry is a
cosine of its own and carries `amp^2 / 2`. -/
noncomputable def spurPower (s : Spur) : ℝ := if s.kind = .offset then s.amp ^ 2 else s.amp ^ 2 / 2

/-- Mean over the channels of gain and phase as one complex number, `g_m e^{j 2π fin t_m}`. -/
noncomputable def meanAlpha (gain skew : List ℝ) (fin : ℝ) : ℂ :=
  (∑ m ∈ range gain.length, (gain.getD m 0 : ℝ) * cis (fin * skew.getD m 0)) / gain.length

/-- Mean square of the deviations from the mean. -/
noncomputable def spread (l : List ℝ) : ℝ := mean (l.map fun v => (v - mean l) ^ 2)

/-! ## Sums over channels -/

private theorem mean_getD (l : List ℝ) : mean l = (∑ m ∈ range l.length, l.getD m 0) / l.length := by
  unfold mean
  rw [list_sum_getD]

private theorem mean_map_getD (l : List ℝ) (f : ℝ → ℝ) : mean (l.map f) = (∑ m ∈ range l.length, f (l.getD m 0)) / l.length := by
  rw [mean_getD, List.length_map]
  congr 1
  apply sum_congr rfl
  intro m hm
  rw [mem_range] at hm
  rw [List.getD_eq_getElem?_getD, List.getD_eq_getElem?_getD, List.getElem?_map, List.getElem?_eq_getElem hm]
  rfl

private theorem split_sum {α : Type} [AddCommMonoid α] (K M : ℕ) (f : ℕ → α) :
    ∑ n ∈ range (K * M), f n = ∑ m ∈ range M, ∑ r ∈ range K, f (r * M + m) := by
  rw [sum_comm]
  induction K with
  | zero => simp
  | succ K ih => rw [Nat.add_mul, one_mul, sum_range_add, ih, sum_range_succ]

private theorem sum_cos_sq (K : ℕ) (hK : K ≠ 0) (b : ℤ) (hb : ¬ (K : ℤ) ∣ 2 * b) (c : ℝ) :
    ∑ k ∈ range K, Real.cos (2 * Real.pi * (b * k / K) + c) ^ 2 = K / 2 := by
  have h := sum_cos_zero K hK (2 * b) hb (2 * c)
  have e : ∀ k ∈ range K, Real.cos (2 * Real.pi * (b * k / K) + c) ^ 2
      = 1 / 2 + Real.cos (2 * Real.pi * (((2 * b : ℤ) : ℝ) * k / K) + 2 * c) / 2 := by
    intro k _
    rw [Real.cos_sq]
    congr 2
    push_cast
    congr 1
    ring
  rw [sum_congr rfl e, sum_add_distrib, ← sum_div (range K) (fun k : ℕ => Real.cos (2 * Real.pi * (((2 * b : ℤ) : ℝ) * k / K) + 2 * c)), h,
    sum_const, card_range, nsmul_eq_mul]
  ring

/-- The capture, channel by channel. -/
private theorem capture_channel (gain offset skew : List ℝ) (A fs φ : ℝ) (hfs : 0 < fs) (K b : ℕ) (hK : K ≠ 0) (hM : gain ≠ []) (r m : ℕ) (hm : m < gain.length) :
    tiCapture gain offset skew A fs (b * fs / (K * gain.length : ℕ)) φ (r * gain.length + m)
      = offset.getD m 0 + A * gain.getD m 0 * Real.cos (2 * Real.pi * (((b : ℤ) : ℝ) * r / K)
        + (2 * Real.pi * (b * m / (K * gain.length : ℕ) + b * fs / (K * gain.length : ℕ) * skew.getD m 0) + φ)) := by
  have hM0 : gain.length ≠ 0 := by simpa using hM
  have hMR : (gain.length : ℝ) ≠ 0 := by exact_mod_cast hM0
  have hKR : (K : ℝ) ≠ 0 := by exact_mod_cast hK
  unfold tiCapture
  simp only
  rw [show (r * gain.length + m) % gain.length = m by rw [Nat.add_comm, Nat.add_mul_mod_self_right, Nat.mod_eq_of_lt hm]]
  congr 3
  push_cast
  field_simp
  ring

private theorem not_dvd_of_double (K : ℤ) (b : ℤ) (h : ¬ K ∣ 2 * b) : ¬ K ∣ b := fun hc => h (Dvd.dvd.mul_left hc 2)

/-- Mean of the capture. -/
private theorem capture_mean (gain offset skew : List ℝ) (A fs φ : ℝ) (hfs : 0 < fs) (K b : ℕ) (hK : K ≠ 0) (hM : gain ≠ []) (ho : offset.length = gain.length)
    (hb2 : ¬ (K : ℤ) ∣ 2 * b) :
    recMean (K * gain.length) (tiCapture gain offset skew A fs (b * fs / (K * gain.length : ℕ)) φ) = mean offset := by
  have hM0 : gain.length ≠ 0 := by simpa using hM
  have hMR : (gain.length : ℝ) ≠ 0 := by exact_mod_cast hM0
  have hKR : (K : ℝ) ≠ 0 := by exact_mod_cast hK
  unfold recMean
  rw [split_sum, sum_congr rfl (g := fun m => K * offset.getD m 0), ← mul_sum, mean_getD, ho]
  · push_cast
    field_simp
  · intro m hm
    rw [sum_congr rfl fun r _ => capture_channel gain offset skew A fs φ hfs K b hK hM r m (mem_range.mp hm), sum_add_distrib, ← mul_sum,
      sum_cos_zero K hK b (not_dvd_of_double _ _ hb2), mul_zero, add_zero, sum_const, card_range, nsmul_eq_mul]

/-- Mean square of the capture about its mean. -/
private theorem capture_power (gain offset skew : List ℝ) (A fs φ : ℝ) (hfs : 0 < fs) (K b : ℕ) (hK : K ≠ 0) (hM : gain ≠ []) (ho : offset.length = gain.length)
    (hb2 : ¬ (K : ℤ) ∣ 2 * b) :
    (∑ n ∈ range (K * gain.length), (tiCapture gain offset skew A fs (b * fs / (K * gain.length : ℕ)) φ n - mean offset) ^ 2) / (K * gain.length : ℕ)
      = spread offset + A ^ 2 / 2 * mean (gain.map (· ^ 2)) := by
  have hM0 : gain.length ≠ 0 := by simpa using hM
  have hMR : (gain.length : ℝ) ≠ 0 := by exact_mod_cast hM0
  have hKR : (K : ℝ) ≠ 0 := by exact_mod_cast hK
  rw [split_sum, sum_congr rfl (g := fun m => K * (offset.getD m 0 - mean offset) ^ 2 + K * (A ^ 2 / 2 * gain.getD m 0 ^ 2))]
  · unfold spread
    rw [mean_map_getD, mean_map_getD, ho, sum_add_distrib, ← mul_sum, ← mul_sum, ← mul_sum]
    push_cast
    field_simp
  · intro m hm
    set β := 2 * Real.pi * (b * m / (K * gain.length : ℕ) + b * fs / (K * gain.length : ℕ) * skew.getD m 0) + φ with hβ
    have e : ∀ r ∈ range K, (tiCapture gain offset skew A fs (b * fs / (K * gain.length : ℕ)) φ (r * gain.length + m) - mean offset) ^ 2
        = (offset.getD m 0 - mean offset) ^ 2 + 2 * (offset.getD m 0 - mean offset) * (A * gain.getD m 0) * Real.cos (2 * Real.pi * (((b : ℤ) : ℝ) * r / K) + β)
          + A ^ 2 * gain.getD m 0 ^ 2 * Real.cos (2 * Real.pi * (((b : ℤ) : ℝ) * r / K) + β) ^ 2 := by
      intro r _
      rw [capture_channel gain offset skew A fs φ hfs K b hK hM r m (mem_range.mp hm), ← hβ]
      ring
    rw [sum_congr rfl e, sum_add_distrib, sum_add_distrib, ← mul_sum, ← mul_sum, sum_cos_zero K hK b (not_dvd_of_double _ _ hb2), sum_cos_sq K hK b hb2,
      sum_const, card_range, nsmul_eq_mul]
    ring

/-- The line at the input frequency. -/
private theorem capture_line (gain offset skew : List ℝ) (A fs φ : ℝ) (hfs : 0 < fs) (K b : ℕ) (hK : K ≠ 0) (hM : gain ≠ [])
    (hb2 : ¬ (K : ℤ) ∣ 2 * b) :
    dft (K * gain.length) (fun n => ((tiCapture gain offset skew A fs (b * fs / (K * gain.length : ℕ)) φ n : ℝ) : ℂ)) b
      = (K * gain.length : ℕ) / 2 * (A * Complex.exp (φ * Complex.I) * meanAlpha gain skew (b * fs / (K * gain.length : ℕ))) := by
  have hM0 : gain.length ≠ 0 := by simpa using hM
  have hMR : (gain.length : ℝ) ≠ 0 := by exact_mod_cast hM0
  have hKR : (K : ℝ) ≠ 0 := by exact_mod_cast hK
  have hMC : (gain.length : ℂ) ≠ 0 := by exact_mod_cast hM0
  have hKC : (K : ℂ) ≠ 0 := by exact_mod_cast hK
  unfold dft meanAlpha
  set fin : ℝ := b * fs / (K * gain.length : ℕ) with hfin
  rw [split_sum, sum_congr rfl (g := fun m => (K : ℂ) * (A / 2 * Complex.exp (φ * Complex.I) * ((gain.getD m 0 : ℝ) * cis (fin * skew.getD m 0)))), ← mul_sum, ← mul_sum]
  · push_cast
    field_simp
  · intro m hm
    rw [mem_range] at hm
    have e : ∀ r ∈ range K, ((tiCapture gain offset skew A fs fin φ (r * gain.length + m) : ℝ) : ℂ)
          * cis (-(((b : ℤ) : ℝ) * ((r * gain.length + m : ℕ) : ℝ) / ((K * gain.length : ℕ) : ℝ)))
        = (offset.getD m 0 : ℝ) * cis (-(b * m / (K * gain.length : ℕ))) * cis (((-b : ℤ) : ℝ) * r / K)
          + A / 2 * Complex.exp (φ * Complex.I) * ((gain.getD m 0 : ℝ) * cis (fin * skew.getD m 0))
          + (A / 2 * (gain.getD m 0 : ℝ) * Complex.exp (-(φ * Complex.I)) * cis (-(fin * skew.getD m 0)) * cis (-(2 * (b * m / (K * gain.length : ℕ)))))
            * cis (((-(2 * b) : ℤ) : ℝ) * r / K) := by
      intro r _
      have hcap : tiCapture gain offset skew A fs fin φ (r * gain.length + m)
          = offset.getD m 0 + A * gain.getD m 0 * Real.cos (2 * Real.pi * (b * r / K + b * m / (K * gain.length : ℕ) + fin * skew.getD m 0) + φ) := by
        rw [hfin, capture_channel gain offset skew A fs φ hfs K b hK hM r m hm, ← hfin]
        congr 3
        push_cast
        ring
      rw [hcap, Complex.ofReal_add, cos_cis, add_mul]
      have e1 : -(((b : ℤ) : ℝ) * ((r * gain.length + m : ℕ) : ℝ) / ((K * gain.length : ℕ) : ℝ)) = -(b * m / (K * gain.length : ℕ)) + ((-b : ℤ) : ℝ) * r / K := by
        push_cast
        field_simp
        ring
      have e2 : cis (b * r / K + b * m / (K * gain.length : ℕ) + fin * skew.getD m 0) * cis (-(((b : ℤ) : ℝ) * ((r * gain.length + m : ℕ) : ℝ) / ((K * gain.length : ℕ) : ℝ)))
          = cis (fin * skew.getD m 0) := by
        rw [← cis_add]
        congr 1
        push_cast
        field_simp
        ring
      have e3 : cis (-(b * r / K + b * m / (K * gain.length : ℕ) + fin * skew.getD m 0)) * cis (-(((b : ℤ) : ℝ) * ((r * gain.length + m : ℕ) : ℝ) / ((K * gain.length : ℕ) : ℝ)))
          = cis (-(fin * skew.getD m 0)) * cis (-(2 * (b * m / (K * gain.length : ℕ)))) * cis (((-(2 * b) : ℤ) : ℝ) * r / K) := by
        rw [← cis_add, ← cis_add, ← cis_add]
        congr 1
        push_cast
        field_simp
        ring
      rw [show ∀ u v w c d z o : ℂ, o * z + (u * c * v + u * d * w) * z = o * z + u * c * (v * z) + u * d * (w * z) by intros; ring, e2, e3, e1, cis_add]
      push_cast
      ring
    have z1 : ∑ r ∈ range K, cis (((-b : ℤ) : ℝ) * r / K) = 0 := by
      rw [sum_cis K hK, if_neg]
      rw [dvd_neg]
      exact not_dvd_of_double _ _ hb2
    have z2 : ∑ r ∈ range K, cis (((-(2 * b) : ℤ) : ℝ) * r / K) = 0 := by
      rw [sum_cis K hK, if_neg]
      rwa [dvd_neg]
    rw [sum_congr rfl e, sum_add_distrib, sum_add_distrib, sum_const, ← mul_sum, ← mul_sum, z1, z2, card_range, nsmul_eq_mul]
    ring

/-- Parseval over the channels, without the mean. -/
private theorem parseval_rest (M : ℕ) (hM : M ≠ 0) (x : ℕ → ℂ) :
    ((List.range (M - 1)).map fun (i : ℕ) => (‖dft M x ((i + 1 : ℕ) : ℤ)‖ / M) ^ 2).sum = (∑ m ∈ range M, ‖x m‖ ^ 2) / M - ‖(∑ m ∈ range M, x m) / M‖ ^ 2 := by
  have hMR : (M : ℝ) ≠ 0 := by exact_mod_cast hM
  have hp := parseval M hM x
  obtain ⟨L, rfl⟩ : ∃ L, M = L + 1 := ⟨M - 1, by omega⟩
  rw [sum_range_succ'] at hp
  have h0 : dft (L + 1) x ((0 : ℕ) : ℤ) = ∑ m ∈ range (L + 1), x m := by
    unfold dft
    refine sum_congr rfl fun n _ => ?_
    simp [cis_zero]
  rw [h0] at hp
  rw [Nat.add_sub_cancel, list_sum_map_range]
  simp only [div_pow]
  rw [← sum_div, norm_div, Complex.norm_natCast, div_pow]
  field_simp
  linarith

/-- The predicted powers, in closed form. -/
private theorem predicted_power (gain offset skew : List ℝ) (A fs fin F : ℝ) (hM : gain ≠ [])
    (spurs : List Spur) (h : predictSpurs gain offset skew (some A) none fs (some fin) F = .ok spurs) :
    offset.length = gain.length ∧ skew.length = gain.length ∧
    (spurs.map spurPower).sum = spread offset + A ^ 2 / 2 * (mean (gain.map (· ^ 2)) - ‖meanAlpha gain skew fin‖ ^ 2) := by
  classical
  have hM0 : gain.length ≠ 0 := by simpa using hM
  have hMR : (gain.length : ℝ) ≠ 0 := by exact_mod_cast hM0
  unfold predictSpurs at h
  simp only [Option.orElse_some] at h
  split_ifs at h with hlen
  injection h with h
  simp only [Option.getD_some] at h
  obtain ⟨ho, hs⟩ := hlen
  refine ⟨ho, hs, ?_⟩
  rw [← h, ((List.perm_insertionSort _ _).map spurPower).sum_eq]
  unfold rawSpurs
  simp only [List.map_append, List.map_map, List.sum_append]
  set alpha : ℕ → ℂ := fun m => (gain.getD m 0 : ℝ) * cis (fin * skew.getD m 0) with halpha
  have e1 : ((List.range (gain.length - 1)).map (spurPower ∘ fun (i : ℕ) =>
      ({ freq := foldFrequency (((i + 1 : ℕ) : ℝ) * fs / gain.length) fs, kind := .offset, k := i + 1,
         amp := ‖dft gain.length (fun m => ((offset.getD m 0 : ℝ) : ℂ)) ((i + 1 : ℕ) : ℤ)‖ / gain.length,
         dbfs := (spurDb F (20 * Real.logb 10 (max (A * mean gain / F) (1 / 10 ^ 300))) (‖dft gain.length (fun m => ((offset.getD m 0 : ℝ) : ℂ)) ((i + 1 : ℕ) : ℤ)‖ / gain.length)).1,
         dbc := (spurDb F (20 * Real.logb 10 (max (A * mean gain / F) (1 / 10 ^ 300))) (‖dft gain.length (fun m => ((offset.getD m 0 : ℝ) : ℂ)) ((i + 1 : ℕ) : ℤ)‖ / gain.length)).2 } : Spur))).sum
      = spread offset := by
    have hp := parseval_rest gain.length hM0 (fun m => ((offset.getD m 0 : ℝ) : ℂ))
    refine Eq.trans (congrArg List.sum (List.map_congr_left fun i _ => ?_)) (hp.trans ?_)
    · simp [spurPower]
    · unfold spread
      rw [mean_map_getD, mean_getD, ho]
      have : (∑ m ∈ range gain.length, ((offset.getD m 0 : ℝ) : ℂ)) / gain.length = (((∑ m ∈ range gain.length, offset.getD m 0) / gain.length : ℝ) : ℂ) := by
        push_cast
        rfl
      rw [this, Complex.norm_real, Real.norm_eq_abs, sq_abs]
      simp only [Complex.norm_real, Real.norm_eq_abs, sq_abs]
      set S := ∑ m ∈ range gain.length, offset.getD m 0 with hS
      have e : ∀ m ∈ range gain.length, (offset.getD m 0 - S / gain.length) ^ 2 = offset.getD m 0 ^ 2 - 2 * (S / gain.length) * offset.getD m 0 + (S / gain.length) ^ 2 := by
        intro m _
        ring
      rw [sum_congr rfl e, sum_add_distrib, sum_sub_distrib, ← mul_sum, ← hS, sum_const, card_range, nsmul_eq_mul]
      field_simp
      ring
  have e2 : ((List.range (gain.length - 1)).map (spurPower ∘ fun (i : ℕ) =>
      ({ freq := foldFrequency (fin + ((i + 1 : ℕ) : ℝ) * fs / gain.length) fs, kind := .gainSkew, k := i + 1,
         amp := A * ‖dft gain.length (fun m => alpha m - (∑ m ∈ range gain.length, alpha m) / gain.length) ((i + 1 : ℕ) : ℤ)‖ / gain.length,
         dbfs := (spurDb F (20 * Real.logb 10 (max (A * mean gain / F) (1 / 10 ^ 300))) (A * ‖dft gain.length (fun m => alpha m - (∑ m ∈ range gain.length, alpha m) / gain.length) ((i + 1 : ℕ) : ℤ)‖ / gain.length)).1,
         dbc := (spurDb F (20 * Real.logb 10 (max (A * mean gain / F) (1 / 10 ^ 300))) (A * ‖dft gain.length (fun m => alpha m - (∑ m ∈ range gain.length, alpha m) / gain.length) ((i + 1 : ℕ) : ℤ)‖ / gain.length)).2 } : Spur))).sum
      = A ^ 2 / 2 * (mean (gain.map (· ^ 2)) - ‖meanAlpha gain skew fin‖ ^ 2) := by
    set c := (∑ m ∈ range gain.length, alpha m) / gain.length with hc
    have hp := parseval_rest gain.length hM0 (fun m => alpha m - c)
    have hz : ∑ m ∈ range gain.length, (alpha m - c) = 0 := by
      rw [sum_sub_distrib, sum_const, card_range, nsmul_eq_mul, hc]
      have : (gain.length : ℂ) ≠ 0 := by exact_mod_cast hM0
      field_simp
      ring
    rw [hz, zero_div, norm_zero] at hp
    have hvar : (∑ m ∈ range gain.length, ‖alpha m - c‖ ^ 2) / gain.length = mean (gain.map (· ^ 2)) - ‖c‖ ^ 2 := by
      have hq : ∀ m ∈ range gain.length, ‖alpha m - c‖ ^ 2 = gain.getD m 0 ^ 2 - 2 * (alpha m * (starRingEnd ℂ) c).re + ‖c‖ ^ 2 := by
        intro m _
        have hn : ‖alpha m‖ ^ 2 = gain.getD m 0 ^ 2 := by
          rw [halpha]
          simp only
          rw [norm_mul, norm_cis, Complex.norm_real, Real.norm_eq_abs, mul_one, sq_abs]
        rw [← hn, Complex.sq_norm, Complex.sq_norm, Complex.sq_norm, Complex.normSq_sub]
        ring
      rw [sum_congr rfl hq, sum_add_distrib, sum_sub_distrib, ← mul_sum, ← Complex.re_sum, ← sum_mul, sum_const, card_range, nsmul_eq_mul, mean_map_getD]
      have hs : ∑ m ∈ range gain.length, alpha m = gain.length * c := by
        rw [hc]
        have : (gain.length : ℂ) ≠ 0 := by exact_mod_cast hM0
        field_simp
      rw [hs, mul_assoc, Complex.mul_conj, ← Complex.ofReal_natCast, ← Complex.ofReal_mul, Complex.ofReal_re, Complex.normSq_eq_norm_sq]
      field_simp
      ring
    have hm : meanAlpha gain skew fin = c := rfl
    rw [hm, ← hvar, ← sub_zero ((∑ m ∈ range gain.length, ‖alpha m - c‖ ^ 2) / gain.length), show (0 : ℝ) = 0 ^ 2 by norm_num, ← hp, ← List.sum_map_mul_left]
    refine congrArg List.sum (List.map_congr_left fun i _ => ?_)
    simp only [Function.comp, spurPower, reduceCtorEq, if_false]
    ring
  exact congrArg₂ (· + ·) e1 e2

/-- The samples of a capture as a list. -/
noncomputable def captureRow (gain offset skew : List ℝ) (A fs fin φ : ℝ) (N : ℕ) : List ℝ := (List.range N).map (tiCapture gain offset skew A fs fin φ)

private theorem captureRow_getD (gain offset skew : List ℝ) (A fs fin φ : ℝ) (N n : ℕ) (hn : n < N) :
    (captureRow gain offset skew A fs fin φ N).getD n 0 = tiCapture gain offset skew A fs fin φ n := by
  unfold captureRow
  rw [List.getD_eq_getElem?_getD, List.getElem?_map, List.getElem?_range hn]
  rfl

/-! ## Theorems -/

/-- **C143 (closed form of the prediction).** The predicted spurs together carry the variance of the offsets plus `A^2/2` times what the channels' complex gains lose
when averaged. -/
theorem C143_predicted_power (gain offset skew : List ℝ) (A fs fin F : ℝ) (hM : gain ≠ [])
    (spurs : List Spur) (h : predictSpurs gain offset skew (some A) none fs (some fin) F = .ok spurs) :
    (spurs.map spurPower).sum = spread offset + A ^ 2 / 2 * (mean (gain.map (· ^ 2)) - ‖meanAlpha gain skew fin‖ ^ 2) :=
  (predicted_power gain offset skew A fs fin F hM spurs h).2.2

/-- **C143 (prediction and measurement).** Capture a coherent tone with a time-interleaved converter, `K` samples per channel, at a bin no image or offset tone of which falls on
another line. Let `D` be the power of the spurs `predict_spurs` lists for its gains, offsets and skews. If `4 D` is below the square of the fundamental's amplitude
`A |mean alpha|`, the spectrum without window finds the fundamental at its bin and reports exactly the ratio of the fundamental's power to `D` (and the floor of
1e-20 of full scale). -/
theorem C143_sndr (lib : WinLib) (a : SpectrumArgs) (ha : PlainCall a) (gain offset skew : List ℝ) (A fs φ F V : ℝ) (hA : 0 ≤ A) (hM : gain ≠ [])
    (hfs : 0 < fs) (K b : ℕ) (hb : 0 < b) (hbN : 2 * b < K * gain.length) (hb2 : ¬ K ∣ 2 * b) (hV : 0 < V)
    (hpk : peakAmplitude [captureRow gain offset skew A fs (b * fs / (K * gain.length : ℕ)) φ (K * gain.length)] a.scale = .ok V)
    (spurs : List Spur) (h : predictSpurs gain offset skew (some A) none fs (some (b * fs / (K * gain.length : ℕ))) F = .ok spurs)
    (hD : 4 * (spurs.map spurPower).sum < (A * ‖meanAlpha gain skew (b * fs / (K * gain.length : ℕ))‖) ^ 2) :
    ∃ r, computeSpectrum lib [captureRow gain offset skew A fs (b * fs / (K * gain.length : ℕ)) φ (K * gain.length)] a = .ok r ∧ r.fundamentalBin = b ∧
      r.sndr = dB ((A * ‖meanAlpha gain skew (b * fs / (K * gain.length : ℕ))‖) ^ 2 / 2 / ((spurs.map spurPower).sum + V ^ 2 / 2 / 10 ^ 20)) ∧
      r.sigPwr = 10 * Real.logb 10 (max ((A * ‖meanAlpha gain skew (b * fs / (K * gain.length : ℕ))‖ / V) ^ 2) (1 / 10 ^ 30)) := by
  have hM0 : gain.length ≠ 0 := by simpa using hM
  have hK : K ≠ 0 := by
    rintro rfl
    simp at hbN
  have hb2' : ¬ (K : ℤ) ∣ 2 * b := fun hc => hb2 (by exact_mod_cast hc)
  obtain ⟨ho, -, hP⟩ := predicted_power gain offset skew A fs _ F hM spurs h
  set N := K * gain.length with hN
  set fin : ℝ := b * fs / (N : ℕ) with hfin
  set x := tiCapture gain offset skew A fs fin φ with hx
  set row := captureRow gain offset skew A fs fin φ N with hrow
  have hN0 : N ≠ 0 := by omega
  have hNR : (0 : ℝ) < N := by exact_mod_cast Nat.pos_of_ne_zero hN0
  have hlen : row.length = N := by simp [hrow, captureRow]
  set B := A * ‖meanAlpha gain skew fin‖ with hB
  have hB0 : 0 ≤ B := mul_nonneg hA (norm_nonneg _)
  set D := (spurs.map spurPower).sum with hDdef
  have hline := capture_line gain offset skew A fs φ hfs K b hK hM hb2'
  have hmean := capture_mean gain offset skew A fs φ hfs K b hK hM ho hb2'
  have hpow := capture_power gain offset skew A fs φ hfs K b hK hM ho hb2'
  rw [← hN, ← hfin, ← hx] at hline hmean hpow
  have hbin : binCos N b x ^ 2 + binSin N b x ^ 2 = B ^ 2 := by
    have h1 := norm_bin (N := N) (b := b) (x := x) hN0
    rw [hline, norm_mul, norm_mul, norm_mul, Complex.norm_exp_ofReal_mul_I, Complex.norm_real, Real.norm_eq_abs, abs_of_nonneg hA, norm_div, Complex.norm_natCast] at h1
    simp only [Complex.norm_ofNat, mul_one] at h1
    rw [← hB] at h1
    have : (N : ℝ) ^ 2 / 4 ≠ 0 := by positivity
    apply mul_left_cancel₀ this
    rw [← h1]
    ring
  obtain ⟨A', φ', C, hA'0, hbest⟩ := exists_bestSine N b hb hbN x
  obtain ⟨hA', hres⟩ := best_sine N b hb hbN x A' φ' C hbest
  rw [hbin] at hA' hres
  have hAB : A' = B := by
    have := (sq_eq_sq₀ hA'0 hB0).mp hA'
    exact this
  subst hAB
  have hresD : (∑ n ∈ range N, (x n - sineAt B ((b : ℝ) / N) φ' C n) ^ 2) = N * D := by
    rw [hres, hmean, hP]
    rw [div_eq_iff hNR.ne'] at hpow
    rw [hpow, hB]
    ring
  have hD0 : 0 ≤ D := by
    have h0 : 0 ≤ N * D := by
      rw [← hresD]
      exact sum_nonneg fun n _ => sq_nonneg _
    exact nonneg_of_mul_nonneg_right h0 hNR
  have hget : ∀ n < N, row.getD n 0 = x n := fun n hn => captureRow_getD gain offset skew A fs fin φ N n hn
  have hσ : 2 * Real.sqrt D < B := by
    apply lt_of_pow_lt_pow_left₀ 2 hB0
    rw [mul_pow, Real.sq_sqrt hD0]
    linarith
  obtain ⟨r, hr, hbr, -, -⟩ := C95_bounded_error lib a ha row V hV hpk b hb (by rw [hlen]; exact hbN) B φ' C (Real.sqrt D)
    (fun n => x n - sineAt B ((b : ℝ) / N) φ' C n) (fun n hn => by rw [hlen] at hn ⊢; rw [hget n hn]; ring) (Real.sqrt_nonneg _)
    (by rw [hlen, hresD, Real.sq_sqrt hD0]) hσ
  refine ⟨r, hr, hbr, ?_⟩
  have hbest' : IsBestSine row.length r.fundamentalBin (fun n => row.getD n 0) B φ' C := by
    intro p q c
    have := hbest p q c
    rw [hbr, hlen]
    have e : ∀ p q c : ℝ, ∑ n ∈ range N, ((fun n => row.getD n 0) n - sineAt p ((b : ℝ) / N) q c n) ^ 2 = ∑ n ∈ range N, (x n - sineAt p ((b : ℝ) / N) q c n) ^ 2 :=
      fun p q c => sum_congr rfl fun n hn => by simp only [hget n (mem_range.mp hn)]
    rw [e, e]
    exact this
  obtain ⟨h1, h2⟩ := C95_sndr_is_sinad lib a ha row V hV.ne' hpk r hr (by rw [hbr]; exact hb) (by rw [hbr, hlen]; exact hbN) B φ' C hbest'
  refine ⟨?_, h2⟩
  rw [h1]
  congr 3
  unfold residualPower
  rw [hbr, hlen, div_eq_iff hNR.ne', mul_comm D, ← hresD]
  exact sum_congr rfl fun n hn => by simp only [hget n (mem_range.mp hn)]

/-- Skews shrink the mean of the unit phasors by at most half the mean square phase. -/
private theorem meanAlpha_lower (gain skew : List ℝ) (fin : ℝ) (hM : gain ≠ []) (hs : skew.length = gain.length) (h1 : ∀ m < gain.length, gain.getD m 0 = 1) :
    1 - (2 * Real.pi * fin) ^ 2 * spread skew / 2 ≤ ‖meanAlpha gain skew fin‖ := by
  have hM0 : gain.length ≠ 0 := by simpa using hM
  have hMR : (0 : ℝ) < gain.length := by exact_mod_cast Nat.pos_of_ne_zero hM0
  have e : meanAlpha gain skew fin * cis (-(fin * mean skew)) = (∑ m ∈ range gain.length, cis (fin * (skew.getD m 0 - mean skew))) / gain.length := by
    unfold meanAlpha
    rw [div_mul_eq_mul_div, sum_mul]
    congr 1
    refine sum_congr rfl fun m hm => ?_
    rw [h1 m (mem_range.mp hm), Complex.ofReal_one, one_mul, ← cis_add]
    congr 1
    ring
  have hn : ‖meanAlpha gain skew fin‖ = ‖meanAlpha gain skew fin * cis (-(fin * mean skew))‖ := by rw [norm_mul, norm_cis, mul_one]
  rw [hn]
  refine le_trans ?_ (Complex.re_le_norm _)
  rw [e, ← Complex.ofReal_natCast, Complex.div_ofReal_re, Complex.re_sum, le_div_iff₀ hMR]
  unfold spread
  rw [mean_map_getD, hs]
  have hc : ∀ m ∈ range gain.length, 1 - (2 * Real.pi * fin) ^ 2 / 2 * (skew.getD m 0 - mean skew) ^ 2 ≤ (cis (fin * (skew.getD m 0 - mean skew))).re := by
    intro m _
    rw [cis_re]
    have := Real.one_sub_sq_div_two_le_cos (x := 2 * Real.pi * (fin * (skew.getD m 0 - mean skew)))
    calc _ = 1 - (2 * Real.pi * (fin * (skew.getD m 0 - mean skew))) ^ 2 / 2 := by ring
      _ ≤ _ := this
  refine le_trans (le_of_eq ?_) (sum_le_sum hc)
  rw [sum_sub_distrib, ← mul_sum, sum_const, card_range, nsmul_eq_mul]
  field_simp

private theorem spread_nonneg (l : List ℝ) : 0 ≤ spread l := by
  unfold spread
  rw [mean_map_getD]
  exact div_nonneg (sum_nonneg fun m _ => sq_nonneg _) (Nat.cast_nonneg _)

/-- **C143 (skew alone).** Channels of unit gain and one common offset, with any skews whose rms spread `s` has `3 (2 pi fin s)^2 < 1`: the reported SNDR is at least
`1/(2 pi fin s)^2 - 1`, and `1/(2 pi fin s)^2` is what `calculate_jitter_limit` returns for an rms jitter of `s`. -/
theorem C143_skew_limit (lib : WinLib) (a : SpectrumArgs) (ha : PlainCall a) (gain offset skew : List ℝ) (A fs φ V : ℝ) (hA : 0 < A) (hM : gain ≠ [])
    (ho : offset.length = gain.length) (hs : skew.length = gain.length) (h1 : ∀ g ∈ gain, g = 1) (o : ℝ) (h0 : ∀ v ∈ offset, v = o)
    (hfs : 0 < fs) (K b : ℕ) (hb : 0 < b) (hbN : 2 * b < K * gain.length) (hb2 : ¬ K ∣ 2 * b) (hV : 0 < V)
    (hpk : peakAmplitude [captureRow gain offset skew A fs (b * fs / (K * gain.length : ℕ)) φ (K * gain.length)] a.scale = .ok V)
    (hsmall : 3 * ((2 * Real.pi * (b * fs / (K * gain.length : ℕ))) ^ 2 * spread skew) < 1) :
    ∃ r, computeSpectrum lib [captureRow gain offset skew A fs (b * fs / (K * gain.length : ℕ)) φ (K * gain.length)] a = .ok r ∧ r.fundamentalBin = b ∧
      dB (max (1 / ((2 * Real.pi * (b * fs / (K * gain.length : ℕ))) ^ 2 * spread skew + V ^ 2 / A ^ 2 / 10 ^ 20) - 1) 0) ≤ r.sndr ∧
      (0 < spread skew → 10 * Real.logb 10 (1 / ((2 * Real.pi * (b * fs / (K * gain.length : ℕ))) ^ 2 * spread skew))
        = jitterLimit (b * fs / (K * gain.length : ℕ)) (Real.sqrt (spread skew))) := by
  classical
  have hM0 : gain.length ≠ 0 := by simpa using hM
  have hMR : (gain.length : ℝ) ≠ 0 := by exact_mod_cast hM0
  set fin : ℝ := b * fs / (K * gain.length : ℕ) with hfin
  have h1' : ∀ m < gain.length, gain.getD m 0 = 1 := by
    intro m hm
    rw [List.getD_eq_getElem _ _ hm]
    exact h1 _ (List.getElem_mem hm)
  have h0' : ∀ m < offset.length, offset.getD m 0 = o := by
    intro m hm
    rw [List.getD_eq_getElem _ _ hm]
    exact h0 _ (List.getElem_mem hm)
  obtain ⟨spurs, hsp⟩ : ∃ spurs, predictSpurs gain offset skew (some A) none fs (some fin) 1 = .ok spurs := by
    unfold predictSpurs
    simp only [Option.orElse_some]
    rw [if_neg (by simp [ho, hs])]
    exact ⟨_, rfl⟩
  have hP := C143_predicted_power gain offset skew A fs fin 1 hM spurs hsp
  have hg : mean (gain.map (· ^ 2)) = 1 := by
    rw [mean_map_getD, sum_congr rfl (g := fun _ => (1 : ℝ)) fun m hm => by rw [h1' m (mem_range.mp hm)]; norm_num]
    simp [hMR]
  have hmo : mean offset = o := by
    rw [mean_getD, sum_congr rfl (g := fun _ => o) fun m hm => h0' m (mem_range.mp hm), sum_const, card_range, nsmul_eq_mul, ho]
    field_simp
  have hso : spread offset = 0 := by
    unfold spread
    rw [mean_map_getD, hmo, sum_congr rfl (g := fun _ => (0 : ℝ)) fun m hm => by rw [h0' m (mem_range.mp hm)]; ring]
    simp
  rw [hg, hso, zero_add] at hP
  have hlow := meanAlpha_lower gain skew fin hM hs h1'
  set w := (2 * Real.pi * fin) ^ 2 * spread skew with hw
  have hw0 : 0 ≤ w := mul_nonneg (sq_nonneg _) (spread_nonneg _)
  set B := ‖meanAlpha gain skew fin‖ with hB
  have hB0 : 0 ≤ B := norm_nonneg _
  have hB2 : 1 - w ≤ B ^ 2 := by nlinarith
  set D := (spurs.map spurPower).sum with hD
  have hA2 : 0 < A ^ 2 := by positivity
  have hDw : D ≤ A ^ 2 / 2 * w := by
    rw [hP]
    exact mul_le_mul_of_nonneg_left (by linarith) (by positivity)
  have hB1 : B ≤ 1 := by
    rw [hB]
    unfold meanAlpha
    rw [norm_div, Complex.norm_natCast, div_le_one (by positivity)]
    refine (norm_sum_le _ _).trans (le_of_eq ?_)
    rw [sum_congr rfl (g := fun _ => (1 : ℝ)) fun m hm => by rw [norm_mul, norm_cis, h1' m (mem_range.mp hm)]; simp]
    simp
  have hD0 : 0 ≤ D := by
    rw [hP]
    refine mul_nonneg (by positivity) ?_
    nlinarith
  obtain ⟨r, hr, hbr, hsndr, -⟩ := C143_sndr lib a ha gain offset skew A fs φ 1 V hA.le hM hfs K b hb hbN hb2 hV hpk spurs hsp (by
    rw [← hfin, ← hB, ← hD, mul_pow]
    nlinarith)
  refine ⟨r, hr, hbr, ?_, fun hpos => ?_⟩
  swap
  · have hbR : (0 : ℝ) < b := by exact_mod_cast hb
    have hNR : (0 : ℝ) < (K * gain.length : ℕ) := by exact_mod_cast (by omega : 0 < K * gain.length)
    have hfin0 : 0 < fin := by
      rw [hfin]
      positivity
    unfold jitterLimit log10
    have e : 1 / ((2 * Real.pi * fin) ^ 2 * spread skew) = ((2 * Real.pi * fin * Real.sqrt (spread skew)) ^ 2)⁻¹ := by
      rw [mul_pow _ (Real.sqrt _), Real.sq_sqrt hpos.le, one_div]
    rw [hw, e, Real.logb_inv, Real.logb_pow]
    push_cast
    ring
  rw [hsndr, ← hfin, ← hB, ← hD]
  have hfl : 0 < V ^ 2 / 2 / 10 ^ 20 := by positivity
  apply dB_mono (le_max_right _ _)
  refine max_le ?_ (by positivity)
  have key : 1 / (w + V ^ 2 / A ^ 2 / 10 ^ 20) = A ^ 2 / 2 / (A ^ 2 / 2 * w + V ^ 2 / 2 / 10 ^ 20) := by
    field_simp
  rw [key]
  have h2 : A ^ 2 / 2 / (A ^ 2 / 2 * w + V ^ 2 / 2 / 10 ^ 20) ≤ A ^ 2 / 2 / (D + V ^ 2 / 2 / 10 ^ 20) :=
    div_le_div_of_nonneg_left (by positivity) (by positivity) (by linarith)
  have h3 : (A * B) ^ 2 / 2 = A ^ 2 / 2 - D := by
    rw [hP]
    ring
  have h4 : A ^ 2 / 2 / (D + V ^ 2 / 2 / 10 ^ 20) - 1 ≤ (A * B) ^ 2 / 2 / (D + V ^ 2 / 2 / 10 ^ 20) := by
    rw [h3, sub_div]
    have : D / (D + V ^ 2 / 2 / 10 ^ 20) ≤ 1 := by
      rw [div_le_one (by positivity)]
      linarith
    linarith
  linarith

/-- **C143 (the carrier of the dBc column).** `predict_spurs` refers `dbc` to `A mean(gain)`. The line the spectrum shows has amplitude `A |mean alpha|`, so relative to it every spur
stands `20 log10(mean(gain) / |mean alpha|)` higher than listed. -/
theorem C143_dbc (gain offset skew : List ℝ) (A fs fin F : ℝ) (hA : 0 < A) (hF : 0 < F) (hfloor : 1 / 10 ^ 300 ≤ A * mean gain / F)
    (hc : meanAlpha gain skew fin ≠ 0) (spurs : List Spur) (h : predictSpurs gain offset skew (some A) none fs (some fin) F = .ok spurs)
    (s : Spur) (hs : s ∈ spurs) (d : ℝ) (hd : s.dbc = some d) :
    20 * Real.logb 10 (s.amp / (A * ‖meanAlpha gain skew fin‖)) = d + 20 * Real.logb 10 (mean gain / ‖meanAlpha gain skew fin‖) := by
  classical
  unfold predictSpurs at h
  simp only [Option.orElse_some] at h
  split_ifs at h with hlen
  injection h with h
  simp only [Option.getD_some] at h
  rw [← h, List.mem_insertionSort] at hs
  have hdb : (spurDb F (20 * Real.logb 10 (max (A * mean gain / F) (1 / 10 ^ 300))) s.amp).2 = some d := by
    unfold rawSpurs at hs
    simp only [List.mem_append, List.mem_map] at hs
    rcases hs with ⟨i, -, rfl⟩ | ⟨i, -, rfl⟩
    · exact hd
    · exact hd
  unfold spurDb at hdb
  split_ifs at hdb with hamp
  push Not at hamp
  simp only [Option.some.injEq] at hdb
  rw [max_eq_left hfloor] at hdb
  have hg : 0 < A * mean gain / F := lt_of_lt_of_le (by positivity) hfloor
  have hg' : 0 < mean gain := by
    have := (div_pos_iff_of_pos_right hF).mp hg
    exact (mul_pos_iff_of_pos_left hA).mp this
  have hn : 0 < ‖meanAlpha gain skew fin‖ := norm_pos_iff.mpr hc
  rw [← hdb, Real.logb_div hamp.ne' hF.ne', Real.logb_div (by positivity) hF.ne', Real.logb_mul hA.ne' hg'.ne', Real.logb_div hamp.ne' (by positivity),
    Real.logb_mul hA.ne' hn.ne', Real.logb_div hg'.ne' hn.ne']
  ring

/-- **C143 (the carrier can be the wrong one).** Two channels of gain one, a sixth of a period early and late: the one gain-skew spur is larger than the line at the input frequency,
and `predict_spurs` lists it below the carrier. -/
theorem C143_dbc_carrier_false : ∃ (gain offset skew : List ℝ) (A fs fin F : ℝ) (spurs : List Spur) (s : Spur) (d : ℝ),
    predictSpurs gain offset skew (some A) none fs (some fin) F = .ok spurs ∧ s ∈ spurs ∧ s.dbc = some d ∧ d < 0 ∧ A * ‖meanAlpha gain skew fin‖ < s.amp := by
  classical
  have hc : ∀ t : ℝ, cis t = ⟨Real.cos (2 * Real.pi * t), Real.sin (2 * Real.pi * t)⟩ := fun t => Complex.ext (cis_re t) (cis_im t)
  have a0 : cis (1 * (1 / 6)) = ⟨1 / 2, Real.sqrt 3 / 2⟩ := by
    rw [hc, show 2 * Real.pi * (1 * (1 / 6)) = Real.pi / 3 by ring, Real.cos_pi_div_three, Real.sin_pi_div_three]
  have a1 : cis (1 * (-1 / 6)) = ⟨1 / 2, -(Real.sqrt 3 / 2)⟩ := by
    rw [hc, show 2 * Real.pi * (1 * (-1 / 6)) = -(Real.pi / 3) by ring, Real.cos_neg, Real.sin_neg, Real.cos_pi_div_three, Real.sin_pi_div_three]
  have hmean : (((1 : ℝ) : ℂ) * cis (1 * (1 / 6)) + ((1 : ℝ) : ℂ) * cis (1 * (-1 / 6))) / ((2 : ℕ) : ℂ) = ((1 / 2 : ℝ) : ℂ) := by
    rw [a0, a1]
    push_cast
    apply Complex.ext <;> simp <;> norm_num
  have hdft : ‖dft 2 (fun m => (((([1, 1] : List ℝ).getD m 0 : ℝ) : ℂ) * cis (1 * ([1 / 6, -1 / 6] : List ℝ).getD m 0)
      - (∑ m ∈ range 2, ((([1, 1] : List ℝ).getD m 0 : ℝ) : ℂ) * cis (1 * ([1 / 6, -1 / 6] : List ℝ).getD m 0)) / ((2 : ℕ) : ℂ))) ((0 + 1 : ℕ) : ℤ)‖ = Real.sqrt 3 := by
    unfold dft
    rw [sum_range_succ, sum_range_succ, sum_range_zero, zero_add, sum_range_succ, sum_range_succ, sum_range_zero, zero_add]
    simp only [List.getD_cons_zero, List.getD_cons_succ]
    rw [hmean, show -((((0 + 1 : ℕ) : ℤ) : ℝ) * ((1 : ℕ) : ℝ) / ((2 : ℕ) : ℝ)) = -(((1 : ℕ) : ℝ) / 2) by norm_num,
      show -((((0 + 1 : ℕ) : ℤ) : ℝ) * ((0 : ℕ) : ℝ) / ((2 : ℕ) : ℝ)) = 0 by norm_num, cis_zero]
    have hh : cis (-(((1 : ℕ) : ℝ) / 2)) = -1 := by
      rw [hc, show 2 * Real.pi * -(((1 : ℕ) : ℝ) / 2) = -Real.pi by push_cast; ring, Real.cos_neg, Real.sin_neg, Real.cos_pi, Real.sin_pi]
      apply Complex.ext <;> simp
    rw [hh, a0, a1]
    have : (((1 : ℝ) : ℂ) * (⟨1 / 2, Real.sqrt 3 / 2⟩ : ℂ) - ((1 / 2 : ℝ) : ℂ)) * 1 + (((1 : ℝ) : ℂ) * (⟨1 / 2, -(Real.sqrt 3 / 2)⟩ : ℂ) - ((1 / 2 : ℝ) : ℂ)) * -1
        = ((Real.sqrt 3 : ℝ) : ℂ) * Complex.I := by
      apply Complex.ext <;> simp
    rw [this, norm_mul, Complex.norm_I, mul_one, Complex.norm_real, Real.norm_eq_abs, abs_of_nonneg (Real.sqrt_nonneg _)]
  have hs3 : Real.sqrt 3 < 2 := by
    rw [show (2 : ℝ) = Real.sqrt 4 by rw [show (4 : ℝ) = 2 ^ 2 by norm_num]; exact (Real.sqrt_sq (by norm_num)).symm]
    exact Real.sqrt_lt_sqrt (by norm_num) (by norm_num)
  have hs1 : 1 < Real.sqrt 3 := by
    rw [show (1 : ℝ) = Real.sqrt 1 by simp]
    exact Real.sqrt_lt_sqrt (by norm_num) (by norm_num)
  set s : Spur := {
    freq := foldFrequency (1 + ((0 + 1 : ℕ) : ℝ) * 10 / (2 : ℕ)) 10, kind := .gainSkew, k := 0 + 1, amp := 1 * Real.sqrt 3 / (2 : ℕ),
    dbfs := (spurDb 1 (20 * Real.logb 10 (max (1 * mean [1, 1] / 1) (1 / 10 ^ 300))) (1 * Real.sqrt 3 / (2 : ℕ))).1,
    dbc := (spurDb 1 (20 * Real.logb 10 (max (1 * mean [1, 1] / 1) (1 / 10 ^ 300))) (1 * Real.sqrt 3 / (2 : ℕ))).2
    } with hsdef
  refine ⟨[1, 1], [0, 0], [1 / 6, -1 / 6], 1, 10, 1, 1, _, s, 20 * Real.logb 10 (Real.sqrt 3 / 2), by unfold predictSpurs; simp only [Option.orElse_some]; rw [if_neg (by simp)], ?_, ?_, ?_, ?_⟩
  · rw [List.mem_insertionSort]
    unfold rawSpurs
    rw [List.mem_append]
    right
    rw [List.mem_map]
    refine ⟨0, by simp, ?_⟩
    simp only [Option.getD_some, List.length_cons, List.length_nil, Nat.zero_add, Nat.reduceAdd] at hdft ⊢
    rw [hdft, hsdef]
  · simp only [hsdef]
    unfold spurDb
    rw [if_neg (by push_cast; have := hs1; linarith)]
    have hm : mean [1, 1] = 1 := by
      unfold mean
      norm_num
    have hfl : (1 : ℝ) / 10 ^ 300 ≤ 1 * 1 / 1 := by
      rw [mul_one, div_one]
      exact (div_le_one (by positivity)).mpr (one_le_pow₀ (by norm_num))
    rw [hm, max_eq_left hfl]
    norm_num
  · have : Real.logb 10 (Real.sqrt 3 / 2) < 0 := Real.logb_neg (by norm_num) (by positivity) (by linarith)
    linarith
  · have hma : meanAlpha [1, 1] [1 / 6, -1 / 6] 1 = ((1 / 2 : ℝ) : ℂ) := by
      unfold meanAlpha
      simp only [List.length_cons, List.length_nil, Nat.zero_add, Nat.reduceAdd]
      rw [sum_range_succ, sum_range_succ, sum_range_zero, zero_add]
      exact hmean
    rw [hma, Complex.norm_real]
    simp only [hsdef]
    norm_num
    linarith

/-! ## The hypotheses are satisfiable -/

/-- Two channels whose offsets differ by a tenth of the amplitude, ten samples, two periods: the reported SNDR is 200 (23 dB). -/
example (lib : WinLib) : ∃ r, computeSpectrum lib [captureRow [1, 1] [0, 1 / 10] [0, 0] 1 1 (((2 : ℕ) : ℝ) * 1 / (5 * ([1, 1] : List ℝ).length : ℕ)) 0 (5 * ([1, 1] : List ℝ).length)]
    { win := "boxcar", sideBin := some 0, scale := .scalar 1 } = .ok r ∧ r.fundamentalBin = 2 ∧ r.sndr = dB (1 / 2 / (1 / 400 + 1 / 2 / 10 ^ 20)) := by
  have hma : ‖meanAlpha [1, 1] [0, 0] (((2 : ℕ) : ℝ) * 1 / (5 * ([1, 1] : List ℝ).length : ℕ))‖ = 1 := by
    unfold meanAlpha
    simp [sum_range_succ, cis_zero]
  obtain ⟨spurs, hsp⟩ : ∃ spurs, predictSpurs [1, 1] [0, 1 / 10] [0, 0] (some 1) none 1 (some (((2 : ℕ) : ℝ) * 1 / (5 * ([1, 1] : List ℝ).length : ℕ))) 1 = .ok spurs := by
    unfold predictSpurs
    simp only [Option.orElse_some]
    rw [if_neg (by simp)]
    exact ⟨_, rfl⟩
  have hP := C143_predicted_power [1, 1] [0, 1 / 10] [0, 0] 1 1 _ 1 (by simp) spurs hsp
  rw [hma] at hP
  have hsum : (spurs.map spurPower).sum = 1 / 400 := by
    rw [hP]
    norm_num [spread, mean]
  obtain ⟨r, h1, h2, h3, -⟩ := C143_sndr lib { win := "boxcar", sideBin := some 0, scale := .scalar 1 } ⟨Or.inl rfl, rfl, rfl, rfl, rfl, rfl, by norm_num, by norm_num, by norm_num⟩
    [1, 1] [0, 1 / 10] [0, 0] 1 1 0 1 1 zero_le_one (by simp) one_pos 5 2 (by norm_num) (by norm_num) (by decide) one_pos rfl spurs hsp (by rw [hma, hsum]; norm_num)
  refine ⟨r, h1, h2, ?_⟩
  rw [h3, hma, hsum]
  norm_num

/-- Two channels a thousandth of a sample early and late. -/
example (lib : WinLib) : ∃ r, computeSpectrum lib [captureRow [1, 1] [1, 1] [1 / 1000, -1 / 1000] 1 1 (((2 : ℕ) : ℝ) * 1 / (5 * ([1, 1] : List ℝ).length : ℕ)) 0 (5 * ([1, 1] : List ℝ).length)]
    { win := "boxcar", sideBin := some 0, scale := .scalar 1 } = .ok r ∧ r.fundamentalBin = 2 := by
  obtain ⟨r, h1, h2, -⟩ := C143_skew_limit lib { win := "boxcar", sideBin := some 0, scale := .scalar 1 } ⟨Or.inl rfl, rfl, rfl, rfl, rfl, rfl, by norm_num, by norm_num, by norm_num⟩
    [1, 1] [1, 1] [1 / 1000, -1 / 1000] 1 1 0 1 one_pos (by simp) rfl rfl (by simp) 1 (by simp) one_pos 5 2 (by norm_num) (by norm_num) (by decide) one_pos rfl (by
      have hs : spread [1 / 1000, -1 / 1000] = 1 / 1000000 := by norm_num [spread, mean]
      rw [hs]
      have h := Real.pi_lt_four
      have h0 := Real.pi_pos
      simp only [List.length_cons, List.length_nil]
      push_cast
      nlinarith)
  exact ⟨r, h1, h2⟩

end Verif
