import Verif.Theorems.Spurs
import Mathlib.Algebra.BigOperators.Ring.List

/-!
# C20: mismatch extraction
-/

namespace Verif

open Model Spec Finset

private theorem sum_map_div_const (l : List ℝ) (c : ℝ) : (l.map (· / c)).sum = l.sum / c := by
  induction l with
  | nil => simp
  | cons a l ih => simp [ih, add_div]

private theorem sum_map_sub_const (l : List ℝ) (c : ℝ) : (l.map (· - c)).sum = l.sum - l.length * c := by
  induction l with
  | nil => simp
  | cons a l ih => simp [ih]; ring

private theorem sum_map_add_const (l : List ℝ) (c : ℝ) : (l.map (· + c)).sum = l.sum + l.length * c := by
  induction l with
  | nil => simp
  | cons a l ih => simp [ih]; ring

private theorem sum_map_mul_const (l : List ℝ) (c : ℝ) : (l.map (c * ·)).sum = c * l.sum := by
  induction l with
  | nil => simp
  | cons a l ih => simp [ih]; ring

private theorem mean_map_mul (l : List ℝ) (c : ℝ) : mean (l.map (c * ·)) = c * mean l := by
  unfold mean; rw [sum_map_mul_const]; simp; ring

private theorem unwrapFrom_length (prev acc : ℝ) (l : List ℝ) : (unwrapFrom prev acc l).length = l.length := by
  induction l generalizing prev acc with
  | nil => rfl
  | cons a l ih => simp [unwrapFrom, ih]

private theorem unwrap_length (l : List ℝ) : (unwrap l).length = l.length := by
  cases l with
  | nil => rfl
  | cons a l => simp [unwrap, unwrapFrom_length]

private theorem deint_len {α : Type} [Zero α] {ndim : ℕ} {x : List α} {M : ℤ} {ch : List (List α)}
    (h : deinterleave ndim x M = .ok ch) : 0 < M ∧ ch.length = M.toNat := by
  unfold deinterleave at h
  split_ifs at h with h1 h2 h3
  injection h with h
  subst h
  exact ⟨by omega, by simp⟩

/-- **C20 (normalisation).** Whatever the data, one value per channel is returned, the gains average to exactly one and
the skews to exactly zero. -/
theorem C20_normalised (ndim : ℕ) (x : List ℝ) (M : ℤ) (fs fin : ℝ) (r : Mismatch)
    (h : extractMismatch ndim x M fs fin = .ok r) :
    r.gain.length = M.toNat ∧ r.offset.length = M.toNat ∧ r.skew.length = M.toNat ∧ r.phases.length = M.toNat ∧
      mean r.gain = 1 ∧ mean r.skew = 0 := by
  unfold extractMismatch at h
  cases hd : deinterleave ndim x M with
  | error e => rw [hd] at h; simp [bind, Except.bind] at h
  | ok ch =>
    rw [hd] at h
    simp only [bind, Except.bind] at h
    obtain ⟨hM, hlen⟩ := deint_len hd
    by_cases hfs : fs = 0
    · rw [if_pos hfs] at h; simp at h
    rw [if_neg hfs] at h
    injection h with h
    subst h
    simp only
    set ph := ch.zipIdx.map fun (p : List ℝ × ℕ) => channelPhasor p.1 M.toNat p.2 fs fin with hph
    have hphl : ph.length = M.toNat := by simp [hph, hlen]
    clear_value ph
    have hM0 : (M.toNat : ℝ) ≠ 0 := by
      have : M.toNat ≠ 0 := by omega
      exact_mod_cast this
    refine ⟨?_, by simp [hlen], by simp [unwrap_length, hphl], by simp [hphl], ?_, ?_⟩
    · split_ifs <;> simp [hphl]
    · split_ifs with hpos
      · unfold mean at hpos ⊢
        rw [sum_map_div_const]
        have : (ph.map fun z => ‖z‖).sum / (ph.map fun z => ‖z‖).length ≠ 0 := hpos.ne'
        have hs : (ph.map fun z => ‖z‖).sum ≠ 0 := by intro h0; rw [h0] at this; simp at this
        simp only [List.length_map, hphl] at this ⊢
        field_simp
      · unfold mean
        simp only [List.map_const', List.length_map, List.sum_replicate, List.length_replicate, hphl, nsmul_eq_mul]
        field_simp
    · set pu := unwrap (ph.map Complex.arg) with hpu
      have hpul : pu.length = M.toNat := by simp [hpu, unwrap_length, hphl]
      have : pu.map (fun p => (p - mean pu) / (2 * Real.pi * fin))
          = (pu.map (· - mean pu)).map (· / (2 * Real.pi * fin)) := by simp
      rw [this]
      unfold mean
      rw [sum_map_div_const, sum_map_sub_const]
      simp only [List.length_map, hpul]
      rw [mul_div_cancel₀ _ hM0]
      simp

/-- **C20 (errors).** The only failures are the documented shape checks (`ValueError`) and `fs = 0`. -/
theorem C20_errors (ndim : ℕ) (x : List ℝ) (M : ℤ) (fs fin : ℝ) (e : PyErr) :
    extractMismatch ndim x M fs fin = .error e ↔
      ((ndim ≠ 1 ∨ M ≤ 0 ∨ ¬ M ∣ (x.length : ℤ)) ∧ e = .valueError) ∨
      (ndim = 1 ∧ 0 < M ∧ M ∣ (x.length : ℤ) ∧ fs = 0 ∧ e = .zeroDivision) := by
  have hdv : (x.length : ℤ) % M = 0 ↔ M ∣ (x.length : ℤ) := (Int.dvd_iff_emod_eq_zero).symm
  unfold extractMismatch deinterleave
  by_cases h1 : ndim = 1
  · by_cases h2 : M ≤ 0
    · rw [if_neg (by simpa using h1), if_pos h2]
      simp [bind, Except.bind, h2, @eq_comm PyErr, not_lt.mpr h2]
    · by_cases h3 : M ∣ (x.length : ℤ)
      · rw [if_neg (by simpa using h1), if_neg h2, if_neg (by simpa using hdv.mpr h3)]
        by_cases h4 : fs = 0
        · simp [bind, Except.bind, h1, h2, h3, h4, @eq_comm PyErr]
          omega
        · simp [bind, Except.bind, h1, h2, h3, h4]
      · rw [if_neg (by simpa using h1), if_neg h2, if_pos (fun hh => h3 (hdv.mp hh))]
        simp [bind, Except.bind, h3, @eq_comm PyErr]
  · rw [if_pos h1]
    simp [bind, Except.bind, h1, @eq_comm PyErr]

private theorem channelPhasor_scale (y : List ℝ) (c : ℝ) (M m : ℕ) (fs fin : ℝ) :
    channelPhasor (y.map (c * ·)) M m fs fin = c * channelPhasor y M m fs fin := by
  unfold channelPhasor
  rw [mean_map_mul, List.length_map, mul_left_comm (c : ℂ), mul_sum _ _ (c : ℂ)]
  congr 1
  apply sum_congr rfl
  intro k hk
  have : (y.map (c * ·)).getD k 0 = c * y.getD k 0 := by
    rw [mem_range] at hk
    simp [List.getD_eq_getElem?_getD, List.getElem?_map, List.getElem?_eq_getElem hk]
  rw [this]
  push_cast
  ring

private theorem deint_map (ndim : ℕ) (x : List ℝ) (c : ℝ) (M : ℤ) :
    deinterleave ndim (x.map (c * ·)) M = (deinterleave ndim x M).map (fun ch => ch.map fun row => row.map (c * ·)) := by
  unfold deinterleave
  simp only [List.length_map]
  split_ifs
  · rfl
  · rfl
  · rfl
  · simp only [Except.map, List.map_map]
    congr 1
    apply List.map_congr_left
    intro a _
    simp only [Function.comp, List.map_map]
    apply List.map_congr_left
    intro b _
    simp only [Function.comp, List.getD_eq_getElem?_getD, List.getElem?_map]
    cases x[b * M.toNat + a]? <;> simp

/-- **C20 (scale).** Scaling the record by `c > 0` scales amplitude and offsets by `c` and leaves gains, skews and phases
unchanged. -/
theorem C20_scale (ndim : ℕ) (x : List ℝ) (M : ℤ) (fs fin c : ℝ) (hc : 0 < c) (r : Mismatch)
    (h : extractMismatch ndim x M fs fin = .ok r) :
    extractMismatch ndim (x.map (c * ·)) M fs fin =
      .ok { r with A := c * r.A, offset := r.offset.map (c * ·) } := by
  unfold extractMismatch at h ⊢
  rw [deint_map]
  cases hd : deinterleave ndim x M with
  | error e => rw [hd] at h; simp [bind, Except.bind] at h
  | ok ch =>
    rw [hd] at h
    simp only [bind, Except.bind, Except.map] at h ⊢
    by_cases hfs : fs = 0
    · rw [if_pos hfs] at h; simp at h
    rw [if_neg hfs] at h
    rw [if_neg hfs]
    injection h with h
    subst h
    simp only
    set ph := ch.zipIdx.map fun (p : List ℝ × ℕ) => channelPhasor p.1 M.toNat p.2 fs fin with hph
    have hph' : (ch.map fun row => row.map (c * ·)).zipIdx.map (fun (p : List ℝ × ℕ) => channelPhasor p.1 M.toNat p.2 fs fin)
        = ph.map ((c : ℂ) * ·) := by
      rw [hph, List.zipIdx_map, List.map_map, List.map_map]
      apply List.map_congr_left
      intro p _
      simp only [Function.comp, Prod.map, id]
      exact channelPhasor_scale p.1 c _ _ fs fin
    rw [hph']
    clear_value ph
    clear hph'
    have hargs : (ph.map ((c : ℂ) * ·)).map Complex.arg = ph.map Complex.arg := by
      rw [List.map_map]
      apply List.map_congr_left
      intro z _
      exact Complex.arg_real_mul z hc
    have hamps : (ph.map ((c : ℂ) * ·)).map (fun z => ‖z‖) = (ph.map fun z => ‖z‖).map (c * ·) := by
      rw [List.map_map, List.map_map]
      apply List.map_congr_left
      intro z _
      simp [abs_of_pos hc]
    rw [hargs, hamps, mean_map_mul]
    have hgain : (if c * mean (ph.map fun z => ‖z‖) > 0 then
          ((ph.map fun z => ‖z‖).map (c * ·)).map (· / (c * mean (ph.map fun z => ‖z‖)))
          else ((ph.map fun z => ‖z‖).map (c * ·)).map fun _ => (1 : ℝ))
        = if mean (ph.map fun z => ‖z‖) > 0 then (ph.map fun z => ‖z‖).map (· / mean (ph.map fun z => ‖z‖))
          else (ph.map fun z => ‖z‖).map fun _ => (1 : ℝ) := by
      have : c * mean (ph.map fun z => ‖z‖) > 0 ↔ mean (ph.map fun z => ‖z‖) > 0 := mul_pos_iff_of_pos_left hc
      simp only [this]
      split_ifs
      · rw [List.map_map]
        apply List.map_congr_left
        intro a _
        simp only [Function.comp]
        exact mul_div_mul_left _ _ hc.ne'
      · rw [List.map_map]; rfl
    rw [hgain]
    congr 2
    rw [List.map_map, List.map_map]
    apply List.map_congr_left
    intro y _
    exact mean_map_mul y c

/-! ### Recovery of the true parameters -/

private theorem unwrapStep_eq (dd Δ : ℝ) (k : ℤ) (h : dd = Δ + 2 * Real.pi * k) (hΔ : |Δ| < Real.pi) :
    unwrapStep dd = Δ - dd := by
  have hpi := Real.pi_pos
  have hΔ' := abs_lt.mp hΔ
  have hmod : pmod (dd + Real.pi) (2 * Real.pi) = Δ + Real.pi := by
    unfold pmod
    have : ⌊(dd + Real.pi) / (2 * Real.pi)⌋ = k := by
      rw [Int.floor_eq_iff, le_div_iff₀ (by positivity), div_lt_iff₀ (by positivity)]
      subst h
      constructor <;> nlinarith
    rw [this, h]; ring
  unfold unwrapStep
  simp only [hmod, add_sub_cancel_right]
  rw [if_neg (by intro hh; linarith [hh.1] : ¬ (Δ = -Real.pi ∧ dd > 0))]
  split_ifs with hd
  · have hd' := abs_lt.mp hd
    have hk : k = 0 := by
      have h1 : (k : ℝ) < 1 := by nlinarith
      have h2 : (-1 : ℝ) < k := by nlinarith
      have h1' : k < 1 := by exact_mod_cast h1
      have h2' : -1 < k := by exact_mod_cast h2
      omega
    rw [h, hk]; simp
  · rfl

private theorem unwrapFrom_eq (c : ℝ) (ps ths : List ℝ)
    (hf : List.Forall₂ (fun p t => ∃ k : ℤ, p = t + 2 * Real.pi * k) ps ths) :
    ∀ (prev acc th0 : ℝ), prev + acc = th0 + c → (∃ k : ℤ, prev = th0 + 2 * Real.pi * k) →
      List.IsChain (fun a b => |b - a| < Real.pi) (th0 :: ths) → unwrapFrom prev acc ps = ths.map (· + c) := by
  induction hf with
  | nil => intros; rfl
  | @cons q t ps ths hq _ ih =>
    intro prev acc th0 hacc ⟨k0, hk0⟩ hch
    obtain ⟨k1, hk1⟩ := hq
    rw [List.isChain_cons_cons] at hch
    have hs : unwrapStep (q - prev) = (t - th0) - (q - prev) := by
      apply unwrapStep_eq _ _ (k1 - k0) _ hch.1
      rw [hk1, hk0]; push_cast; ring
    simp only [unwrapFrom, List.map_cons, hs]
    have e : q + (acc + (t - th0 - (q - prev))) = t + c := by linarith
    rw [ih q (acc + (t - th0 - (q - prev))) t e ⟨k1, hk1⟩ hch.2, e]

private theorem unwrap_eq (ps ths : List ℝ)
    (hf : List.Forall₂ (fun p t => ∃ k : ℤ, p = t + 2 * Real.pi * k) ps ths)
    (hch : List.IsChain (fun a b => |b - a| < Real.pi) ths) : ∃ c, unwrap ps = ths.map (· + c) := by
  cases hf with
  | nil => exact ⟨0, rfl⟩
  | @cons p t ps ths hp hf =>
    refine ⟨p - t, ?_⟩
    simp only [unwrap, List.map_cons]
    rw [unwrapFrom_eq (p - t) ps ths hf p 0 t (by ring) hp hch]
    congr 1
    ring

theorem sum_cos_zero (K : ℕ) (hK : K ≠ 0) (b : ℤ) (hb : ¬ (K : ℤ) ∣ b) (c : ℝ) :
    ∑ k ∈ range K, Real.cos (2 * Real.pi * (b * k / K) + c) = 0 := by
  have h : ((∑ k ∈ range K, Real.cos (2 * Real.pi * (b * k / K) + c) : ℝ) : ℂ) = 0 := by
    rw [Complex.ofReal_sum]
    have : ∀ k ∈ range K, ((Real.cos (2 * Real.pi * (b * k / K) + c) : ℝ) : ℂ)
        = 1 / 2 * Complex.exp (c * Complex.I) * cis (b * k / K)
          + 1 / 2 * Complex.exp (-(c * Complex.I)) * cis (((-b : ℤ) : ℝ) * k / K) := by
      intro k _
      have := cos_cis 1 c (b * k / K)
      rw [one_mul] at this
      rw [this]
      push_cast
      congr 3
      ring
    rw [sum_congr rfl this, sum_add_distrib, ← mul_sum, ← mul_sum, sum_cis K hK, sum_cis K hK, if_neg hb,
      if_neg (by rwa [Int.dvd_neg])]
    simp
  exact_mod_cast h

private theorem list_sum_range (f : ℕ → ℝ) (m : ℕ) : ((List.range m).map f).sum = ∑ i ∈ range m, f i := by
  induction m with
  | zero => simp
  | succ m ih => rw [List.range_succ, List.map_append, List.sum_append, ih, sum_range_succ]; simp

private theorem channel_mean (K : ℕ) (hK : K ≠ 0) (b : ℤ) (hb : ¬ (K : ℤ) ∣ b) (o G c : ℝ) :
    mean ((List.range K).map fun (k : ℕ) => o + G * Real.cos (2 * Real.pi * (b * k / K) + c)) = o := by
  have hKR : (K : ℝ) ≠ 0 := by exact_mod_cast hK
  unfold mean
  rw [list_sum_range, sum_add_distrib, ← mul_sum, sum_cos_zero K hK b hb]
  simp
  field_simp

/-- **C20 (recovery).** For a coherent capture (an integer number `b` of signal cycles in the `K·M` samples, not aliased to
DC or Nyquist in a channel), with positive amplitude and gains and adjacent-channel skews below half a signal period, the
extraction returns the true offsets, the gains normalised to mean one, and the skews minus their mean. -/
theorem C20_recovers_parameters (gain offset skew : List ℝ) (A fs fin φ : ℝ) (K : ℕ) (b : ℤ)
    (hM : gain ≠ []) (ho : offset.length = gain.length) (hs : skew.length = gain.length)
    (hfs : fs ≠ 0) (hfin : fin ≠ 0) (hcoh : fin * (K * gain.length) / fs = b)
    (hb : ¬ (K : ℤ) ∣ b) (hb2 : ¬ (K : ℤ) ∣ 2 * b) (hA : 0 < A) (hg : ∀ g ∈ gain, 0 < g)
    (hsk : skew.IsChain fun s t => |2 * Real.pi * fin * (t - s)| < Real.pi) :
    ∃ r, extractMismatch 1 ((List.range (K * gain.length)).map (tiCapture gain offset skew A fs fin φ))
        (gain.length : ℤ) fs fin = .ok r ∧
      r.offset = offset ∧ r.A = A * mean gain ∧ r.gain = gain.map (· / mean gain) ∧
      r.skew = skew.map (· - mean skew) := by
  set M := gain.length with hMdef
  have hM0 : M ≠ 0 := by simpa [hMdef] using hM
  have hK : K ≠ 0 := by
    rintro rfl
    apply hb
    simp at hcoh
    have : b = 0 := by exact_mod_cast hcoh.symm
    simp [this]
  have hKR : (K : ℝ) ≠ 0 := by exact_mod_cast hK
  have hMR : (M : ℝ) ≠ 0 := by exact_mod_cast hM0
  have hpi := Real.pi_ne_zero
  set x := (List.range (K * M)).map (tiCapture gain offset skew A fs fin φ) with hx
  have hxl : x.length = K * M := by simp [hx]
  -- channel rows
  let row : ℕ → List ℝ := fun m => (List.range K).map fun (k : ℕ) =>
    offset.getD m 0 + A * gain.getD m 0 * Real.cos (2 * Real.pi * (b * k / K)
      + (2 * Real.pi * fin * (m / fs) + (2 * Real.pi * fin * skew.getD m 0 + φ)))
  have hd : deinterleave 1 x (M : ℤ) = .ok ((List.range M).map row) := by
    unfold deinterleave
    rw [if_neg (by simp), if_neg (by omega), if_neg (by rw [hxl]; push_cast; simp)]
    simp only [Int.toNat_natCast]
    rw [hxl, Nat.mul_div_cancel _ (Nat.pos_of_ne_zero hM0)]
    congr 1
    apply List.map_congr_left
    intro m hm
    rw [List.mem_range] at hm
    apply List.map_congr_left
    intro k hk
    rw [List.mem_range] at hk
    have hlt : k * M + m < K * M := by
      have : (k + 1) * M ≤ K * M := Nat.mul_le_mul_right M hk
      rw [Nat.add_mul] at this; omega
    rw [hx, List.getD_eq_getElem?_getD, List.getElem?_map, List.getElem?_eq_getElem (by simpa using hlt)]
    simp only [List.getElem_range, Option.map_some, Option.getD_some]
    unfold tiCapture
    have e1 : (k * M + m) % M = m := by rw [Nat.add_comm, Nat.add_mul_mod_self_right, Nat.mod_eq_of_lt hm]
    simp only [← hMdef, e1]
    congr 3
    rw [← hcoh]
    push_cast
    field_simp
    ring
  let th : ℕ → ℝ := fun m => 2 * Real.pi * fin * skew.getD m 0 + φ
  have hph : ∀ m, channelPhasor (row m) M m fs fin = ((A * gain.getD m 0 : ℝ) : ℂ) * Complex.exp (th m * Complex.I) := by
    intro m
    unfold channelPhasor
    have hl : (row m).length = K := by simp [row]
    have hmean : mean (row m) = offset.getD m 0 := channel_mean K hK b hb _ _ _
    rw [hl, hmean]
    have hterm : ∀ k ∈ range K, (((row m).getD k 0 - offset.getD m 0 : ℝ) : ℂ) * cis (-(fin * ((k * M + m) * (1 / fs))))
        = ((A * gain.getD m 0 : ℝ) : ℂ) / 2 * Complex.exp (th m * Complex.I)
          + ((A * gain.getD m 0 : ℝ) : ℂ) / 2 * Complex.exp (-(th m * Complex.I)) * cis (-(2 * (fin * (m / fs))))
            * cis (((-(2 * b) : ℤ) : ℝ) * k / K) := by
      intro k hk
      rw [mem_range] at hk
      have e1 : (row m).getD k 0 - offset.getD m 0
          = A * gain.getD m 0 * Real.cos (2 * Real.pi * (b * k / K + fin * (m / fs)) + th m) := by
        simp only [row, List.getD_eq_getElem?_getD, List.getElem?_map, List.getElem?_range hk, Option.map_some,
          Option.getD_some, th]
        rw [add_sub_cancel_left]
        congr 2
        ring
      have e2 : fin * ((k * M + m) * (1 / fs)) = b * k / K + fin * (m / fs) := by
        rw [← hcoh]; field_simp
      rw [e1, cos_cis, e2, add_mul, mul_assoc _ (cis _) (cis _), ← cis_add, add_neg_cancel, cis_zero, mul_one,
        mul_assoc _ (cis _) (cis _), ← cis_add, mul_assoc _ (cis _) (cis _), ← cis_add]
      congr 3
      push_cast
      ring
    rw [sum_congr rfl hterm, sum_add_distrib, ← mul_sum _ (fun k : ℕ => cis (((-(2 * b) : ℤ) : ℝ) * k / K)), sum_cis K hK, if_neg (by rwa [Int.dvd_neg])]
    simp only [sum_const, card_range, nsmul_eq_mul, mul_zero, add_zero]
    have : (K : ℂ) ≠ 0 := by exact_mod_cast hK
    field_simp
  have hgm : ∀ m, m < M → 0 < A * gain.getD m 0 := by
    intro m hm
    rw [List.getD_eq_getElem?_getD, List.getElem?_eq_getElem hm]
    exact mul_pos hA (hg _ (List.getElem_mem hm))
  -- list identities
  have hz : ∀ (α : Type) (f : ℕ → List ℝ) (g : List ℝ → ℕ → α),
      (((List.range M).map f).zipIdx.map fun (p : List ℝ × ℕ) => g p.1 p.2) = (List.range M).map fun m => g (f m) m := by
    intro α f g
    apply List.ext_getElem
    · simp
    · intro i h1 h2
      simp
  have hlist : ∀ (l : List ℝ), l.length = M → (List.range M).map (fun m => l.getD m 0) = l := by
    intro l hl
    apply List.ext_getElem
    · simp [hl]
    · intro i h1 h2
      simp [List.getD_eq_getElem?_getD, List.getElem?_eq_getElem h2]
  have hphl : (((List.range M).map row).zipIdx.map fun (p : List ℝ × ℕ) => channelPhasor p.1 M p.2 fs fin)
      = (List.range M).map fun m => ((A * gain.getD m 0 : ℝ) : ℂ) * Complex.exp (th m * Complex.I) := by
    rw [hz ℂ row (fun y m => channelPhasor y M m fs fin)]
    apply List.map_congr_left
    intro m _
    exact hph m
  have hamps : ((List.range M).map fun m => ((A * gain.getD m 0 : ℝ) : ℂ) * Complex.exp (th m * Complex.I)).map (fun z => ‖z‖)
      = gain.map (A * ·) := by
    rw [← hlist gain rfl, List.map_map, List.map_map, hlist gain rfl]
    apply List.map_congr_left
    intro m hm
    rw [List.mem_range] at hm
    simp only [Function.comp]
    rw [norm_mul, Complex.norm_exp_ofReal_mul_I, mul_one, Complex.norm_real, Real.norm_of_nonneg (hgm m hm).le]
  have hmpos : 0 < mean gain := by
    unfold mean
    apply div_pos
    · obtain ⟨g, l, hgl⟩ := List.exists_cons_of_ne_nil hM
      have hnn : ∀ v ∈ gain, 0 ≤ v := fun v hv => (hg v hv).le
      rw [hgl, List.sum_cons]
      have h1 := hg g (by simp [hgl])
      have h2 : 0 ≤ l.sum := List.sum_nonneg fun v hv => hnn v (by simp [hgl, hv])
      linarith
    · rw [← hMdef]; exact_mod_cast Nat.pos_of_ne_zero hM0
  -- unwrap
  have hunw : ∃ c, unwrap (((List.range M).map fun m => ((A * gain.getD m 0 : ℝ) : ℂ) * Complex.exp (th m * Complex.I)).map
      Complex.arg) = ((List.range M).map th).map (· + c) := by
    apply unwrap_eq
    · rw [List.forall₂_iff_get]
      refine ⟨by simp, ?_⟩
      intro i h1 h2
      simp only [List.get_eq_getElem, List.getElem_map, List.getElem_range]
      rw [Complex.arg_real_mul _ (hgm i (by simpa using h2))]
      obtain ⟨k, hk⟩ : ∃ k : ℤ, Complex.arg (Complex.exp (th i * Complex.I)) = th i + 2 * Real.pi * k := by
        have h := Complex.arg_exp_mul_I (th i)
        rw [toIocMod] at h
        refine ⟨-toIocDiv Real.two_pi_pos (-Real.pi) (th i), ?_⟩
        rw [h, zsmul_eq_mul]; push_cast; ring
      exact ⟨k, hk⟩
    · have : (List.range M).map th = skew.map (fun s => 2 * Real.pi * fin * s + φ) := by
        conv_rhs => rw [← hlist skew hs]
        rw [List.map_map]
        rfl
      rw [this, List.isChain_map]
      refine hsk.imp ?_
      intro s t h
      rw [show 2 * Real.pi * fin * t + φ - (2 * Real.pi * fin * s + φ) = 2 * Real.pi * fin * (t - s) by ring]
      exact h
  obtain ⟨c, hc⟩ := hunw
  have hth : ((List.range M).map th).map (· + c) = skew.map (fun s => 2 * Real.pi * fin * s + (φ + c)) := by
    conv_rhs => rw [← hlist skew hs]
    rw [List.map_map, List.map_map]
    apply List.map_congr_left
    intro m _
    simp only [Function.comp, th]
    ring
  rw [hth] at hc
  have hmeanu : mean (skew.map (fun s => 2 * Real.pi * fin * s + (φ + c))) = 2 * Real.pi * fin * mean skew + (φ + c) := by
    have : skew.map (fun s => 2 * Real.pi * fin * s + (φ + c)) = (skew.map (2 * Real.pi * fin * ·)).map (· + (φ + c)) := by
      simp
    rw [this]
    unfold mean
    rw [sum_map_add_const, sum_map_mul_const]
    simp only [List.length_map, hs, ← hMdef]
    field_simp
  refine ⟨{ fin := fin, A := A * mean gain, gain := gain.map (· / mean gain), offset := offset,
            skew := skew.map (· - mean skew),
            phases := ((List.range M).map fun m => ((A * gain.getD m 0 : ℝ) : ℂ) * Complex.exp (th m * Complex.I)).map
              Complex.arg }, ?_, rfl, rfl, rfl, rfl⟩
  unfold extractMismatch
  rw [hd]
  simp only [bind, Except.bind, if_neg hfs, Int.toNat_natCast]
  rw [hphl, hamps, hc, hmeanu, mean_map_mul, if_pos (mul_pos hA hmpos)]
  congr 2
  · rw [List.map_map]
    apply List.map_congr_left
    intro g _
    simp only [Function.comp]
    exact mul_div_mul_left _ _ hA.ne'
  · rw [List.map_map]
    conv_rhs => rw [← hlist offset ho]
    apply List.map_congr_left
    intro m _
    exact channel_mean K hK b hb _ _ _
  · rw [List.map_map]
    apply List.map_congr_left
    intro s _
    simp only [Function.comp]
    field_simp
    ring

/-! ### Concrete case -/

/-- Two channels, 8 samples each, 3 cycles: the hypotheses of `C20_recovers_parameters` hold. -/
example : (8 * ((8 : ℕ) * 2) / (128 / 3) : ℝ) = (3 : ℤ) ∧ ¬ ((8 : ℕ) : ℤ) ∣ 3 ∧ ¬ ((8 : ℕ) : ℤ) ∣ 2 * 3 ∧
    ([0, 1 / 1000] : List ℝ).IsChain (fun s t => |2 * Real.pi * 8 * (t - s)| < Real.pi) := by
  refine ⟨by norm_num, by decide, by decide, ?_⟩
  simp only [List.isChain_cons_cons, List.IsChain.singleton, and_true, sub_zero]
  rw [abs_of_pos (by positivity)]
  nlinarith [Real.pi_pos]

end Verif
