import Verif.Theorems.Tone
import Verif.Spec.MultiTone

/-!
# Spectrum of a record of several coherent tones
-/

namespace Verif

open Model Finset Spec

theorem dft_sum (N : ℕ) (S : Finset ℕ) (x : ℕ → ℕ → ℂ) (k : ℤ) : dft N (fun n => ∑ b ∈ S, x b n) k = ∑ b ∈ S, dft N (x b) k := by
  unfold dft
  rw [sum_comm]
  apply sum_congr rfl
  intro n _
  rw [sum_mul]

/-- Terms of which at most one is non-zero. -/
theorem norm_sum_exclusive (S : Finset ℕ) (z : ℕ → ℂ) (h : ∀ b ∈ S, ∀ c ∈ S, b ≠ c → z b = 0 ∨ z c = 0) : ‖∑ b ∈ S, z b‖ ^ 2 = ∑ b ∈ S, ‖z b‖ ^ 2 := by
  by_cases hex : ∃ b ∈ S, z b ≠ 0
  · obtain ⟨b, hb, hz⟩ := hex
    have h0 : ∀ c ∈ S, c ≠ b → z c = 0 := fun c hc hne => ((h b hb c hc (Ne.symm hne)).resolve_left hz)
    rw [sum_eq_single_of_mem b hb h0, sum_eq_single_of_mem b hb fun c hc hne => by rw [h0 c hc hne]; simp]
  · push Not at hex
    rw [sum_eq_zero hex, sum_eq_zero fun c hc => by rw [hex c hc]; simp]
    simp

theorem Spec.Separated.gt {N m : ℕ} {S : Finset ℕ} (h : Separated N m S) (b : ℕ) (hb : b ∈ S) : m < b := by
  have := h.dc b hb
  omega

theorem mem_lobe (k b m : ℕ) : k ∈ lobe b m ↔ b - m ≤ k ∧ k ≤ b + m := by unfold lobe; rw [mem_Icc]

/-- A power spectrum that is a sum of disjoint lobes of the same shape. -/
structure Comb (p : List ℝ) (N : ℕ) (S : Finset ℕ) (a : ℕ → ℝ) (m : ℕ) (g : ℕ → ℕ → ℝ) (g0 : ℝ) : Prop where
  sep : Separated N m S
  len : p.length = N / 2 + 1
  val : ∀ k ≤ N / 2, p.getD k 0 = ∑ b ∈ S, a b ^ 2 * g k b
  nonneg : ∀ k b, 0 ≤ g k b
  out : ∀ b ∈ S, ∀ k ≤ N / 2, k ∉ lobe b m → g k b = 0
  total : ∀ b ∈ S, ∑ k ∈ lobe b m, g k b = 1
  g0_pos : 0 < g0
  top : ∀ b ∈ S, g b b = g0
  peak : ∀ b ∈ S, ∀ k ≤ N / 2, k ≠ b → g k b < g0
  sym : ∀ b ∈ S, g (b - 1) b = g (b + 1) b

theorem tonesRow_length (N : ℕ) (S : Finset ℕ) (amp φ : ℕ → ℝ) (D : ℝ) : (tonesRow N S amp φ D).length = N := by simp [tonesRow]

theorem tonesRow_getD (N : ℕ) (S : Finset ℕ) (amp φ : ℕ → ℝ) (D : ℝ) (n : ℕ) (hn : n < N) :
    (tonesRow N S amp φ D).getD n 0 = (∑ b ∈ S, amp b * Real.cos (2 * Real.pi * (b * n / N) + φ b)) + D := by
  unfold tonesRow
  rw [List.getD_eq_getElem?_getD, List.getElem?_map, List.getElem?_range hn]
  rfl

/-- Preparation removes the DC level and divides every amplitude by the full scale. -/
theorem prepare_tonesRow (N : ℕ) (S : Finset ℕ) (amp φ : ℕ → ℝ) (D V : ℝ) (hN : N ≠ 0) (hS : ∀ b ∈ S, 0 < b ∧ 2 * b < N) (hV : V ≠ 0) :
    (removeDc (tonesRow N S amp φ D)).map (· / V) = tonesRow N S (fun b => amp b / V) φ 0 := by
  have hNR : (N : ℝ) ≠ 0 := by exact_mod_cast hN
  have hsum : (tonesRow N S amp φ D).sum = N * D := by
    unfold tonesRow
    rw [list_sum_map_range, sum_add_distrib, sum_comm, sum_eq_zero fun b hb => tone_sum N b (amp b) (φ b) (hS b hb).1 (hS b hb).2]
    simp
  unfold removeDc
  rw [hsum, tonesRow_length, List.map_map]
  unfold tonesRow
  rw [List.map_map]
  apply List.map_congr_left
  intro k _
  simp only [Function.comp]
  rw [mul_div_cancel_left₀ _ hNR, add_sub_cancel_right, add_zero, sum_div]
  apply sum_congr rfl
  intro b _
  ring

/-- One run: the lines do not interfere. -/
theorem tones_bin (N m : ℕ) (S : Finset ℕ) (hS : Separated N m S) (amp φ : ℕ → ℝ) (w : ℕ → ℝ) (hw : LobeWindow w N m) (k : ℕ) (hk : k ≤ N / 2) :
    ‖dft N (fun n => (((tonesRow N S amp φ 0).getD n 0 * w n : ℝ) : ℂ)) k‖ ^ 2
      = ∑ b ∈ S, amp b ^ 2 / 4 * ‖dft N (fun n => (w n : ℂ)) ((k : ℤ) - b)‖ ^ 2 := by
  rw [dft_congr N _ (fun n => ∑ b ∈ S, ((amp b * Real.cos (2 * Real.pi * (b * n / N) + φ b) * w n : ℝ) : ℂ))]
  · rw [dft_sum, norm_sum_exclusive]
    · apply sum_congr rfl
      intro b hb
      exact tone_bin N b m (amp b) (φ b) w hw (hS.gt b hb) (hS.nyquist b hb) k hk
    · intro b hb c hc hne
      have key : ∀ b ∈ S, k < b - m ∨ b + m < k → dft N (fun n => ((amp b * Real.cos (2 * Real.pi * (b * n / N) + φ b) * w n : ℝ) : ℂ)) k = 0 := by
        intro b hb hout
        have hnb := hS.nyquist b hb
        have h := tone_bin N b m (amp b) (φ b) w hw (hS.gt b hb) hnb k hk
        rw [window_outside N b m w hw (hS.gt b hb) hnb k (by omega) hout] at h
        simpa using h
      rcases lt_or_gt_of_ne hne with h | h
      · have := hS.apart b hb c hc h
        by_cases hx : k ≤ b + m
        · exact Or.inr (key c hc (Or.inl (by omega)))
        · exact Or.inl (key b hb (Or.inr (by omega)))
      · have := hS.apart c hc b hb h
        by_cases hx : k ≤ c + m
        · exact Or.inl (key b hb (Or.inl (by omega)))
        · exact Or.inr (key c hc (Or.inr (by omega)))
  · intro n hn
    rw [tonesRow_getD N S amp φ 0 n hn, add_zero, sum_mul]
    push_cast
    rfl

theorem powerAverage_getD_mul (runs : List (ℕ → ℝ)) (N : ℕ) (c : ℝ) (k : ℕ) (hk : k ≤ N / 2) : ((powerAverage runs N).map (· * c)).getD k 0
    = oneSided N k ((runs.map fun x => ‖dft N (fun n => (x n : ℂ)) k‖ ^ 2).sum / runs.length / (N : ℝ) ^ 2) * c := by
  unfold powerAverage
  rw [List.getD_eq_getElem?_getD, List.getElem?_map, List.getElem?_map, List.getElem?_range (by omega)]
  rfl

/-- The corrected spectrum of any number of runs with these tones, at whatever phases. -/
theorem tones_comb (N m : ℕ) (hN : N ≠ 0) (S : Finset ℕ) (hS : Separated N m S) (amp : ℕ → ℝ) (R : List (ℕ → ℝ)) (hR : R ≠ []) (w : ℕ → ℝ)
    (hw : LobeWindow w N m) (p : List ℝ)
    (hp : p = (powerAverage (runsOf (R.map fun φ => tonesRow N S amp φ 0) w) N).map (· * powerCorrection (windowGain w N) (windowEnbw w N))) :
    ∃ g, Comb p N S amp m g (1 / windowEnbw w N) := by
  have hNR : (0 : ℝ) < N := by exact_mod_cast Nat.pos_of_ne_zero hN
  have hw2 : 0 < ∑ n ∈ range N, w n ^ 2 := by
    apply lt_of_le_of_ne (sum_nonneg fun i _ => sq_nonneg _)
    intro h0
    apply hw.mean
    apply sum_eq_zero
    intro i hi
    have := (sum_eq_zero_iff_of_nonneg (fun i _ => sq_nonneg (w i))).mp h0.symm i hi
    exact pow_eq_zero_iff (two_ne_zero) |>.mp this
  set W : ℤ → ℂ := dft N (fun n => (w n : ℂ)) with hW
  set E : ℝ := ∑ n ∈ range N, w n ^ 2 with hE
  have hRl : (R.length : ℝ) ≠ 0 := by
    have : R.length ≠ 0 := by simpa using hR
    exact_mod_cast this
  have hout : ∀ b ∈ S, ∀ k ≤ N / 2, k ∉ lobe b m → ‖W ((k : ℤ) - b)‖ ^ 2 / (N * E) = 0 := by
    intro b hb k hk hnot
    have h2 := hS.nyquist b hb
    rw [mem_lobe] at hnot
    rw [hW, window_outside N b m w hw (hS.gt b hb) h2 k (by omega) (by omega)]
    simp
  have hW0 : W 0 = ((∑ n ∈ range N, w n : ℝ) : ℂ) := by
    rw [hW]
    unfold dft
    rw [Complex.ofReal_sum]
    apply sum_congr rfl
    intro n _
    simp [cis_zero]
  have hg0 : 1 / windowEnbw w N = ‖W 0‖ ^ 2 / (N * E) := by
    unfold windowEnbw
    rw [hW0, Complex.norm_real, Real.norm_eq_abs, sq_abs, one_div_div]
  rw [hg0]
  refine ⟨fun k b => ‖W ((k : ℤ) - b)‖ ^ 2 / (N * E), hS, ?_, ?_, ?_, hout, ?_, ?_, ?_, ?_, ?_⟩
  · rw [hp, List.length_map, powerAverage_length]
  · intro k hk
    have hrun : ((runsOf (R.map fun φ => tonesRow N S amp φ 0) w).map fun x => ‖dft N (fun n => (x n : ℂ)) k‖ ^ 2).sum / (R.length : ℝ)
        = ∑ b ∈ S, amp b ^ 2 / 4 * ‖W ((k : ℤ) - b)‖ ^ 2 := by
      unfold runsOf
      rw [List.map_map, List.map_map]
      have : ∀ L : List (ℕ → ℝ), (L.map (((fun x : ℕ → ℝ => ‖dft N (fun n => (x n : ℂ)) k‖ ^ 2) ∘ fun (r : List ℝ) (n : ℕ) => r.getD n 0 * w n) ∘
          fun φ => tonesRow N S amp φ 0)).sum = L.length * ∑ b ∈ S, amp b ^ 2 / 4 * ‖W ((k : ℤ) - b)‖ ^ 2 := by
        intro L
        induction L with
        | nil => simp
        | cons φ L ih =>
          rw [List.map_cons, List.sum_cons, ih, List.length_cons]
          simp only [Function.comp]
          rw [tones_bin N m S hS amp φ w hw k hk]
          push_cast
          ring
      rw [this, mul_div_cancel_left₀ _ hRl]
    have e : p.getD k 0 = oneSided N k ((∑ b ∈ S, amp b ^ 2 / 4 * ‖W ((k : ℤ) - b)‖ ^ 2) / (N : ℝ) ^ 2) * (4 * N / E) := by
      have hl : (runsOf (R.map fun φ => tonesRow N S amp φ 0) w).length = R.length := by simp [runsOf]
      rw [hp, powerAverage_getD_mul _ _ _ _ hk, powerCorrection_eq w N hN hw.mean, ← hE, ← hrun, hl]
    rw [e]
    by_cases hedge : k = 0 ∨ (N % 2 = 0 ∧ k = N / 2)
    · have hz : ∀ b ∈ S, ‖W ((k : ℤ) - b)‖ ^ 2 / (N * E) = 0 := by
        intro b hb
        apply hout b hb k hk
        have h1 := hS.dc b hb
        have h2 := hS.nyquist b hb
        rw [mem_lobe]
        omega
      have hz' : ∀ b ∈ S, ‖W ((k : ℤ) - b)‖ ^ 2 = 0 := by
        intro b hb
        have := hz b hb
        rw [div_eq_zero_iff] at this
        exact this.resolve_right (mul_pos hNR hw2).ne'
      rw [sum_eq_zero fun b hb => by rw [hz' b hb, mul_zero], sum_eq_zero fun b hb => by rw [hz b hb, mul_zero]]
      simp [oneSided]
    · push Not at hedge
      have : oneSided N k ((∑ b ∈ S, amp b ^ 2 / 4 * ‖W ((k : ℤ) - b)‖ ^ 2) / (N : ℝ) ^ 2) = (∑ b ∈ S, amp b ^ 2 / 4 * ‖W ((k : ℤ) - b)‖ ^ 2) / (N : ℝ) ^ 2 := by
        unfold oneSided
        simp only
        rw [if_neg (by intro h; exact hedge.2 h.1 h.2), if_neg hedge.1]
      rw [this, sum_div, sum_mul]
      apply sum_congr rfl
      intro b _
      field_simp
  · intro k b
    positivity
  · intro b hb
    have hl := lobe_sum N b m w hw (hS.gt b hb) (hS.nyquist b hb)
    rw [← sum_div]
    have : lobe b m = Ico (b - m) (b + m + 1) := by
      ext i
      rw [mem_lobe, mem_Ico]
      omega
    rw [this, hl]
    exact div_self (mul_pos hNR hw2).ne'
  · have hN1 : W 0 ≠ 0 := by
      rw [hW0]
      exact_mod_cast hw.mean
    have : 0 < ‖W 0‖ := norm_pos_iff.mpr hN1
    positivity
  · intro b _
    simp
  · intro b hb k hk hne
    have h2 := hS.nyquist b hb
    apply div_lt_div_of_pos_right _ (mul_pos hNR hw2)
    apply pow_lt_pow_left₀ _ (norm_nonneg _) two_ne_zero
    apply hw.peak
    rintro ⟨c, hc⟩
    have b1 : -(N : ℤ) < (k : ℤ) - b := by omega
    have b2 : (k : ℤ) - b < N := by omega
    have hN' : (0 : ℤ) < N := by omega
    rw [hc] at b1 b2
    have : -1 < c := by nlinarith
    have : c < 1 := by nlinarith
    have hc0 : c = 0 := by omega
    rw [hc0] at hc
    omega
  · intro b hb
    have h1 := hS.dc b hb
    beta_reduce
    congr 2
    have h := dft_conj N w 1
    rw [show (((b - 1 : ℕ) : ℤ) - b) = -1 by omega, show (((b + 1 : ℕ) : ℤ) - b) = 1 by omega, hW, ← h, Complex.norm_conj]

section
variable {p : List ℝ} {N : ℕ} {S : Finset ℕ} {a : ℕ → ℝ} {m : ℕ} {g : ℕ → ℕ → ℝ} {g0 : ℝ}

/-- Power of a set of bins that cuts no lobe. -/
theorem Comb.power_eq (c : Comb p N S a m g g0) (T : Finset ℕ) (hT : ∀ k ∈ T, k ≤ N / 2) (hcut : ∀ b ∈ S, lobe b m ⊆ T ∨ Disjoint (lobe b m) T) :
    power (fun i => p.getD i 0) T = ∑ b ∈ S.filter (· ∈ T), a b ^ 2 := by
  have hself : ∀ b, b ∈ lobe b m := fun b => by rw [mem_lobe]; omega
  unfold power
  rw [sum_congr rfl fun k hk => c.val k (hT k hk), sum_comm, sum_filter]
  apply sum_congr rfl
  intro b hb
  rw [← mul_sum]
  rcases hcut b hb with h | h
  · rw [if_pos (h (hself b)), ← sum_subset h fun k hk hnot => c.out b hb k (hT k hk) hnot, c.total b hb, mul_one]
  · rw [if_neg (disjoint_left.mp h (hself b)), sum_eq_zero, mul_zero]
    intro k hk
    exact c.out b hb k (hT k hk) fun hm => disjoint_left.mp h hm hk

/-- Value inside one lobe. -/
theorem Comb.in_lobe (c : Comb p N S a m g g0) (b : ℕ) (hb : b ∈ S) (k : ℕ) (hk : k ∈ lobe b m) : p.getD k 0 = a b ^ 2 * g k b := by
  have h2 := c.sep.nyquist b hb
  rw [mem_lobe] at hk
  rw [c.val k (by omega)]
  apply sum_eq_single_of_mem b hb
  intro b' hb' hne
  rw [c.out b' hb' k (by omega), mul_zero]
  rw [mem_lobe]
  rcases lt_or_gt_of_ne hne with h | h
  · have := c.sep.apart b' hb' b hb h
    omega
  · have := c.sep.apart b hb b' hb' h
    omega

theorem Comb.off_lobes (c : Comb p N S a m g g0) (k : ℕ) (hk : k ≤ N / 2) (h : ∀ b ∈ S, k ∉ lobe b m) : p.getD k 0 = 0 := by
  rw [c.val k hk]
  exact sum_eq_zero fun b hb => by rw [c.out b hb k hk (h b hb), mul_zero]

/-- A line of positive amplitude towers over every bin that belongs to no stronger line. -/
theorem Comb.strongest (c : Comb p N S a m g g0) (b : ℕ) (hb : b ∈ S) (hab : 0 < a b) (k : ℕ) (hk : k ≤ N / 2)
    (hle : ∀ b' ∈ S, k ∈ lobe b' m → |a b'| ≤ a b) (hge : p.getD b 0 ≤ p.getD k 0) : k ∈ S ∧ |a k| = a b := by
  have hbl : b ∈ lobe b m := by rw [mem_lobe]; omega
  rw [c.in_lobe b hb b hbl, c.top b hb] at hge
  have hpos : 0 < a b ^ 2 * g0 := mul_pos (pow_pos hab 2) c.g0_pos
  by_cases hin : ∃ b' ∈ S, k ∈ lobe b' m
  · obtain ⟨b', hb', hk'⟩ := hin
    rw [c.in_lobe b' hb' k hk'] at hge
    have h1 := hle b' hb' hk'
    have h2 : a b' ^ 2 ≤ a b ^ 2 := by rw [← sq_abs (a b')]; exact pow_le_pow_left₀ (abs_nonneg _) h1 2
    have hkb : k = b' := by
      by_contra hne
      have h3 := c.peak b' hb' k hk hne
      have h4 := c.nonneg k b'
      have : a b' ^ 2 * g k b' < a b ^ 2 * g0 := by
        calc a b' ^ 2 * g k b' ≤ a b ^ 2 * g k b' := mul_le_mul_of_nonneg_right h2 h4
          _ < a b ^ 2 * g0 := mul_lt_mul_of_pos_left h3 (pow_pos hab 2)
      linarith
    subst hkb
    refine ⟨hb', le_antisymm h1 ?_⟩
    rw [c.top k hb'] at hge
    have h5 : a b ^ 2 ≤ a k ^ 2 := le_of_mul_le_mul_right hge c.g0_pos
    rw [← sq_abs (a k)] at h5
    exact (pow_le_pow_iff_left₀ hab.le (abs_nonneg _) two_ne_zero).mp h5
  · push Not at hin
    rw [c.off_lobes k hk hin] at hge
    linarith

/-- The two bins beside a line are equally strong. -/
theorem Comb.flanks (c : Comb p N S a m g g0) (b : ℕ) (hb : b ∈ S) : p.getD (b - 1) 0 = p.getD (b + 1) 0 := by
  have h1 := c.sep.dc b hb
  have h2 := c.sep.nyquist b hb
  by_cases hm : 1 ≤ m
  · rw [c.in_lobe b hb (b - 1) (by rw [mem_lobe]; omega), c.in_lobe b hb (b + 1) (by rw [mem_lobe]; omega), c.sym b hb]
  · have : m = 0 := by omega
    subst this
    have hz : ∀ k, k ≤ N / 2 → (k + 1 = b ∨ k = b + 1) → p.getD k 0 = 0 := by
      intro k hk hkb
      apply c.off_lobes k hk
      intro b' hb'
      rw [mem_lobe]
      rcases lt_trichotomy b b' with h | h | h
      · have := c.sep.apart b hb b' hb' h
        omega
      · omega
      · have := c.sep.apart b' hb' b hb h
        omega
    rw [hz (b - 1) (by omega) (by omega)]
    by_cases hx : b + 1 ≤ N / 2
    · rw [hz (b + 1) hx (by omega)]
    · rw [List.getD_eq_getElem?_getD, List.getElem?_eq_none (by rw [c.len]; omega)]
      rfl

end

end Verif
