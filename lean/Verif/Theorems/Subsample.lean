import Verif.Model.Subsample
import Verif.Theorems.Frequency
import Verif.Theorems.MultiTone

/-!
# C110: subsampling moves spurs and keeps their height
-/

namespace Verif

open Model Finset Spec

section predictor
variable {K : Type} [Field K] [LinearOrder K] [IsStrictOrderedRing K] [FloorRing K]

/-- **C110 (alias predictor).** For a positive rate the predicted position is the first-zone alias of the frequency, i.e. the value of `fold_frequency_to_nyquist`. -/
theorem C110_alias_is_fold (f fs : K) (hfs : 0 < fs) : aliasFreq f fs = .ok (foldFrequency f fs) ∧ ∀ v, aliasFreq f fs = .ok v → FirstZoneAlias f fs v := by
  have hz : FirstZoneAlias f fs (if f - fs * ⌊f / fs⌋ > fs / 2 then fs - (f - fs * ⌊f / fs⌋) else f - fs * ⌊f / fs⌋) := by
    have h1 : (⌊f / fs⌋ : K) * fs ≤ f := by
      rw [← le_div_iff₀ hfs]
      exact Int.floor_le _
    have h2 : f < ((⌊f / fs⌋ : K) + 1) * fs := by
      rw [← div_lt_iff₀ hfs]
      exact Int.lt_floor_add_one _
    split_ifs with h
    · refine ⟨by linarith, by linarith, ⌊f / fs⌋ + 1, Or.inr ?_⟩
      push_cast
      ring
    · refine ⟨by linarith, not_lt.mp h, ⌊f / fs⌋, Or.inl ?_⟩
      ring
  have e : aliasFreq f fs = .ok (if f - fs * ⌊f / fs⌋ > fs / 2 then fs - (f - fs * ⌊f / fs⌋) else f - fs * ⌊f / fs⌋) := by
    unfold aliasFreq
    rw [if_neg hfs.ne']
  refine ⟨by rw [e, C04_fold_unique f fs _ hfs hz], fun v hv => ?_⟩
  rw [e] at hv
  injection hv with hv
  rw [← hv]
  exact hz

/-- **C110 (documented formula).** The predictor equals `|((f + fs/2) mod fs) - fs/2|`, the formula in the header of the script. -/
theorem C110_documented_formula (f fs : K) (hfs : 0 < fs) :
    aliasFreq f fs = .ok |(f + fs / 2 - fs * ⌊(f + fs / 2) / fs⌋) - fs / 2| := by
  have h1 : (⌊(f + fs / 2) / fs⌋ : K) * fs ≤ f + fs / 2 := by
    rw [← le_div_iff₀ hfs]
    exact Int.floor_le _
  have h2 : f + fs / 2 < ((⌊(f + fs / 2) / fs⌋ : K) + 1) * fs := by
    rw [← div_lt_iff₀ hfs]
    exact Int.lt_floor_add_one _
  rw [(C110_alias_is_fold f fs hfs).1]
  congr 1
  symm
  apply C04_fold_unique f fs _ hfs
  refine ⟨abs_nonneg _, ?_, ?_⟩
  · rw [abs_le]
    constructor <;> linarith
  · refine ⟨⌊(f + fs / 2) / fs⌋, ?_⟩
    rcases abs_choice (f + fs / 2 - fs * ⌊(f + fs / 2) / fs⌋ - fs / 2) with h | h
    · left
      rw [h]
      ring
    · right
      rw [h]
      ring

/-- **C110 (alias label).** For a non-negative frequency the script labels a component "(alias)" exactly when it lies above the output Nyquist frequency. -/
theorem C110_alias_label (f fs : K) (hfs : 0 < fs) (hf : 0 ≤ f) : ∃ b, aliasedFlag f fs = .ok b ∧ (b = true ↔ fs / 2 < f) := by
  obtain ⟨e, hz⟩ := C110_alias_is_fold f fs hfs
  refine ⟨decide (foldFrequency f fs ≠ f), by unfold aliasedFlag; rw [e], ?_⟩
  rw [decide_eq_true_iff]
  obtain ⟨z1, z2, z3⟩ := hz _ e
  constructor
  · intro hne
    by_contra hle
    apply hne
    symm
    exact C04_fold_unique f fs f hfs ⟨hf, not_lt.mp hle, 0, Or.inl (by simp)⟩
  · intro hlt heq
    rw [heq] at z2
    linarith

end predictor

section slice
variable {α : Type}

private theorem slice_eq (s : List α) (n : ℕ) (hn : 0 < n) (d : α) : sliceStep s (n - 1) n = (List.range (s.length / n)).map fun j => s.getD ((j + 1) * n - 1) d := by
  induction s using List.reverseRecOn with
  | nil => simp [sliceStep]
  | append_singleton s a ih =>
    have hstep : sliceStep (s ++ [a]) (n - 1) n = sliceStep s (n - 1) n ++ (if n ∣ s.length + 1 then [a] else []) := by
      unfold sliceStep
      rw [List.zipIdx_append, List.filter_append, List.map_append]
      congr 1
      have hiff : (n - 1 ≤ 0 + s.length ∧ (0 + s.length - (n - 1)) % n = 0) ↔ n ∣ s.length + 1 := by
        rw [Nat.zero_add, ← Nat.dvd_iff_mod_eq_zero]
        constructor
        · rintro ⟨h1, h2⟩
          have := Nat.dvd_add h2 (dvd_refl n)
          rwa [show s.length - (n - 1) + n = s.length + 1 by omega] at this
        · intro h
          have hle := Nat.le_of_dvd (by omega) h
          refine ⟨by omega, ?_⟩
          have := Nat.dvd_sub h (dvd_refl n)
          rwa [show s.length + 1 - n = s.length - (n - 1) by omega] at this
      simp only [List.zipIdx_cons, List.zipIdx_nil, List.filter_cons, List.filter_nil, decide_eq_true_eq]
      by_cases h : n ∣ s.length + 1
      · rw [if_pos (hiff.mpr h), if_pos h]
        rfl
      · rw [if_neg (fun hc => h (hiff.mp hc)), if_neg h]
        rfl
    have hget : ∀ j < s.length / n, (s ++ [a]).getD ((j + 1) * n - 1) d = s.getD ((j + 1) * n - 1) d := by
      intro j hj
      have h1 : (j + 1) * n ≤ s.length / n * n := Nat.mul_le_mul_right n hj
      have h2 := Nat.div_mul_le_self s.length n
      have h3 : 0 < (j + 1) * n := by positivity
      rw [List.getD_eq_getElem?_getD, List.getD_eq_getElem?_getD, List.getElem?_append_left (by omega)]
    rw [hstep, ih, List.length_append, List.length_singleton]
    by_cases h : n ∣ s.length + 1
    · rw [if_pos h, Nat.succ_div_of_dvd h, List.range_succ, List.map_append]
      congr 1
      · apply List.map_congr_left
        intro j hj
        exact (hget j (List.mem_range.mp hj)).symm
      · simp only [List.map_cons, List.map_nil]
        have he : (s.length / n + 1) * n = s.length + 1 := by
          rw [← Nat.succ_div_of_dvd h]
          exact Nat.div_mul_cancel h
        rw [he, Nat.add_sub_cancel, List.getD_eq_getElem?_getD, List.getElem?_append_right le_rfl]
        simp
    · rw [if_neg h, Nat.succ_div_of_not_dvd h, List.append_nil]
      apply List.map_congr_left
      intro j hj
      exact (hget j (List.mem_range.mp hj)).symm

/-- **C110 (which samples).** Subsampling by `n ≥ 1` keeps `⌊L/n⌋` samples; output `j` is input `(j+1)·n - 1`. A factor of zero raises `ValueError`. -/
theorem C110_kept_samples (s : List α) (n : ℕ) :
    (n = 0 → subsample s n = .error .valueError) ∧ (0 < n → ∃ o, subsample s n = .ok o ∧ o.length = s.length / n ∧ ∀ j < o.length, o[j]? = s[(j + 1) * n - 1]?) := by
  constructor
  · intro h
    unfold subsample
    rw [if_pos h]
  · intro hn
    refine ⟨sliceStep s (n - 1) n, by unfold subsample; rw [if_neg (by omega)], ?_⟩
    rcases s with _ | ⟨d, s⟩
    · simp [sliceStep]
    · rw [slice_eq (d :: s) n hn d, List.length_map, List.length_range]
      refine ⟨rfl, fun j hj => ?_⟩
      have h1 : (j + 1) * n ≤ (d :: s).length / n * n := Nat.mul_le_mul_right n hj
      have h2 := Nat.div_mul_le_self (d :: s).length n
      have h3 : 0 < (j + 1) * n := by positivity
      rw [List.getElem?_map, List.getElem?_range hj, Option.map_some, List.getD_eq_getElem?_getD, List.getElem?_eq_getElem (by omega), Option.getD_some]

/-- **C110 (stages).** Subsampling by `a` and then by `b` is subsampling by `a·b`. -/
theorem C110_stages (s : List α) (a b : ℕ) (ha : 0 < a) (hb : 0 < b) : (subsample s a).bind (fun o => subsample o b) = subsample s (a * b) := by
  have hab : 0 < a * b := Nat.mul_pos ha hb
  obtain ⟨o, e1, l1, g1⟩ := (C110_kept_samples s a).2 ha
  obtain ⟨p, e2, l2, g2⟩ := (C110_kept_samples o b).2 hb
  obtain ⟨q, e3, l3, g3⟩ := (C110_kept_samples s (a * b)).2 hab
  rw [e1, e3]
  show subsample o b = _
  rw [e2]
  congr 1
  have hl : p.length = q.length := by rw [l2, l1, l3, Nat.div_div_eq_div_mul]
  apply List.ext_getElem? 
  intro j
  by_cases hj : j < p.length
  · have h1 : (j + 1) * b ≤ o.length / b * b := by
      apply Nat.mul_le_mul_right
      omega
    have h2 := Nat.div_mul_le_self o.length b
    have h3 : 0 < (j + 1) * b := by positivity
    rw [g2 j hj, g1 _ (by omega), g3 j (by omega)]
    congr 1
    rw [show (j + 1) * b - 1 + 1 = (j + 1) * b by omega]
    congr 1
    ring
  · rw [List.getElem?_eq_none (by omega), List.getElem?_eq_none (by omega)]

end slice

/-! ## Tones -/

/-- One tone, looked at on every `n`-th sample: the same amplitude at the alias, with another phase. -/
private theorem tone_alias (n M b c : ℕ) (hn : 0 < n) (hM : 0 < M) (φ : ℝ) (h : FirstZoneAlias (b : ℝ) (M : ℝ) (c : ℝ)) :
    ∃ ψ, ∀ j : ℕ, Real.cos (2 * Real.pi * ((b : ℝ) * ((j + 1) * n - 1 : ℕ) / (n * M : ℕ)) + φ) = Real.cos (2 * Real.pi * ((c : ℝ) * j / M) + ψ) := by
  have hnR : (n : ℝ) ≠ 0 := by exact_mod_cast hn.ne'
  have hMR : (M : ℝ) ≠ 0 := by exact_mod_cast hM.ne'
  obtain ⟨_, _, k, hk⟩ := h
  have hidx : ∀ j : ℕ, (((j + 1) * n - 1 : ℕ) : ℝ) = (j + 1) * n - 1 := by
    intro j
    have : 1 ≤ (j + 1) * n := by
      have : 0 < (j + 1) * n := by positivity
      omega
    rw [Nat.cast_sub this]
    push_cast
    ring
  rcases hk with hk | hk
  · refine ⟨2 * Real.pi * (b * (n - 1) / (n * M)) + φ, fun j => ?_⟩
    rw [hidx]
    have e : 2 * Real.pi * ((b : ℝ) * ((j + 1) * n - 1) / (n * M : ℕ)) + φ
        = (2 * Real.pi * ((c : ℝ) * j / M) + (2 * Real.pi * (b * (n - 1) / (n * M)) + φ)) + ((k * j : ℤ) : ℝ) * (2 * Real.pi) := by
      push_cast
      have : (b : ℝ) * ((j + 1) * n - 1) / (n * M) = c * j / M + b * (n - 1) / (n * M) + k * j := by
        rw [hk]
        field_simp
        ring
      rw [this]
      ring
    rw [e, Real.cos_add_int_mul_two_pi]
  · refine ⟨-(2 * Real.pi * (b * (n - 1) / (n * M)) + φ), fun j => ?_⟩
    rw [hidx, ← Real.cos_neg]
    have e : -(2 * Real.pi * ((b : ℝ) * ((j + 1) * n - 1) / (n * M : ℕ)) + φ)
        = (2 * Real.pi * ((c : ℝ) * j / M) + -(2 * Real.pi * (b * (n - 1) / (n * M)) + φ)) - ((k * j : ℤ) : ℝ) * (2 * Real.pi) := by
      push_cast
      have : (b : ℝ) * ((j + 1) * n - 1) / (n * M) = -(c * j / M) + b * (n - 1) / (n * M) + k * j := by
        rw [hk]
        field_simp
        ring
      rw [this]
      ring
    rw [e, Real.cos_sub_int_mul_two_pi]

/-- **C110 (spur heights).** A record of `n·M` samples that consists of coherent tones on a DC level, subsampled by `n`, is a record of `M` samples with the same DC level and
the same tones: each keeps its amplitude and moves to the alias of its bin, provided no two tones have the same alias. -/
theorem C110_spur_heights (n M : ℕ) (hn : 0 < n) (hM : 0 < M) (S : Finset ℕ) (amp φ : ℕ → ℝ) (D : ℝ) (f : ℕ → ℕ)
    (hf : ∀ b ∈ S, FirstZoneAlias (b : ℝ) (M : ℝ) (f b : ℝ)) (hinj : ∀ b ∈ S, ∀ c ∈ S, f b = f c → b = c) (amp' : ℕ → ℝ) (hamp : ∀ b ∈ S, amp' (f b) = amp b) :
    ∃ φ', subsample (tonesRow (n * M) S amp φ D) n = .ok (tonesRow M (S.image f) amp' φ' D) := by
  have hψ : ∀ b, ∃ ψ, b ∈ S → ∀ j : ℕ, Real.cos (2 * Real.pi * ((b : ℝ) * ((j + 1) * n - 1 : ℕ) / (n * M : ℕ)) + φ b) = Real.cos (2 * Real.pi * ((f b : ℝ) * j / M) + ψ) := by
    intro b
    by_cases hb : b ∈ S
    · obtain ⟨ψ, h⟩ := tone_alias n M b (f b) hn hM (φ b) (hf b hb)
      exact ⟨ψ, fun _ => h⟩
    · exact ⟨0, fun h => absurd h hb⟩
  choose ψ hψ using hψ
  have hinv : ∃ g : ℕ → ℕ, ∀ b ∈ S, g (f b) = b := by
    classical
    refine ⟨fun c => if h : ∃ b ∈ S, f b = c then h.choose else 0, fun b hb => ?_⟩
    have hex : ∃ b' ∈ S, f b' = f b := ⟨b, hb, rfl⟩
    beta_reduce
    rw [dif_pos hex]
    exact hinj _ hex.choose_spec.1 b hb hex.choose_spec.2
  obtain ⟨g, hg⟩ := hinv
  refine ⟨fun c => ψ (g c), ?_⟩
  unfold subsample
  rw [if_neg (by omega), slice_eq _ n hn 0, tonesRow_length, Nat.mul_div_cancel_left M hn]
  congr 1
  conv_rhs => unfold tonesRow
  apply List.map_congr_left
  intro j hj
  rw [List.mem_range] at hj
  have hlt : (j + 1) * n - 1 < n * M := by
    have h1 : (j + 1) * n ≤ M * n := Nat.mul_le_mul_right n hj
    have h3 : 0 < (j + 1) * n := by positivity
    rw [mul_comm n M]
    omega
  rw [tonesRow_getD _ _ _ _ _ _ hlt, sum_image fun b hb c hc => hinj b hb c hc]
  congr 1
  apply sum_congr rfl
  intro b hb
  beta_reduce
  rw [hψ b hb j, hamp b hb, hg b hb]

/-- **C110 (predicted positions).** The bin a tone moves to is the bin of the position predicted by `alias_freq` at the output rate. -/
theorem C110_predicted_bin (fs : ℝ) (hfs : 0 < fs) (n M b c : ℕ) (hn : 0 < n) (hM : 0 < M) (h : FirstZoneAlias (b : ℝ) (M : ℝ) (c : ℝ)) :
    aliasFreq ((b : ℝ) * fs / (n * M : ℕ)) (fs / n) = .ok ((c : ℝ) * (fs / n) / M) := by
  have hnR : (0 : ℝ) < n := by exact_mod_cast hn
  have hMR : (0 : ℝ) < M := by exact_mod_cast hM
  have hpos : 0 < fs / n := div_pos hfs hnR
  rw [(C110_alias_is_fold _ _ hpos).1]
  congr 1
  symm
  apply C04_fold_unique _ _ _ hpos
  obtain ⟨h0, h1, k, hk⟩ := h
  refine ⟨by positivity, ?_, k, ?_⟩
  · rw [div_le_iff₀ hMR]
    nlinarith
  · push_cast
    rcases hk with hk | hk
    · left
      rw [hk]
      field_simp
    · right
      rw [hk]
      field_simp

/-- **C110 (SFDR before and after).** If the tones fit the analysis on both sides of the subsampler, all of them in band, then SFDR is the same before and after, exactly,
whatever the windows, scales and phases; the spur moves to the alias of a strongest spur's bin. Signal power and SNDR also agree when both analyses use the same full scale. -/
theorem C110_sfdr_conserved (lib : WinLib) (a a' : SpectrumArgs) (n M k k' : ℕ) (hn : 0 < n) (hM : 0 < M) (V V' : ℝ) (S : Finset ℕ) (amp amp' φ : ℕ → ℝ) (D : ℝ) (b0 : ℕ)
    (f : ℕ → ℕ) (hf : ∀ b ∈ S, FirstZoneAlias (b : ℝ) (M : ℝ) (f b : ℝ)) (hinj : ∀ b ∈ S, ∀ c ∈ S, f b = f c → b = c) (hamp : ∀ b ∈ S, amp' (f b) = amp b)
    (t : ToneTest a (n * M) k V S amp b0) (t' : ToneTest a' M k' V' (S.image f) amp' (f b0)) (hin : ∀ b ∈ S, b < k ∧ f b < k') (hex : ∃ b ∈ S, b ≠ b0)
    (x y : List ℝ) (hx : x = tonesRow (n * M) S amp φ D) (hy : subsample x n = .ok y) (hV : peakAmplitude [x] a.scale = .ok V) (hV' : peakAmplitude [y] a'.scale = .ok V')
    (r r' : SpectrumResult) (h : computeSpectrum lib [x] a = .ok r) (h' : computeSpectrum lib [y] a' = .ok r') :
    r'.sfdr = r.sfdr ∧ (∃ b ∈ S, b ≠ b0 ∧ (∀ c ∈ S, c ≠ b0 → amp c ≤ amp b) ∧ r'.spurBin = f b) ∧ (V' = V → r'.sigPwr = r.sigPwr ∧ r'.sndr = r.sndr) := by
  obtain ⟨φ', e⟩ := C110_spur_heights n M hn hM S amp φ D f hf hinj amp' hamp
  rw [hx] at hy hV h
  rw [e] at hy
  injection hy with hy
  rw [← hy] at hV' h'
  have h2 := t.sep.nyquist b0 t.carrier
  have h2' := t'.sep.nyquist (f b0) t'.carrier
  have hl : [((φ, D) : (ℕ → ℝ) × ℝ)].length ≤ 2 * (n * M) := by
    rw [List.length_singleton]
    omega
  have hl' : [((φ', D) : (ℕ → ℝ) × ℝ)].length ≤ 2 * M := by
    rw [List.length_singleton]
    omega
  have ho : ∀ b, b ∈ others S k b0 ↔ b ∈ S ∧ b ≠ b0 := by
    intro b
    unfold others
    rw [mem_filter]
    constructor
    · rintro ⟨q1, _, q2⟩
      exact ⟨q1, q2⟩
    · rintro ⟨q1, q2⟩
      exact ⟨q1, (hin b q1).1, q2⟩
  have ho' : ∀ c, c ∈ others (S.image f) k' (f b0) ↔ ∃ b ∈ S, b ≠ b0 ∧ f b = c := by
    intro c
    unfold others
    rw [mem_filter, mem_image]
    constructor
    · rintro ⟨⟨b, q1, rfl⟩, _, q2⟩
      exact ⟨b, q1, fun hc => q2 (by rw [hc]), rfl⟩
    · rintro ⟨b, q1, q2, rfl⟩
      exact ⟨⟨b, q1, rfl⟩, (hin b q1).2, fun hc => q2 (hinj b q1 b0 t.carrier hc)⟩
  obtain ⟨bx, hbx, hbx0⟩ := hex
  obtain ⟨s1, s2, s3⟩ := C109_sfdr lib a (n * M) k V S amp b0 t [(φ, D)] (by simp) hl hV r h ⟨bx, (ho bx).mpr ⟨hbx, hbx0⟩⟩
  obtain ⟨s1', s2', s3'⟩ := C109_sfdr lib a' M k' V' (S.image f) amp' (f b0) t' [(φ', D)] (by simp) hl' hV' r' h' ⟨f bx, (ho' _).mpr ⟨bx, hbx, hbx0, rfl⟩⟩
  obtain ⟨b, hb, hb0, hbs⟩ := (ho' _).mp s1'
  have hmax : ∀ c ∈ S, c ≠ b0 → amp c ≤ amp b := by
    intro c hc hc0
    have := s2' (f c) ((ho' _).mpr ⟨c, hc, hc0, rfl⟩)
    rwa [← hbs, hamp c hc, hamp b hb] at this
  refine ⟨?_, ⟨b, hb, hb0, hmax, hbs.symm⟩, ?_⟩
  · obtain ⟨q1, q2⟩ := (ho _).mp s1
    have heq : amp' r'.spurBin = amp r.spurBin := by
      rw [← hbs, hamp b hb]
      exact le_antisymm (s2 b ((ho b).mpr ⟨hb, hb0⟩)) (hmax _ q1 q2)
    rw [s3, s3', heq, hamp b0 t.carrier]
  · intro hVV
    have c1 := (C109_carrier lib a (n * M) k V S amp b0 t [(φ, D)] (by simp) hl hV r h).2.2
    have c1' := (C109_carrier lib a' M k' V' (S.image f) amp' (f b0) t' [(φ', D)] (by simp) hl' hV' r' h').2.2
    have c2 := C109_sndr lib a (n * M) k V S amp b0 t [(φ, D)] (by simp) hl hV r h
    have c2' := C109_sndr lib a' M k' V' (S.image f) amp' (f b0) t' [(φ', D)] (by simp) hl' hV' r' h'
    have himg : others (S.image f) k' (f b0) = (others S k b0).image f := by
      ext c
      rw [ho', mem_image]
      constructor
      · rintro ⟨b, q1, q2, rfl⟩
        exact ⟨b, (ho b).mpr ⟨q1, q2⟩, rfl⟩
      · rintro ⟨b, q1, rfl⟩
        exact ⟨b, ((ho b).mp q1).1, ((ho b).mp q1).2, rfl⟩
    have hsum : ∑ c ∈ others (S.image f) k' (f b0), (amp' c / V') ^ 2 = ∑ b ∈ others S k b0, (amp b / V) ^ 2 := by
      rw [himg, sum_image fun b hb c hc => hinj b ((ho b).mp hb).1 c ((ho c).mp hc).1]
      apply sum_congr rfl
      intro b hb
      rw [hamp b ((ho b).mp hb).1, hVV]
    rw [c1, c1', c2, c2', hsum, hamp b0 t.carrier, hVV]
    exact ⟨rfl, rfl⟩

/-! ## Concrete cases -/

-- which samples are kept, and the predictor on exact numbers
example : subsample [0, 1, 2, 3, 4, 5, 6, 7, 8, 9] 3 = .ok [2, 5, 8] := by decide +kernel
example : subsample [0, 1, 2, 3, 4, 5, 6, 7, 8, 9] 0 = .error .valueError := by decide +kernel
example : aliasFreq (30 : ℚ) 40 = .ok 10 ∧ aliasFreq (45 : ℚ) 40 = .ok 5 ∧ aliasFreq (20 : ℚ) 40 = .ok 20 := by decide +kernel
example : aliasedFlag (30 : ℚ) 40 = .ok true ∧ aliasedFlag (20 : ℚ) 40 = .ok false := by decide +kernel

/-- Amplitudes of the examples: carrier 1 in bin 5, everything else a tenth. -/
private noncomputable def demoAmp (b : ℕ) : ℝ := if b = 5 then 1 else 1 / 10

private theorem demo_test (N n : ℕ) (S : Finset ℕ) (hin : rfftInbandBinCount (N : ℤ) (1 : ℝ) = .ok n) (hsep : Separated N 1 S) (hedge : ∀ b ∈ S, b + 1 < n) (h5 : 5 ∈ S) :
    ToneTest { scale := .scalar 2, sideBin := some 1 } N n 2 S demoAmp 5 where
  kaiser := (by decide : "hann" ≠ "kaiser")
  chebwin := (by decide : "hann" ≠ "chebwin")
  side := rfl
  average := rfl
  cutoff := rfl
  assumed := rfl
  inband := hin
  full := by norm_num
  sep := hsep
  edge := fun b hb => Or.inl (hedge b hb)
  carrier := h5
  carrier_in := by
    have := hedge 5 h5
    omega
  amp_pos := fun b _ => by
    unfold demoAmp
    split_ifs <;> norm_num
  strongest := fun b _ _ hb => by
    unfold demoAmp
    rw [if_neg hb, if_pos rfl]
    norm_num
  loud := by
    unfold demoAmp
    norm_num

private theorem test256 : ToneTest { scale := .scalar 2, sideBin := some 1 } 256 129 2 {5, 22, 74} demoAmp 5 :=
  demo_test 256 129 {5, 22, 74} (C25_osr_one (K := ℝ) 256 (by norm_num)) ⟨by decide, by decide, by decide⟩ (by decide) (by decide)

private theorem test64 : ToneTest { scale := .scalar 2, sideBin := some 1 } 64 33 2 {5, 10, 22} demoAmp 5 :=
  demo_test 64 33 {5, 10, 22} (C25_osr_one (K := ℝ) 64 (by norm_num)) ⟨by decide, by decide, by decide⟩ (by decide) (by decide)

private theorem test128 : ToneTest { scale := .scalar 2, sideBin := some 1 } 128 65 2 {5, 22, 42} demoAmp 5 :=
  demo_test 128 65 {5, 22, 42} (C25_osr_one (K := ℝ) 128 (by norm_num)) ⟨by decide, by decide, by decide⟩ (by decide) (by decide)

private theorem test64_one : ToneTest { scale := .scalar 2, sideBin := some 1 } 64 33 2 {5} demoAmp 5 :=
  demo_test 64 33 {5} (C25_osr_one (K := ℝ) 64 (by norm_num)) ⟨by decide, by decide, by decide⟩ (by decide) (by decide)

-- the tone in bin 74 of 256 moves to bin 10 of 64; SFDR and SNDR stay as they are
example (lib : WinLib) (φ : ℕ → ℝ) : ∃ y r r', subsample (tonesRow 256 {5, 22, 74} demoAmp φ 3) 4 = .ok y ∧
    computeSpectrum lib [tonesRow 256 {5, 22, 74} demoAmp φ 3] { scale := .scalar 2, sideBin := some 1 } = .ok r ∧
    computeSpectrum lib [y] { scale := .scalar 2, sideBin := some 1 } = .ok r' ∧ r'.sfdr = r.sfdr ∧ r'.sndr = r.sndr := by
  let f : ℕ → ℕ := fun b => if b = 74 then 10 else b
  have hf : ∀ b ∈ ({5, 22, 74} : Finset ℕ), FirstZoneAlias (b : ℝ) ((64 : ℕ) : ℝ) (f b : ℝ) := by
    intro b hb
    simp only [mem_insert, mem_singleton] at hb
    rcases hb with rfl | rfl | rfl
    · exact ⟨by positivity, by norm_num [f], 0, Or.inl (by norm_num [f])⟩
    · exact ⟨by positivity, by norm_num [f], 0, Or.inl (by norm_num [f])⟩
    · exact ⟨by positivity, by norm_num [f], 1, Or.inl (by norm_num [f])⟩
  have hinj : ∀ b ∈ ({5, 22, 74} : Finset ℕ), ∀ c ∈ ({5, 22, 74} : Finset ℕ), f b = f c → b = c := by decide
  have hamp : ∀ b ∈ ({5, 22, 74} : Finset ℕ), demoAmp (f b) = demoAmp b := by
    intro b hb
    simp only [mem_insert, mem_singleton] at hb
    unfold demoAmp
    rcases hb with rfl | rfl | rfl <;> norm_num [f]
  have himg : ({5, 22, 74} : Finset ℕ).image f = {5, 10, 22} := by decide
  obtain ⟨φ', e⟩ := C110_spur_heights 4 64 (by norm_num) (by norm_num) {5, 22, 74} demoAmp φ 3 f hf hinj demoAmp hamp
  obtain ⟨r, hr⟩ := C109_succeeds lib _ _ _ _ _ _ _ test256 [(φ, 3)] (by simp) (by simp) rfl (by norm_num) (by norm_num) (by norm_num)
  obtain ⟨r', hr'⟩ := C109_succeeds lib _ _ _ _ _ _ _ test64 [(φ', 3)] (by simp) (by simp) rfl (by norm_num) (by norm_num) (by norm_num)
  rw [himg] at e
  obtain ⟨q1, _, q3⟩ := C110_sfdr_conserved lib _ _ 4 64 _ _ (by norm_num) (by norm_num) _ _ {5, 22, 74} demoAmp demoAmp φ 3 5 f hf hinj hamp test256 (by rw [himg]; exact test64)
    (by decide) ⟨22, by decide, by decide⟩ _ _ rfl e rfl rfl r r' hr hr'
  exact ⟨_, r, r', e, hr, hr', q1, (q3 rfl).2⟩

/-- **C110 (colliding aliases).** The condition on the aliases cannot be dropped: two spurs of equal amplitude whose aliases fall in one bin can cancel. Before: SFDR 20 dB; after: infinite. -/
theorem C110_collision_refutes (lib : WinLib) : ∃ φ y r r', subsample (tonesRow 128 {5, 22, 42} demoAmp φ 0) 2 = .ok y ∧
    computeSpectrum lib [tonesRow 128 {5, 22, 42} demoAmp φ 0] { scale := .scalar 2, sideBin := some 1 } = .ok r ∧
    computeSpectrum lib [y] { scale := .scalar 2, sideBin := some 1 } = .ok r' ∧ r.sfdr = some ((20 : ℝ) : EReal) ∧ r'.sfdr = some ⊤ := by
  let φ : ℕ → ℝ := fun b => if b = 22 then -(2 * Real.pi * (22 / 128)) else Real.pi - 2 * Real.pi * (42 / 128)
  obtain ⟨ψ, hψ⟩ := tone_alias 2 64 5 5 (by norm_num) (by norm_num) (φ 5) ⟨by norm_num, by norm_num, 0, Or.inl (by norm_num)⟩
  have e : subsample (tonesRow 128 {5, 22, 42} demoAmp φ 0) 2 = .ok (tonesRow 64 {5} demoAmp (fun _ => ψ) 0) := by
    unfold subsample
    rw [if_neg (by norm_num), slice_eq _ 2 (by norm_num) 0, tonesRow_length]
    congr 1
    conv_rhs => unfold tonesRow
    apply List.map_congr_left
    intro j hj
    rw [List.mem_range] at hj
    rw [tonesRow_getD _ _ _ _ _ _ (by omega), sum_insert (by decide), sum_insert (by decide), sum_singleton, sum_singleton]
    have h5 : Real.cos (2 * Real.pi * (((5 : ℕ) : ℝ) * ((j + 1) * 2 - 1 : ℕ) / (128 : ℕ)) + φ 5) = Real.cos (2 * Real.pi * (((5 : ℕ) : ℝ) * j / (64 : ℕ)) + ψ) := hψ j
    have hidx : (((j + 1) * 2 - 1 : ℕ) : ℝ) = 2 * j + 1 := by
      rw [show (j + 1) * 2 - 1 = 2 * j + 1 by omega]
      push_cast
      ring
    have h22 : Real.cos (2 * Real.pi * (((22 : ℕ) : ℝ) * ((j + 1) * 2 - 1 : ℕ) / (128 : ℕ)) + φ 22) = Real.cos (2 * Real.pi * (22 * j / 64)) := by
      rw [hidx]
      congr 1
      simp only [φ, if_true]
      push_cast
      ring
    have h42 : Real.cos (2 * Real.pi * (((42 : ℕ) : ℝ) * ((j + 1) * 2 - 1 : ℕ) / (128 : ℕ)) + φ 42) = -Real.cos (2 * Real.pi * (22 * j / 64)) := by
      rw [hidx, show 2 * Real.pi * (((42 : ℕ) : ℝ) * (2 * j + 1) / (128 : ℕ)) + φ 42 = (Real.pi - 2 * Real.pi * (22 * j / 64)) + (j : ℕ) * (2 * Real.pi) by
        simp only [φ]
        rw [if_neg (by norm_num)]
        push_cast
        ring, Real.cos_add_nat_mul_two_pi, Real.cos_pi_sub]
    have a22 : demoAmp 22 = 1 / 10 := if_neg (by norm_num)
    have a42 : demoAmp 42 = 1 / 10 := if_neg (by norm_num)
    rw [h5, h22, h42, a22, a42]
    ring
  obtain ⟨r, hr⟩ := C109_succeeds lib _ _ _ _ _ _ _ test128 [(φ, 0)] (by simp) (by simp) rfl (by norm_num) (by norm_num) (by norm_num)
  obtain ⟨r', hr'⟩ := C109_succeeds lib _ _ _ _ _ _ _ test64_one [(fun _ => ψ, 0)] (by simp) (by simp) rfl (by norm_num) (by norm_num) (by norm_num)
  have ho : others {5, 22, 42} 65 5 = {22, 42} := by decide
  obtain ⟨s1, _, s3⟩ := C109_sfdr lib _ _ _ _ _ _ _ test128 [(φ, 0)] (by simp) (by simp) rfl r hr (by rw [ho]; decide)
  refine ⟨φ, _, r, r', e, hr, hr', ?_, C109_sfdr_pure lib _ _ _ _ _ _ _ test64_one _ (by simp) (by simp) rfl r' hr' (by decide)⟩
  have hne : r.spurBin ≠ 5 := by
    intro hc
    rw [hc, ho] at s1
    revert s1
    decide
  rw [s3]
  unfold demoAmp
  rw [if_pos rfl, if_neg hne, show (1 : ℝ) / (1 / 10) = 10 by norm_num, Real.logb_self_eq_one (by norm_num), mul_one]

end Verif
