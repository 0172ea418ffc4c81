import Verif.Model.TestBench
import Verif.Theorems.Distortion
import Verif.Theorems.Frequency
import Verif.Theorems.MultiTone

/-!
# C111: the distortion dialled into the generator is the distortion the spectrum reports
-/

namespace Verif

open Model Finset Spec

namespace Spec

/-- The orders that are present. -/
noncomputable def present (H : ℕ → ℝ) : Finset ℕ := (Icc 1 5).filter fun k => H k ≠ 0

/-- Amplitude in bin `b` when order `k` sits in bin `f k`. -/
noncomputable def binAmp (H : ℕ → ℝ) (f : ℕ → ℕ) (b : ℕ) : ℝ := ∑ k ∈ (present H).filter (fun k => f k = b), H k

/-- A fundamental in FFT bin `J` (possibly beyond Nyquist) with harmonics up to order 5 of amplitudes `H`, and an analysis that can tell them apart: `f k` is the bin in which
order `k` appears. -/
structure Readable (a : SpectrumArgs) (N n : ℕ) (V : ℝ) (J : ℕ) (H : ℕ → ℝ) (f : ℕ → ℕ) : Prop where
  bins : ∀ k ∈ Icc (1 : ℕ) 5, FirstZoneAlias ((J : ℝ) * k) (N : ℝ) (f k : ℝ)
  inj : ∀ k ∈ present H, ∀ l ∈ present H, f k = f l → k = l
  one : 1 ∈ present H
  test : ToneTest a N n V ((present H).image f) (binAmp H f) (f 1)

/-- Amplitudes of the orders 1 to 5 of `x + k2·x² + k3·x³ + k4·x⁴ + k5·x⁵` for `x` a sine of amplitude `A`. -/
noncomputable def polyAmp (A k2 k3 k4 k5 : ℝ) (k : ℕ) : ℝ :=
  if k = 1 then |A + 3 / 4 * k3 * A ^ 3 + 5 / 8 * k5 * A ^ 5| else if k = 2 then |k2 * A ^ 2 / 2 + k4 * A ^ 4 / 2| else if k = 3 then |k3 * A ^ 3 / 4 + 5 / 16 * k5 * A ^ 5|
  else if k = 4 then |k4 * A ^ 4 / 8| else |k5 * A ^ 5 / 16|

/-- Amplitudes of the orders when the levels `r2` to `r5` (as amplitude ratios) are requested: the powers of the sine mix. -/
def levelAmp (A r2 r3 r4 r5 : ℝ) (k : ℕ) : ℝ :=
  A * (if k = 1 then 1 + 3 * r3 + 10 * r5 else if k = 2 then r2 + 4 * r4 else if k = 3 then r3 + 5 * r5 else if k = 4 then r4 else r5)

/-- `N` samples of a record. -/
def recordOf (N : ℕ) (y : ℕ → ℝ) : List ℝ := (List.range N).map y

end Spec

private theorem polar (p q : ℝ) : ∃ ψ, ∀ x, p * Real.cos x + q * Real.sin x = Real.sqrt (p ^ 2 + q ^ 2) * Real.cos (x + ψ) := by
  refine ⟨-(Complex.arg ⟨p, q⟩), fun x => ?_⟩
  have hn : ‖(⟨p, q⟩ : ℂ)‖ = Real.sqrt (p ^ 2 + q ^ 2) := by
    rw [Complex.norm_def, Complex.normSq_mk]
    congr 1
    ring
  have h1 : Real.sqrt (p ^ 2 + q ^ 2) * Real.cos (Complex.arg ⟨p, q⟩) = p := by
    rw [← hn]
    exact Complex.norm_mul_cos_arg ⟨p, q⟩
  have h2 : Real.sqrt (p ^ 2 + q ^ 2) * Real.sin (Complex.arg ⟨p, q⟩) = q := by
    rw [← hn]
    exact Complex.norm_mul_sin_arg ⟨p, q⟩
  rw [← sub_eq_add_neg, Real.cos_sub]
  calc p * Real.cos x + q * Real.sin x = (Real.sqrt (p ^ 2 + q ^ 2) * Real.cos (Complex.arg ⟨p, q⟩)) * Real.cos x + (Real.sqrt (p ^ 2 + q ^ 2) * Real.sin (Complex.arg ⟨p, q⟩)) * Real.sin x := by rw [h1, h2]
    _ = _ := by ring

/-- A harmonic of a coherent fundamental is a cosine in its alias bin. -/
private theorem order_alias (N J k c : ℕ) (hN : 0 < N) (p q : ℝ) (h : FirstZoneAlias ((J : ℝ) * k) (N : ℝ) (c : ℝ)) :
    ∃ φ, ∀ i : ℕ, p * Real.cos (k * (2 * Real.pi * (J * i / N))) + q * Real.sin (k * (2 * Real.pi * (J * i / N)))
      = Real.sqrt (p ^ 2 + q ^ 2) * Real.cos (2 * Real.pi * ((c : ℝ) * i / N) + φ) := by
  obtain ⟨ψ, hψ⟩ := polar p q
  have hNR : (N : ℝ) ≠ 0 := by exact_mod_cast hN.ne'
  obtain ⟨_, _, z, hz⟩ := h
  rcases hz with hz | hz
  · refine ⟨ψ, fun i => ?_⟩
    rw [hψ, show (k : ℝ) * (2 * Real.pi * (J * i / N)) + ψ = 2 * Real.pi * ((c : ℝ) * i / N) + ψ + ((z * i : ℤ) : ℝ) * (2 * Real.pi) by
      push_cast
      have : (k : ℝ) * (J * i / N) = c * i / N + z * i := by
        rw [show (k : ℝ) * (J * i / N) = (J * k) * i / N by ring, hz]
        field_simp
        try ring
      linear_combination (2 * Real.pi) * this, Real.cos_add_int_mul_two_pi]
  · refine ⟨-ψ, fun i => ?_⟩
    rw [hψ, ← Real.cos_neg, show -((k : ℝ) * (2 * Real.pi * (J * i / N)) + ψ) = 2 * Real.pi * ((c : ℝ) * i / N) + -ψ - ((z * i : ℤ) : ℝ) * (2 * Real.pi) by
      push_cast
      have : (k : ℝ) * (J * i / N) = -(c * i / N) + z * i := by
        rw [show (k : ℝ) * (J * i / N) = (J * k) * i / N by ring, hz]
        field_simp
        try ring
      linear_combination (-(2 * Real.pi)) * this, Real.cos_sub_int_mul_two_pi]

private theorem binAmp_eq (H : ℕ → ℝ) (f : ℕ → ℕ) (hinj : ∀ k ∈ present H, ∀ l ∈ present H, f k = f l → k = l) (k : ℕ) (hk : k ∈ present H) : binAmp H f (f k) = H k := by
  unfold binAmp
  have : (present H).filter (fun l => f l = f k) = {k} := by
    ext l
    rw [mem_filter, mem_singleton]
    constructor
    · rintro ⟨h1, h2⟩
      exact hinj l h1 k hk h2
    · rintro rfl
      exact ⟨hk, rfl⟩
  rw [this, sum_singleton]

/-- A record of harmonics of a coherent fundamental is a multi-tone record. -/
private theorem record_tones (N J : ℕ) (hN : 0 < N) (H : ℕ → ℝ) (f : ℕ → ℕ) (hal : ∀ k ∈ Icc (1 : ℕ) 5, FirstZoneAlias ((J : ℝ) * k) (N : ℝ) (f k : ℝ))
    (hinj : ∀ k ∈ present H, ∀ l ∈ present H, f k = f l → k = l) (y θ : ℕ → ℝ) (D : ℝ) (p q : ℕ → ℝ) (hy : HasHarmonics y θ D p q)
    (hθ : ∀ i : ℕ, θ i = 2 * Real.pi * (J * i / N)) (hH : ∀ k ∈ Icc 1 5, harmonicAmp p q k = H k) :
    ∃ φ D', recordOf N y = tonesRow N ((present H).image f) (binAmp H f) φ D' := by
  have hφ : ∀ k : ℕ, ∃ φ, k ∈ Icc 1 5 → ∀ i : ℕ, p k * Real.cos (k * (2 * Real.pi * (J * i / N))) + q k * Real.sin (k * (2 * Real.pi * (J * i / N)))
      = harmonicAmp p q k * Real.cos (2 * Real.pi * ((f k : ℝ) * i / N) + φ) := by
    intro k
    by_cases hk : k ∈ Icc 1 5
    · obtain ⟨φ, h⟩ := order_alias N J k (f k) hN (p k) (q k) (hal k hk)
      exact ⟨φ, fun _ => h⟩
    · exact ⟨0, fun h => absurd h hk⟩
  choose φ hφ using hφ
  have hinv : ∃ g : ℕ → ℕ, ∀ b ∈ present H, g (f b) = b := by
    classical
    refine ⟨fun c => if h : ∃ b ∈ present H, f b = c then h.choose else 0, fun b hb => ?_⟩
    have hex : ∃ b' ∈ present H, f b' = f b := ⟨b, hb, rfl⟩
    beta_reduce
    rw [dif_pos hex]
    exact hinj _ hex.choose_spec.1 b hb hex.choose_spec.2
  obtain ⟨g, hg⟩ := hinv
  refine ⟨fun c => φ (g c), D + p 0, ?_⟩
  unfold recordOf tonesRow
  apply List.map_congr_left
  intro i _
  rw [hy i, sum_image fun b hb c hc => hinj b hb c hc, hθ]
  have h0 : (∑ k ∈ range 6, (p k * Real.cos (k * (2 * Real.pi * (J * i / N))) + q k * Real.sin (k * (2 * Real.pi * (J * i / N)))))
      = p 0 + ∑ k ∈ Icc 1 5, (p k * Real.cos (k * (2 * Real.pi * (J * i / N))) + q k * Real.sin (k * (2 * Real.pi * (J * i / N)))) := by
    rw [show range 6 = insert 0 (Icc 1 5) by decide, sum_insert (by decide)]
    simp
  rw [h0, show (∑ k ∈ Icc 1 5, (p k * Real.cos (k * (2 * Real.pi * (J * i / N))) + q k * Real.sin (k * (2 * Real.pi * (J * i / N)))))
      = ∑ k ∈ present H, binAmp H f (f k) * Real.cos (2 * Real.pi * ((f k : ℝ) * i / N) + φ (g (f k))) from ?_]
  · ring
  · unfold present
    rw [sum_filter]
    apply sum_congr rfl
    intro k hk
    rw [hφ k hk i, hH k hk]
    by_cases hz : H k = 0
    · rw [if_neg (by simpa using hz), hz, zero_mul]
    · have hp : k ∈ present H := mem_filter.mpr ⟨hk, hz⟩
      rw [if_pos hz, binAmp_eq H f hinj k hp, hg k hp]

/-- **C111 (reading a distorted sine).** If a record consists of a coherent sine and harmonics of amplitudes `H k`, and the analysis can tell them apart, then: the carrier reads
`H 1`; every harmonic that is present reads `20·log10(H k / H 1)` (limited below by the `1e-15` power floor); SNDR is the power of order 1 over the summed powers of the other
in-band orders; SFDR is the distance to the strongest in-band order. -/
theorem C111_readout (lib : WinLib) (a : SpectrumArgs) (N n : ℕ) (V : ℝ) (J : ℕ) (H : ℕ → ℝ) (f : ℕ → ℕ) (t : Readable a N n V J H f) (y θ : ℕ → ℝ) (D : ℝ) (p q : ℕ → ℝ)
    (hy : HasHarmonics y θ D p q) (hθ : ∀ i : ℕ, θ i = 2 * Real.pi * (J * i / N)) (hH : ∀ k ∈ Icc 1 5, harmonicAmp p q k = H k)
    (hV : peakAmplitude [recordOf N y] a.scale = .ok V) (r : SpectrumResult) (h : computeSpectrum lib [recordOf N y] a = .ok r) :
    r.fundamentalBin = f 1 ∧ r.sigPwr = 20 * Real.logb 10 (H 1 / V) ∧
    (∃ hl : List EReal, r.harmonics = some hl ∧ hl.length = a.maxHarmonic - 1 ∧ ∀ k, 2 ≤ k → k ≤ a.maxHarmonic → k ∈ present H →
      hl.getD (k - 2) 0 = ((level (max ((H k / V) ^ 2) (1 / 10 ^ 15)) - level ((H 1 / V) ^ 2) : ℝ) : EReal) ∧
      (1 / 10 ^ 15 ≤ (H k / V) ^ 2 → hl.getD (k - 2) 0 = ((20 * Real.logb 10 (H k / H 1) : ℝ) : EReal))) ∧
    r.sndr = ((level ((H 1 / V) ^ 2) - level ((∑ k ∈ (present H).filter (fun k => k ≠ 1 ∧ f k < n), (H k / V) ^ 2) + 1 / 10 ^ 20) : ℝ) : EReal) ∧
    ((∀ k ∈ present H, k ≠ 1 → n ≤ f k) → r.sfdr = some ⊤) ∧
    (∀ s ∈ present H, s ≠ 1 → f s < n → (∀ k ∈ present H, k ≠ 1 → f k < n → H k ≤ H s) → r.sfdr = some ((20 * Real.logb 10 (H 1 / H s) : ℝ) : EReal)) := by
  have hN : 0 < N := by
    have := t.test.sep.nyquist _ t.test.carrier
    omega
  obtain ⟨φ, D', e⟩ := record_tones N J hN H f t.bins t.inj y θ D p q hy hθ hH
  have e' : [recordOf N y] = tonesData N ((present H).image f) (binAmp H f) [(φ, D')] := by
    rw [e]
    rfl
  rw [e'] at hV h
  have hl : [((φ, D') : (ℕ → ℝ) × ℝ)].length ≤ 2 * N := by
    rw [List.length_singleton]
    omega
  have a1 : binAmp H f (f 1) = H 1 := binAmp_eq H f t.inj 1 t.one
  obtain ⟨c1, _, c3⟩ := C109_carrier lib a N n V _ _ _ t.test _ (by simp) hl hV r h
  have c4 := C109_sndr lib a N n V _ _ _ t.test _ (by simp) hl hV r h
  obtain ⟨g1, g2⟩ := C109_harmonic_bins lib a N n V _ _ _ t.test _ (by simp) hl hV r h
  obtain ⟨hs, d1, d2, d3⟩ := C109_harmonics lib a N n V _ _ _ t.test _ (by simp) hl hV r h
  have ho : others ((present H).image f) n (f 1) = ((present H).filter fun k => k ≠ 1 ∧ f k < n).image f := by
    ext c
    unfold others
    rw [mem_filter, mem_image, mem_image]
    constructor
    · rintro ⟨⟨k, q1, rfl⟩, q2, q3⟩
      exact ⟨k, mem_filter.mpr ⟨q1, fun hc => q3 (by rw [hc]), q2⟩, rfl⟩
    · rintro ⟨k, q1, rfl⟩
      obtain ⟨q2, q3, q4⟩ := mem_filter.mp q1
      exact ⟨⟨k, q2, rfl⟩, q4, fun hc => q3 (t.inj k q2 1 t.one hc)⟩
  refine ⟨c1, by rw [c3, a1], ⟨hs, d1, by rw [d2, g1], fun k hk2 hkm hkp => ?_⟩, ?_, fun hall => ?_, fun s hs1 hs2 hs3 hs4 => ?_⟩
  · have hi : k - 2 < r.harmonicBins.length := by
      rw [g1]
      omega
    obtain ⟨g3, g4⟩ := g2 (k - 2) hi
    rw [show k - 2 + 2 = k by omega] at g4
    have hfk : FirstZoneAlias ((f 1 : ℝ) * k) (N : ℝ) (f k : ℝ) := by
      obtain ⟨u0, u1, z, hz⟩ := t.bins k (mem_filter.mp hkp).1
      obtain ⟨_, _, w, hw⟩ := t.bins 1 (by decide)
      rw [Nat.cast_one, mul_one] at hw
      refine ⟨u0, u1, ?_⟩
      rcases hw with hw | hw <;> rcases hz with hz | hz
      · refine ⟨z - w * k, Or.inl ?_⟩
        push_cast
        linear_combination hz - (k : ℝ) * hw
      · refine ⟨z - w * k, Or.inr ?_⟩
        push_cast
        linear_combination hz - (k : ℝ) * hw
      · refine ⟨w * k - z, Or.inr ?_⟩
        push_cast
        linear_combination (k : ℝ) * hw - hz
      · refine ⟨w * k - z, Or.inl ?_⟩
        push_cast
        linear_combination (k : ℝ) * hw - hz
    have hNR : (0 : ℝ) < N := by exact_mod_cast hN
    have hbin : r.harmonicBins.getD (k - 2) 0 = (f k : ℤ) := by
      have := (C04_fold_unique _ _ _ hNR g4).trans (C04_fold_unique _ _ _ hNR hfk).symm
      exact_mod_cast this
    have hne : f k ≠ f 1 := fun hc => by
      have := t.inj k hkp 1 t.one hc
      omega
    have := (d3 (k - 2) hi).1 (f k) (mem_image_of_mem f hkp) hne hbin
    rwa [a1, binAmp_eq H f t.inj k hkp] at this
  · rw [c4, a1, ho, sum_image fun b hb c hc => t.inj b (mem_filter.mp hb).1 c (mem_filter.mp hc).1]
    congr 4
    apply sum_congr rfl
    intro k hk
    rw [binAmp_eq H f t.inj k (mem_filter.mp hk).1]
  · apply C109_sfdr_pure lib a N n V _ _ _ t.test _ (by simp) hl hV r h
    rw [ho, image_eq_empty, filter_eq_empty_iff]
    rintro k hk ⟨hk1, hk2⟩
    have := hall k hk hk1
    omega
  · obtain ⟨s1, s2, s3⟩ := C109_sfdr lib a N n V _ _ _ t.test _ (by simp) hl hV r h (by
      rw [ho]
      exact ⟨f s, mem_image_of_mem f (mem_filter.mpr ⟨hs1, hs2, hs3⟩)⟩)
    rw [ho, mem_image] at s1
    obtain ⟨k, hk, hks⟩ := s1
    obtain ⟨k1, k2, k3⟩ := mem_filter.mp hk
    have h1 := s2 (f s) (by rw [ho]; exact mem_image_of_mem f (mem_filter.mpr ⟨hs1, hs2, hs3⟩))
    rw [← hks, binAmp_eq H f t.inj s hs1, binAmp_eq H f t.inj k k1] at h1
    rw [s3, ← hks, a1, binAmp_eq H f t.inj k k1, le_antisymm (hs4 k k1 k2 k3) h1]

/-- **C111 (THD of a distorted sine).** If moreover the orders up to `max_harmonic` that are absent alias clear of the ones that are present, THD is the summed power of the
orders 2 to `max_harmonic` over the power of order 1. -/
theorem C111_thd (lib : WinLib) (a : SpectrumArgs) (N n : ℕ) (V : ℝ) (J : ℕ) (H : ℕ → ℝ) (f : ℕ → ℕ) (t : Readable a N n V J H f) (y θ : ℕ → ℝ) (D : ℝ) (p q : ℕ → ℝ)
    (hy : HasHarmonics y θ D p q) (hθ : ∀ i : ℕ, θ i = 2 * Real.pi * (J * i / N)) (hH : ∀ k ∈ Icc 1 5, harmonicAmp p q k = H k)
    (hV : peakAmplitude [recordOf N y] a.scale = .ok V) (r : SpectrumResult) (h : computeSpectrum lib [recordOf N y] a = .ok r)
    (hclean : ∀ k c : ℕ, 2 ≤ k → k ≤ a.maxHarmonic → k ∉ present H → FirstZoneAlias ((J : ℝ) * k) (N : ℝ) (c : ℝ) →
      ∀ l ∈ present H, 2 * ((defaultSideBin a.win : ℕ) : ℤ) < |(c : ℤ) - (f l : ℤ)|) :
    r.thd = some ((level (max (∑ k ∈ (present H).filter (fun k => 2 ≤ k ∧ k ≤ a.maxHarmonic), (H k / V) ^ 2) (1 / 10 ^ 15)) - level ((H 1 / V) ^ 2) : ℝ) : EReal) := by
  have hN : 0 < N := by
    have := t.test.sep.nyquist _ t.test.carrier
    omega
  have hNR : (0 : ℝ) < N := by exact_mod_cast hN
  obtain ⟨φ, D', e⟩ := record_tones N J hN H f t.bins t.inj y θ D p q hy hθ hH
  have e' : [recordOf N y] = tonesData N ((present H).image f) (binAmp H f) [(φ, D')] := by
    rw [e]
    rfl
  rw [e'] at hV h
  have hl : [((φ, D') : (ℕ → ℝ) × ℝ)].length ≤ 2 * N := by
    rw [List.length_singleton]
    omega
  have a1 : binAmp H f (f 1) = H 1 := binAmp_eq H f t.inj 1 t.one
  obtain ⟨g1, g2⟩ := C109_harmonic_bins lib a N n V _ _ _ t.test _ (by simp) hl hV r h
  -- every harmonic bin is the alias of its order
  have hal : ∀ k, 2 ≤ k → k ≤ a.maxHarmonic → 0 ≤ r.harmonicBins.getD (k - 2) 0 ∧ FirstZoneAlias ((J : ℝ) * k) (N : ℝ) ((r.harmonicBins.getD (k - 2) 0 : ℤ) : ℝ) := by
    intro k h2 hm
    obtain ⟨g3, u0, u1, z, hz⟩ := g2 (k - 2) (by rw [g1]; omega)
    rw [show k - 2 + 2 = k by omega] at hz
    obtain ⟨_, _, w, hw⟩ := t.bins 1 (by decide)
    rw [Nat.cast_one, mul_one] at hw
    refine ⟨g3, u0, u1, ?_⟩
    rcases hw with hw | hw <;> rcases hz with hz | hz
    · refine ⟨z + w * k, Or.inl ?_⟩
      push_cast
      linear_combination hz + (k : ℝ) * hw
    · refine ⟨z + w * k, Or.inr ?_⟩
      push_cast
      linear_combination hz + (k : ℝ) * hw
    · refine ⟨w * k - z, Or.inr ?_⟩
      push_cast
      linear_combination (k : ℝ) * hw - hz
    · refine ⟨w * k - z, Or.inl ?_⟩
      push_cast
      linear_combination (k : ℝ) * hw - hz
  have hpres : ∀ k, 2 ≤ k → k ≤ a.maxHarmonic → k ∈ present H → r.harmonicBins.getD (k - 2) 0 = (f k : ℤ) := by
    intro k h2 hm hp
    have := (C04_fold_unique _ _ _ hNR (hal k h2 hm).2).trans (C04_fold_unique _ _ _ hNR (t.bins k (mem_filter.mp hp).1)).symm
    exact_mod_cast this
  have hmem : ∀ z ∈ r.harmonicBins, ∃ k, 2 ≤ k ∧ k ≤ a.maxHarmonic ∧ r.harmonicBins.getD (k - 2) 0 = z := by
    intro z hz
    obtain ⟨i, hi, hiz⟩ := List.getElem_of_mem hz
    refine ⟨i + 2, by omega, by rw [g1] at hi; omega, ?_⟩
    rw [Nat.add_sub_cancel, List.getD_eq_getElem _ _ hi, hiz]
  have hc : CleanHarmonics ((present H).image f) (defaultSideBin a.win) r.harmonicBins := by
    intro z hz
    obtain ⟨k, h2, hm, hk⟩ := hmem z hz
    by_cases hp : k ∈ present H
    · exact Or.inl ⟨f k, mem_image_of_mem f hp, by rw [← hk, hpres k h2 hm hp]⟩
    · right
      intro b hb
      obtain ⟨l, hl1, rfl⟩ := mem_image.mp hb
      obtain ⟨q1, q2⟩ := hal k h2 hm
      obtain ⟨c, hc⟩ := Int.eq_ofNat_of_zero_le q1
      rw [hk] at hc q2
      rw [hc]
      refine hclean k c h2 hm hp ?_ l hl1
      rw [hc, Int.cast_natCast] at q2
      exact q2
  rw [C109_thd lib a N n V _ _ _ t.test _ (by simp) hl hV r h hc, a1]
  have hset : ((present H).image f).filter (fun b : ℕ => b ≠ f 1 ∧ (b : ℤ) ∈ r.harmonicBins) = ((present H).filter fun k => 2 ≤ k ∧ k ≤ a.maxHarmonic).image f := by
    ext c
    rw [mem_filter, mem_image, mem_image]
    constructor
    · rintro ⟨⟨k, q1, rfl⟩, q2, q3⟩
      obtain ⟨l, l2, lm, hlz⟩ := hmem _ q3
      by_cases hp : l ∈ present H
      · rw [hpres l l2 lm hp] at hlz
        exact ⟨l, mem_filter.mpr ⟨hp, l2, lm⟩, by exact_mod_cast hlz⟩
      · exfalso
        obtain ⟨_, q5⟩ := hal l l2 lm
        rw [hlz, Int.cast_natCast] at q5
        have := hclean l (f k) l2 lm hp q5 k q1
        rw [sub_self, abs_zero] at this
        omega
    · rintro ⟨k, q1, rfl⟩
      obtain ⟨q2, q3, q4⟩ := mem_filter.mp q1
      refine ⟨⟨k, q2, rfl⟩, fun hc => ?_, ?_⟩
      · have := t.inj k q2 1 t.one hc
        omega
      · rw [← hpres k q3 q4 q2]
        have hi : k - 2 < r.harmonicBins.length := by
          rw [g1]
          omega
        rw [List.getD_eq_getElem _ _ hi]
        exact List.getElem_mem hi
  rw [hset, sum_image fun b hb c hc => t.inj b (mem_filter.mp hb).1 c (mem_filter.mp hc).1]
  congr 5
  apply sum_congr rfl
  intro k hk
  rw [binAmp_eq H f t.inj k (mem_filter.mp hk).1]

/-- **C111 (the analysis succeeds).** On such a record `compute_spectrum` returns for every `max_harmonic ≥ 1` and every noise method `0..4`. -/
theorem C111_succeeds (lib : WinLib) (a : SpectrumArgs) (N n : ℕ) (V : ℝ) (J : ℕ) (H : ℕ → ℝ) (f : ℕ → ℕ) (t : Readable a N n V J H f) (y θ : ℕ → ℝ) (D : ℝ) (p q : ℕ → ℝ)
    (hy : HasHarmonics y θ D p q) (hθ : ∀ i : ℕ, θ i = 2 * Real.pi * (J * i / N)) (hH : ∀ k ∈ Icc 1 5, harmonicAmp p q k = H k)
    (hV : peakAmplitude [recordOf N y] a.scale = .ok V) (hm : 1 ≤ a.maxHarmonic) (h0 : 0 ≤ a.nfMethod) (h4 : a.nfMethod ≤ 4) :
    ∃ r, computeSpectrum lib [recordOf N y] a = .ok r := by
  have hN : 0 < N := by
    have := t.test.sep.nyquist _ t.test.carrier
    omega
  obtain ⟨φ, D', e⟩ := record_tones N J hN H f t.bins t.inj y θ D p q hy hθ hH
  have e' : [recordOf N y] = tonesData N ((present H).image f) (binAmp H f) [(φ, D')] := by
    rw [e]
    rfl
  rw [e'] at hV ⊢
  exact C109_succeeds lib a N n V _ _ _ t.test _ (by simp) (by rw [List.length_singleton]; omega) hV hm h0 h4

/-! ## The generator's static nonlinearity -/

/-- **C111 (amplitudes of a polynomial).** The generator's sine through `apply_static_nonlinearity` consists of the orders 1 to 5 with the amplitudes `polyAmp`. -/
theorem C111_polynomial (g : Gen) (k2 k3 k4 k5 : ℝ) : ∃ p q, HasHarmonics (g.staticNonlin none k2 k3 k4 k5) (genPhase g) g.dc p q ∧
    ∀ k ∈ Icc 1 5, harmonicAmp p q k = polyAmp g.a k2 k3 k4 k5 k := by
  refine ⟨fun k => if k = 0 then k2 * g.a ^ 2 / 2 + 3 / 8 * k4 * g.a ^ 4 else if k = 2 then -(k2 * g.a ^ 2 / 2 + k4 * g.a ^ 4 / 2) else if k = 4 then k4 * g.a ^ 4 / 8 else 0,
    fun k => if k = 1 then g.a + 3 / 4 * k3 * g.a ^ 3 + 5 / 8 * k5 * g.a ^ 5 else if k = 3 then -(k3 * g.a ^ 3 / 4 + 5 / 16 * k5 * g.a ^ 5)
      else if k = 5 then k5 * g.a ^ 5 / 16 else 0, ?_, ?_⟩
  · intro i
    rw [nonlin_eq]
    have hb : g.resolve none i - g.dc = g.a * Real.sin (genPhase g i) := by
      unfold Gen.resolve Gen.base genPhase Gen.t
      ring
    rw [hb]
    set θ := genPhase g i
    have h : Real.cos θ ^ 2 = 1 - Real.sin θ ^ 2 := by linarith [Real.sin_sq_add_cos_sq θ]
    have h4 : Real.cos θ ^ 4 = (1 - Real.sin θ ^ 2) ^ 2 := by rw [← h]; ring
    simp only [Finset.sum_range_succ, Finset.sum_range_zero]
    norm_num
    rw [Real.cos_two_mul, Real.sin_three_mul, cos_four, sin_five, h4, h]
    ring
  · intro k hk
    rw [mem_Icc] at hk
    obtain ⟨h1, h5⟩ := hk
    have hs : ∀ z : ℝ, Real.sqrt (z ^ 2) = |z| := fun z => Real.sqrt_sq_eq_abs z
    unfold harmonicAmp polyAmp
    interval_cases k <;> norm_num <;> rw [hs] <;> rw [← neg_add_rev, abs_neg]

/-- The phase of a coherent generator. -/
private theorem coherent_phase (g : Gen) (J : ℕ) (hcoh : g.fin / g.fs = J / g.n) (i : ℕ) : genPhase g i = 2 * Real.pi * (J * i / g.n) := by
  unfold genPhase
  rw [show 2 * Real.pi * g.fin * (i / g.fs) = 2 * Real.pi * (g.fin / g.fs * i) by ring, hcoh]
  ring

/-- **C111 (static nonlinearity).** The generator's coherent sine through `apply_static_nonlinearity`, analysed by `compute_spectrum`: every reported harmonic is the one of the
polynomial, `20·log10` of the ratio of the amplitudes. -/
theorem C111_static_nonlinearity (lib : WinLib) (a : SpectrumArgs) (g : Gen) (n : ℕ) (V : ℝ) (J : ℕ) (f : ℕ → ℕ) (k2 k3 k4 k5 : ℝ) (hcoh : g.fin / g.fs = J / g.n)
    (t : Readable a g.n n V J (polyAmp g.a k2 k3 k4 k5) f) (hV : peakAmplitude [recordOf g.n (g.staticNonlin none k2 k3 k4 k5)] a.scale = .ok V) (r : SpectrumResult)
    (h : computeSpectrum lib [recordOf g.n (g.staticNonlin none k2 k3 k4 k5)] a = .ok r) :
    r.sigPwr = 20 * Real.logb 10 (polyAmp g.a k2 k3 k4 k5 1 / V) ∧ ∃ hl : List EReal, r.harmonics = some hl ∧ hl.length = a.maxHarmonic - 1 ∧
      ∀ k, 2 ≤ k → k ≤ 5 → k ≤ a.maxHarmonic → polyAmp g.a k2 k3 k4 k5 k ≠ 0 → 1 / 10 ^ 15 ≤ (polyAmp g.a k2 k3 k4 k5 k / V) ^ 2 →
        hl.getD (k - 2) 0 = ((20 * Real.logb 10 (polyAmp g.a k2 k3 k4 k5 k / polyAmp g.a k2 k3 k4 k5 1) : ℝ) : EReal) := by
  obtain ⟨p, q, hy, hH⟩ := C111_polynomial g k2 k3 k4 k5
  obtain ⟨_, c2, ⟨hl, d1, d2, d3⟩, _⟩ := C111_readout lib a g.n n V J _ f t _ _ g.dc p q hy (coherent_phase g J hcoh) hH hV r h
  exact ⟨c2, hl, d1, d2, fun k h2 h5 hm hne hfl => (d3 k h2 hm (mem_filter.mpr ⟨mem_Icc.mpr ⟨by omega, h5⟩, hne⟩)).2 hfl⟩

private theorem ratio_nonneg (db : Option ℝ) : 0 ≤ levelRatio db := by
  cases db with
  | none => exact le_refl _
  | some v => unfold levelRatio; positivity

private theorem poly_level (A r2 r3 r4 r5 : ℝ) (hA : 0 < A) (h2 : 0 ≤ r2) (h3 : 0 ≤ r3) (h4 : 0 ≤ r4) (h5 : 0 ≤ r5) (k : ℕ) (hk : k ∈ Icc 1 5) :
    polyAmp A (2 ^ (2 - 1) * r2 / A ^ (2 - 1)) (2 ^ (3 - 1) * r3 / A ^ (3 - 1)) (2 ^ (4 - 1) * r4 / A ^ (4 - 1)) (2 ^ (5 - 1) * r5 / A ^ (5 - 1)) k = levelAmp A r2 r3 r4 r5 k := by
  rw [mem_Icc] at hk
  obtain ⟨g1, g5⟩ := hk
  have habs : ∀ x y : ℝ, 0 ≤ y → x = y → |x| = y := fun x y hy hxy => by rw [hxy, abs_of_nonneg hy]
  unfold polyAmp levelAmp
  interval_cases k <;> norm_num <;> refine habs _ _ (by positivity) ?_ <;> field_simp <;> ring

private theorem levels_bundle (lib : WinLib) (a : SpectrumArgs) (g : Gen) (n : ℕ) (V : ℝ) (J : ℕ) (f : ℕ → ℕ) (hd2 hd3 hd4 hd5 : Option ℝ) (ha : 0 < g.a)
    (hcoh : g.fin / g.fs = J / g.n) (H : ℕ → ℝ) (hHd : H = levelAmp g.a (levelRatio hd2) (levelRatio hd3) (levelRatio hd4) (levelRatio hd5))
    (t : Readable a g.n n V J H f) (y : ℕ → ℝ) (hy : g.staticNonlinHd none hd2 hd3 hd4 hd5 = .ok y) (hV : peakAmplitude [recordOf g.n y] a.scale = .ok V)
    (r : SpectrumResult) (h : computeSpectrum lib [recordOf g.n y] a = .ok r) :
    r.fundamentalBin = f 1 ∧ r.sigPwr = 20 * Real.logb 10 (H 1 / V) ∧
    (∃ hl : List EReal, r.harmonics = some hl ∧ hl.length = a.maxHarmonic - 1 ∧ ∀ k, 2 ≤ k → k ≤ a.maxHarmonic → k ∈ present H →
      hl.getD (k - 2) 0 = ((level (max ((H k / V) ^ 2) (1 / 10 ^ 15)) - level ((H 1 / V) ^ 2) : ℝ) : EReal) ∧
      (1 / 10 ^ 15 ≤ (H k / V) ^ 2 → hl.getD (k - 2) 0 = ((20 * Real.logb 10 (H k / H 1) : ℝ) : EReal))) ∧
    r.sndr = ((level ((H 1 / V) ^ 2) - level ((∑ k ∈ (present H).filter (fun k => k ≠ 1 ∧ f k < n), (H k / V) ^ 2) + 1 / 10 ^ 20) : ℝ) : EReal) ∧
    ((∀ k ∈ present H, k ≠ 1 → n ≤ f k) → r.sfdr = some ⊤) ∧
    (∀ s ∈ present H, s ≠ 1 → f s < n → (∀ k ∈ present H, k ≠ 1 → f k < n → H k ≤ H s) → r.sfdr = some ((20 * Real.logb 10 (H 1 / H s) : ℝ) : EReal)) := by
  have e : g.staticNonlinHd none hd2 hd3 hd4 hd5 = .ok (g.staticNonlin none (2 ^ (2 - 1) * levelRatio hd2 / g.a ^ (2 - 1)) (2 ^ (3 - 1) * levelRatio hd3 / g.a ^ (3 - 1))
      (2 ^ (4 - 1) * levelRatio hd4 / g.a ^ (4 - 1)) (2 ^ (5 - 1) * levelRatio hd5 / g.a ^ (5 - 1))) := by
    unfold Gen.staticNonlinHd
    rw [dbToK_ok g ha.ne' hd2, dbToK_ok g ha.ne' hd3, dbToK_ok g ha.ne' hd4, dbToK_ok g ha.ne' hd5]
    rfl
  rw [e] at hy
  injection hy with hy
  obtain ⟨p, q, hh, hH⟩ := C111_polynomial g (2 ^ (2 - 1) * levelRatio hd2 / g.a ^ (2 - 1)) (2 ^ (3 - 1) * levelRatio hd3 / g.a ^ (3 - 1))
      (2 ^ (4 - 1) * levelRatio hd4 / g.a ^ (4 - 1)) (2 ^ (5 - 1) * levelRatio hd5 / g.a ^ (5 - 1))
  rw [hy] at hh
  refine C111_readout lib a g.n n V J H f t y _ g.dc p q hh (coherent_phase g J hcoh) (fun k hk => ?_) hV r h
  rw [hH k hk, poly_level _ _ _ _ _ ha (ratio_nonneg _) (ratio_nonneg _) (ratio_nonneg _) (ratio_nonneg _) k hk, hHd]

private theorem ten_pow (v : ℝ) : 20 * Real.logb 10 ((10 : ℝ) ^ (v / 20)) = v := by
  rw [Real.logb_rpow (by norm_num) (by norm_num)]
  ring

section levels

variable (lib : WinLib) (a : SpectrumArgs) (g : Gen) (n : ℕ) (V : ℝ) (J : ℕ) (f : ℕ → ℕ) (v : ℝ) (ha : 0 < g.a) (hcoh : g.fin / g.fs = J / g.n) (y : ℕ → ℝ)
  (hV : peakAmplitude [recordOf g.n y] a.scale = .ok V) (r : SpectrumResult) (h : computeSpectrum lib [recordOf g.n y] a = .ok r)
  (hm : 5 ≤ a.maxHarmonic) (hfl : 1 / 10 ^ 15 ≤ (g.a * 10 ^ (v / 20) / V) ^ 2)

include ha hcoh hV h hm hfl

/-- **C111 (HD2 alone).** The level requested as `hd2_dB` is the HD2 that `compute_spectrum` reports, exactly; in band it is also minus the SFDR. -/
theorem C111_hd2_alone (t : Readable a g.n n V J (levelAmp g.a (10 ^ (v / 20)) 0 0 0) f) (hy : g.staticNonlinHd none (some v) none none none = .ok y) :
    r.sigPwr = 20 * Real.logb 10 (g.a / V) ∧ (∃ hl : List EReal, r.harmonics = some hl ∧ hl.getD 0 0 = ((v : ℝ) : EReal)) ∧ (f 2 < n → r.sfdr = some ((-v : ℝ) : EReal)) := by
  have hr : (0 : ℝ) < 10 ^ (v / 20) := by positivity
  obtain ⟨_, c2, ⟨hl, d1, d2, d3⟩, _, _, c6⟩ := levels_bundle lib a g n V J f (some v) none none none ha hcoh _ rfl t y hy hV r h
  have l1 : levelAmp g.a (10 ^ (v / 20)) 0 0 0 1 = g.a := by norm_num [levelAmp]
  have l2 : levelAmp g.a (10 ^ (v / 20)) 0 0 0 2 = g.a * 10 ^ (v / 20) := by norm_num [levelAmp]
  have p2 : 2 ∈ present (levelAmp g.a (10 ^ (v / 20)) 0 0 0) := mem_filter.mpr ⟨by decide, by rw [l2]; positivity⟩
  have hlr : levelRatio (some v) = 10 ^ (v / 20) := rfl
  have hl0 : levelRatio none = 0 := rfl
  rw [hlr, hl0] at c2 d3 c6
  refine ⟨by rw [c2, l1], ⟨hl, d1, ?_⟩, fun hf2 => ?_⟩
  · rw [(d3 2 le_rfl (by omega) p2).2 (by rw [l2]; exact hfl), l1, l2, mul_div_cancel_left₀ _ ha.ne', ten_pow]
  · rw [c6 2 p2 (by norm_num) hf2 (fun k hk hk1 _ => ?_), l1, l2, div_mul_cancel_left₀ ha.ne', Real.logb_inv, mul_neg, ten_pow]
    obtain ⟨q1, q2⟩ := mem_filter.mp hk
    obtain ⟨q3, q4⟩ := mem_Icc.mp q1
    by_contra hc
    interval_cases k <;> simp [levelAmp] at q2 hk1 hc

/-- **C111 (HD3 alone).** The level requested as `hd3_dB` reads low by `20·log10(1 + 3r)`, `r = 10^(dB/20)`, because the cubic term raises the fundamental by that much. -/
theorem C111_hd3_alone (t : Readable a g.n n V J (levelAmp g.a 0 (10 ^ (v / 20)) 0 0) f) (hy : g.staticNonlinHd none none (some v) none none = .ok y) :
    r.sigPwr = 20 * Real.logb 10 (g.a * (1 + 3 * 10 ^ (v / 20)) / V) ∧
    (∃ hl : List EReal, r.harmonics = some hl ∧ hl.getD 1 0 = ((v - 20 * Real.logb 10 (1 + 3 * 10 ^ (v / 20)) : ℝ) : EReal)) ∧
    (f 3 < n → r.sfdr = some ((20 * Real.logb 10 (1 + 3 * 10 ^ (v / 20)) - v : ℝ) : EReal)) := by
  have hr : (0 : ℝ) < 10 ^ (v / 20) := by positivity
  obtain ⟨_, c2, ⟨hl, d1, d2, d3⟩, _, _, c6⟩ := levels_bundle lib a g n V J f none (some v) none none ha hcoh _ rfl t y hy hV r h
  have l1 : levelAmp g.a 0 (10 ^ (v / 20)) 0 0 1 = g.a * (1 + 3 * 10 ^ (v / 20)) := by norm_num [levelAmp]
  have l3 : levelAmp g.a 0 (10 ^ (v / 20)) 0 0 3 = g.a * 10 ^ (v / 20) := by norm_num [levelAmp]
  have p3 : 3 ∈ present (levelAmp g.a 0 (10 ^ (v / 20)) 0 0) := mem_filter.mpr ⟨by decide, by rw [l3]; positivity⟩
  have hlr : levelRatio (some v) = 10 ^ (v / 20) := rfl
  have hl0 : levelRatio none = 0 := rfl
  rw [hlr, hl0] at c2 d3 c6
  have hd := ten_pow v
  refine ⟨by rw [c2, l1], ⟨hl, d1, ?_⟩, fun hf2 => ?_⟩
  · rw [(d3 3 (by norm_num) (by omega) p3).2 (by rw [l3]; exact hfl), l1, l3, mul_div_mul_left _ _ ha.ne', Real.logb_div (by positivity) (by positivity), mul_sub, ten_pow]
  · rw [c6 3 p3 (by norm_num) hf2 (fun k hk hk1 _ => ?_), l1, l3, mul_div_mul_left _ _ ha.ne', Real.logb_div (by positivity) (by positivity), mul_sub, ten_pow]
    obtain ⟨q1, q2⟩ := mem_filter.mp hk
    obtain ⟨q3, q4⟩ := mem_Icc.mp q1
    by_contra hc
    interval_cases k <;> simp [levelAmp] at q2 hk1 hc

/-- **C111 (HD4 alone).** The level requested as `hd4_dB` is read as HD4, but HD2 then reads `20·log10(4)`, about 12 dB, more than it, and that is what limits SFDR. -/
theorem C111_hd4_alone (t : Readable a g.n n V J (levelAmp g.a 0 0 (10 ^ (v / 20)) 0) f) (hy : g.staticNonlinHd none none none (some v) none = .ok y) :
    (∃ hl : List EReal, r.harmonics = some hl ∧ hl.getD 2 0 = ((v : ℝ) : EReal) ∧ hl.getD 0 0 = ((v + 20 * Real.logb 10 4 : ℝ) : EReal)) ∧
    (f 2 < n → r.sfdr = some ((-(v + 20 * Real.logb 10 4) : ℝ) : EReal)) := by
  have hr : (0 : ℝ) < 10 ^ (v / 20) := by positivity
  obtain ⟨_, c2, ⟨hl, d1, d2, d3⟩, _, _, c6⟩ := levels_bundle lib a g n V J f none none (some v) none ha hcoh _ rfl t y hy hV r h
  have l1 : levelAmp g.a 0 0 (10 ^ (v / 20)) 0 1 = g.a := by norm_num [levelAmp]
  have l2 : levelAmp g.a 0 0 (10 ^ (v / 20)) 0 2 = g.a * (4 * 10 ^ (v / 20)) := by norm_num [levelAmp]
  have l4 : levelAmp g.a 0 0 (10 ^ (v / 20)) 0 4 = g.a * 10 ^ (v / 20) := by norm_num [levelAmp]
  have p2 : 2 ∈ present (levelAmp g.a 0 0 (10 ^ (v / 20)) 0) := mem_filter.mpr ⟨by decide, by rw [l2]; positivity⟩
  have p4 : 4 ∈ present (levelAmp g.a 0 0 (10 ^ (v / 20)) 0) := mem_filter.mpr ⟨by decide, by rw [l4]; positivity⟩
  have hlr : levelRatio (some v) = 10 ^ (v / 20) := rfl
  have hl0 : levelRatio none = 0 := rfl
  rw [hlr, hl0] at c2 d3 c6
  have hV0 : 0 < V := t.test.full
  refine ⟨⟨hl, d1, ?_, ?_⟩, fun hf2 => ?_⟩
  · rw [(d3 4 (by norm_num) (by omega) p4).2 (by rw [l4]; exact hfl), l1, l4, mul_div_cancel_left₀ _ ha.ne', ten_pow]
  · rw [(d3 2 (by norm_num) (by omega) p2).2 ?_, l1, l2, mul_div_cancel_left₀ _ ha.ne', Real.logb_mul (by norm_num) hr.ne', mul_add, ten_pow, add_comm]
    refine hfl.trans ?_
    rw [l2]
    apply pow_le_pow_left₀ (by positivity)
    apply div_le_div_of_nonneg_right _ hV0.le
    nlinarith [mul_pos ha hr]
  · rw [c6 2 p2 (by norm_num) hf2 (fun k hk hk1 _ => ?_), l1, l2, div_mul_cancel_left₀ ha.ne', Real.logb_inv, mul_neg, Real.logb_mul (by norm_num) hr.ne', mul_add, ten_pow, add_comm]
    obtain ⟨q1, q2⟩ := mem_filter.mp hk
    obtain ⟨q3, q4⟩ := mem_Icc.mp q1
    have := mul_pos ha hr
    by_contra hc
    interval_cases k <;> simp [levelAmp] at q2 hk1 hc <;> nlinarith

/-- **C111 (HD5 alone).** The level requested as `hd5_dB` reads low by `20·log10(1 + 10r)`, and HD3 reads `20·log10(5)`, about 14 dB, more than it. -/
theorem C111_hd5_alone (t : Readable a g.n n V J (levelAmp g.a 0 0 0 (10 ^ (v / 20))) f) (hy : g.staticNonlinHd none none none none (some v) = .ok y) :
    ∃ hl : List EReal, r.harmonics = some hl ∧ hl.getD 3 0 = ((v - 20 * Real.logb 10 (1 + 10 * 10 ^ (v / 20)) : ℝ) : EReal) ∧
      hl.getD 1 0 = ((v - 20 * Real.logb 10 (1 + 10 * 10 ^ (v / 20)) + 20 * Real.logb 10 5 : ℝ) : EReal) := by
  have hr : (0 : ℝ) < 10 ^ (v / 20) := by positivity
  obtain ⟨_, c2, ⟨hl, d1, d2, d3⟩, _, _, c6⟩ := levels_bundle lib a g n V J f none none none (some v) ha hcoh _ rfl t y hy hV r h
  have l1 : levelAmp g.a 0 0 0 (10 ^ (v / 20)) 1 = g.a * (1 + 10 * 10 ^ (v / 20)) := by norm_num [levelAmp]
  have l3 : levelAmp g.a 0 0 0 (10 ^ (v / 20)) 3 = g.a * (5 * 10 ^ (v / 20)) := by norm_num [levelAmp]
  have l5 : levelAmp g.a 0 0 0 (10 ^ (v / 20)) 5 = g.a * 10 ^ (v / 20) := by norm_num [levelAmp]
  have p3 : 3 ∈ present (levelAmp g.a 0 0 0 (10 ^ (v / 20))) := mem_filter.mpr ⟨by decide, by rw [l3]; positivity⟩
  have p5 : 5 ∈ present (levelAmp g.a 0 0 0 (10 ^ (v / 20))) := mem_filter.mpr ⟨by decide, by rw [l5]; positivity⟩
  have hlr : levelRatio (some v) = 10 ^ (v / 20) := rfl
  have hl0 : levelRatio none = 0 := rfl
  rw [hlr, hl0] at c2 d3 c6
  have hV0 : 0 < V := t.test.full
  refine ⟨hl, d1, ?_, ?_⟩
  · rw [(d3 5 (by norm_num) (by omega) p5).2 (by rw [l5]; exact hfl), l1, l5, mul_div_mul_left _ _ ha.ne', Real.logb_div (by positivity) (by positivity), mul_sub, ten_pow]
  · rw [(d3 3 (by norm_num) (by omega) p3).2 ?_, l1, l3, mul_div_mul_left _ _ ha.ne', Real.logb_div (by positivity) (by positivity), mul_sub, Real.logb_mul (by norm_num) hr.ne', mul_add, ten_pow]
    · congr 1
      ring
    · refine hfl.trans ?_
      rw [l3]
      apply pow_le_pow_left₀ (by positivity)
      apply div_le_div_of_nonneg_right _ hV0.le
      nlinarith [mul_pos ha hr]

end levels

/-! ## The sign sweep of `exp_g05_sweep_static_nonlin.py` -/

/-- **C111 (k2 and k3 from levels).** `calculate_k_mag` computes the coefficient that `apply_static_nonlinearity_hd` uses. -/
theorem C111_k_mag (g : Gen) (v : ℝ) (order : ℕ) : calculateKMag g v order = g.dbToK (some v) order := rfl

/-- **C111 (sign sweep).** The sweep over the signs of `k2` and `k3` keeps their magnitudes. The sign of `k2` changes no amplitude. The sign of `k3` does: the fundamental is
`A·|1 ± 3r|`, so HD3 reads `v - 20·log10(1 + 3r)` with the positive and `v - 20·log10(1 - 3r)` with the negative sign, `r = 10^(v/20) < 1/3`. -/
theorem C111_sign_sweep (g : Gen) (ha : 0 < g.a) (u v : ℝ) (hv : (10 : ℝ) ^ (v / 20) < 1 / 3) : ∃ k2 k3, calculateKMag g u 2 = .ok k2 ∧ calculateKMag g v 3 = .ok k3 ∧
    (∀ s k, polyAmp g.a (-k2) s 0 0 k = polyAmp g.a k2 s 0 0 k) ∧
    20 * Real.logb 10 (polyAmp g.a k2 k3 0 0 3 / polyAmp g.a k2 k3 0 0 1) = v - 20 * Real.logb 10 (1 + 3 * 10 ^ (v / 20)) ∧
    20 * Real.logb 10 (polyAmp g.a k2 (-k3) 0 0 3 / polyAmp g.a k2 (-k3) 0 0 1) = v - 20 * Real.logb 10 (1 - 3 * 10 ^ (v / 20)) := by
  have hr : (0 : ℝ) < 10 ^ (v / 20) := by positivity
  refine ⟨2 ^ (2 - 1) * 10 ^ (u / 20) / g.a ^ (2 - 1), 2 ^ (3 - 1) * 10 ^ (v / 20) / g.a ^ (3 - 1), ?_, ?_, ?_, ?_, ?_⟩
  · unfold calculateKMag
    rw [if_neg (pow_ne_zero _ ha.ne')]
  · unfold calculateKMag
    rw [if_neg (pow_ne_zero _ ha.ne')]
  · intro s k
    unfold polyAmp
    split_ifs <;> try rfl
    rw [← abs_neg]
    congr 1
    ring
  · have e1 : polyAmp g.a (2 ^ (2 - 1) * 10 ^ (u / 20) / g.a ^ (2 - 1)) (2 ^ (3 - 1) * 10 ^ (v / 20) / g.a ^ (3 - 1)) 0 0 1 = g.a * (1 + 3 * 10 ^ (v / 20)) := by
      unfold polyAmp
      rw [if_pos rfl, ← abs_of_nonneg (show 0 ≤ g.a * (1 + 3 * 10 ^ (v / 20)) by positivity)]
      congr 1
      field_simp
      ring
    have e3 : polyAmp g.a (2 ^ (2 - 1) * 10 ^ (u / 20) / g.a ^ (2 - 1)) (2 ^ (3 - 1) * 10 ^ (v / 20) / g.a ^ (3 - 1)) 0 0 3 = g.a * 10 ^ (v / 20) := by
      unfold polyAmp
      rw [if_neg (by norm_num), if_neg (by norm_num), if_pos rfl, ← abs_of_nonneg (show 0 ≤ g.a * 10 ^ (v / 20) by positivity)]
      congr 1
      field_simp
      ring
    rw [e1, e3, mul_div_mul_left _ _ ha.ne', Real.logb_div (by positivity) (by positivity), mul_sub, ten_pow]
  · have hpos : 0 < 1 - 3 * (10 : ℝ) ^ (v / 20) := by linarith
    have e1 : polyAmp g.a (2 ^ (2 - 1) * 10 ^ (u / 20) / g.a ^ (2 - 1)) (-(2 ^ (3 - 1) * 10 ^ (v / 20) / g.a ^ (3 - 1))) 0 0 1 = g.a * (1 - 3 * 10 ^ (v / 20)) := by
      unfold polyAmp
      rw [if_pos rfl, ← abs_of_nonneg (show 0 ≤ g.a * (1 - 3 * 10 ^ (v / 20)) by positivity)]
      congr 1
      field_simp
      ring
    have e3 : polyAmp g.a (2 ^ (2 - 1) * 10 ^ (u / 20) / g.a ^ (2 - 1)) (-(2 ^ (3 - 1) * 10 ^ (v / 20) / g.a ^ (3 - 1))) 0 0 3 = g.a * 10 ^ (v / 20) := by
      unfold polyAmp
      rw [if_neg (by norm_num), if_neg (by norm_num), if_pos rfl, ← abs_of_nonneg (show 0 ≤ g.a * 10 ^ (v / 20) by positivity), ← abs_neg]
      congr 1
      field_simp
      ring
    rw [e1, e3, mul_div_mul_left _ _ ha.ne', Real.logb_div (by positivity) hpos.ne', mul_sub, ten_pow]

/-! ## A concrete case -/

private theorem example_present : present (levelAmp (1 / 2) (10 ^ ((-40 : ℝ) / 20)) 0 0 0) = {1, 2} := by
  have hr : (0 : ℝ) < 10 ^ ((-40 : ℝ) / 20) := by positivity
  ext k
  unfold present
  rw [mem_filter, mem_Icc, mem_insert, mem_singleton]
  constructor
  · rintro ⟨⟨h1, h5⟩, hne⟩
    by_contra hc
    push Not at hc
    apply hne
    unfold levelAmp
    rw [if_neg hc.1, if_neg hc.2]
    split_ifs <;> simp
  · rintro (rfl | rfl)
    · exact ⟨by norm_num, by norm_num [levelAmp]⟩
    · refine ⟨by norm_num, ?_⟩
      unfold levelAmp
      rw [if_neg (by norm_num), if_pos rfl]
      positivity

-- five periods in 64 samples, HD2 requested at -40 dB, full scale 1: the report says -40 dB
example (lib : WinLib) : ∃ y r hl, (Gen.mk 64 1 (5 / 64) (1 / 2) (1 / 2)).staticNonlinHd none (some (-40)) none none none = .ok y ∧
    computeSpectrum lib [recordOf 64 y] { scale := .scalar 1, sideBin := some 1 } = .ok r ∧ r.harmonics = some hl ∧ hl.getD 0 0 = ((-40 : ℝ) : EReal) ∧
    r.sfdr = some ((40 : ℝ) : EReal) := by
  have hr : (0 : ℝ) < 10 ^ ((-40 : ℝ) / 20) := by positivity
  have hrv : (10 : ℝ) ^ ((-40 : ℝ) / 20) = 1 / 100 := by
    rw [show (-40 : ℝ) / 20 = ((-2 : ℤ) : ℝ) by norm_num, Real.rpow_intCast]
    norm_num
  have l1 : levelAmp (1 / 2) (10 ^ ((-40 : ℝ) / 20)) 0 0 0 1 = 1 / 2 := by norm_num [levelAmp]
  have l2 : levelAmp (1 / 2) (10 ^ ((-40 : ℝ) / 20)) 0 0 0 2 = 1 / 200 := by
    unfold levelAmp
    rw [if_neg (by norm_num), if_pos rfl, hrv]
    norm_num
  have himg : (present (levelAmp (1 / 2) (10 ^ ((-40 : ℝ) / 20)) 0 0 0)).image (fun k => 5 * k) = {5, 10} := by
    rw [example_present]
    decide
  have hinj : ∀ k ∈ present (levelAmp (1 / 2) (10 ^ ((-40 : ℝ) / 20)) 0 0 0), ∀ l ∈ present (levelAmp (1 / 2) (10 ^ ((-40 : ℝ) / 20)) 0 0 0), 5 * k = 5 * l → k = l :=
    fun k _ l _ h => by omega
  have h5 : binAmp (levelAmp (1 / 2) (10 ^ ((-40 : ℝ) / 20)) 0 0 0) (fun k => 5 * k) 5 = 1 / 2 := by
    have := binAmp_eq (levelAmp (1 / 2) (10 ^ ((-40 : ℝ) / 20)) 0 0 0) (fun k => 5 * k) hinj 1 (by rw [example_present]; decide)
    rw [l1] at this
    exact this
  have h10 : binAmp (levelAmp (1 / 2) (10 ^ ((-40 : ℝ) / 20)) 0 0 0) (fun k => 5 * k) 10 = 1 / 200 := by
    have := binAmp_eq (levelAmp (1 / 2) (10 ^ ((-40 : ℝ) / 20)) 0 0 0) (fun k => 5 * k) hinj 2 (by rw [example_present]; decide)
    rw [l2] at this
    exact this
  have t : Readable { scale := .scalar 1, sideBin := some 1 } 64 33 1 5 (levelAmp (1 / 2) (10 ^ ((-40 : ℝ) / 20)) 0 0 0) (fun k => 5 * k) := by
    refine ⟨fun k hk => ?_, hinj, by rw [example_present]; decide, ?_⟩
    · obtain ⟨q1, q2⟩ := mem_Icc.mp hk
      have : (k : ℝ) ≤ 5 := by exact_mod_cast q2
      refine ⟨by positivity, ?_, 0, Or.inl ?_⟩
      · push_cast
        linarith
      · push_cast
        ring
    · rw [himg]
      exact {
        kaiser := (by decide : "hann" ≠ "kaiser")
        chebwin := (by decide : "hann" ≠ "chebwin")
        side := rfl
        average := rfl
        cutoff := rfl
        assumed := rfl
        inband := C25_osr_one (K := ℝ) 64 (by norm_num)
        full := by norm_num
        sep := (⟨by decide, by decide, by decide⟩ : Separated 64 1 {5, 10})
        edge := (by decide : ∀ b ∈ ({5, 10} : Finset ℕ), b + 1 < 33 ∨ 33 ≤ b - 1)
        carrier := by decide
        carrier_in := by norm_num
        amp_pos := fun b hb => by
          simp only [mem_insert, mem_singleton] at hb
          rcases hb with rfl | rfl
          · rw [h5]
            norm_num
          · rw [h10]
            norm_num
        strongest := fun b hb _ hne => by
          simp only [mem_insert, mem_singleton] at hb
          rcases hb with rfl | rfl
          · exact absurd rfl hne
          · rw [h10]
            refine lt_of_lt_of_eq ?_ h5.symm
            norm_num
        loud := by
          refine lt_of_lt_of_eq ?_ (congrArg (· / (1 : ℝ)) h5.symm)
          norm_num }
  obtain ⟨y, hy, hh⟩ := C54_expansion ⟨64, 1, 5 / 64, 1 / 2, 1 / 2⟩ (by norm_num) (some (-40)) none none none
  have hV : peakAmplitude [recordOf 64 y] (.scalar 1) = .ok 1 := rfl
  obtain ⟨r, hr'⟩ := C111_succeeds lib { scale := .scalar 1, sideBin := some 1 } 64 33 1 5 _ _ t y _ _ _ _ hh (coherent_phase ⟨64, 1, 5 / 64, 1 / 2, 1 / 2⟩ 5 (by norm_num)) (by
    intro k hk
    obtain ⟨q1, q2⟩ := mem_Icc.mp hk
    have hlr : levelRatio (some (-40)) = 10 ^ ((-40 : ℝ) / 20) := rfl
    have hl0 : levelRatio none = 0 := rfl
    rw [hlr, hl0, hrv]
    have hs : ∀ x z : ℝ, 0 ≤ z → x = z ^ 2 → Real.sqrt x = z := fun x z hz hx => by rw [hx, Real.sqrt_sq hz]
    unfold harmonicAmp
    refine hs _ _ ?_ ?_ <;> unfold levelAmp <;> interval_cases k <;> norm_num) hV (by norm_num) (by norm_num) (by norm_num)
  obtain ⟨_, ⟨hl, e1, e2⟩, e3⟩ := C111_hd2_alone lib { scale := .scalar 1, sideBin := some 1 } ⟨64, 1, 5 / 64, 1 / 2, 1 / 2⟩ 33 1 5 (fun k => 5 * k) (-40) (by norm_num) (by norm_num) y hV r hr'
    (by norm_num) (by rw [hrv]; norm_num) t hy
  exact ⟨y, r, hl, hy, hr', e1, e2, by rw [e3 (by norm_num)]; norm_num⟩

end Verif
