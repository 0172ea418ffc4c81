import Verif.Proofs.PhaseCount
import Verif.Theorems.SineInl
import Mathlib.Analysis.Real.Pi.Bounds

/-!
# C150: accuracy of the sine histogram
-/

namespace Verif

open Model Finset

/-! ## Specification -/

/-- A converter `q` with transition level `T c` between the codes `c` and `c + 1`, for `lo ≤ c < hi`: code at most `c` below it, code above `c` above it. Nothing is
required at the level itself, nor about the codes outside. -/
structure Spec.Transfer (q : ℝ → ℤ) (T : ℤ → ℝ) (lo hi : ℤ) : Prop where
  below : ∀ c, lo ≤ c → c < hi → ∀ v, v < T c → q v ≤ c
  above : ∀ c, lo ≤ c → c < hi → ∀ v, T c < v → c < q v

/-- A record of codes of a coherent sine with `b` periods in `N` samples: every sample is converted with an input-referred error of at most `ρ`, which may differ from
sample to sample. `T c` is the transition level between the codes `c` and `c + 1`, for `lo ≤ c < hi`. -/
structure Spec.SineCodes (zs : List ℤ) (T : ℤ → ℝ) (lo hi : ℤ) (N b : ℕ) (A φ D ρ : ℝ) : Prop where
  len : zs.length = N
  mono : ∀ c d, lo ≤ c → c ≤ d → d < hi → T c ≤ T d
  below : ∀ n < N, ∀ c, lo ≤ c → c < hi → sineAt A ((b : ℝ) / N) φ D n < T c - ρ → zs.getD n 0 ≤ c
  above : ∀ n < N, ∀ c, lo ≤ c → c < hi → T c + ρ < sineAt A ((b : ℝ) / N) φ D n → c < zs.getD n 0

/-- The codes of a coherent sine: `b` periods in `N` samples. -/
noncomputable def Spec.sineCodesOf (q : ℝ → ℤ) (N b : ℕ) (A φ D : ℝ) : List ℤ := (List.range N).map fun n => q (sineAt A ((b : ℝ) / N) φ D n)

/-- True DNL of code `lo + i + 1` against the average width between `lo` and `hi`, on the scale `compute_inl_from_sine` uses: `n / (n - 2)` for `n` kept codes. -/
noncomputable def Spec.trueDnl (T : ℤ → ℝ) (lo hi : ℤ) (i : ℕ) : ℝ :=
  ((hi : ℝ) - lo + 1) / ((hi : ℝ) - lo - 1) * ((T (lo + i + 1) - T (lo + i)) / ((T (hi - 1) - T lo) / ((hi : ℝ) - lo - 1)) - 1)

/-- True INL on the same scale. -/
noncomputable def Spec.trueInl (T : ℤ → ℝ) (lo hi : ℤ) (i : ℕ) : ℝ :=
  ((hi : ℝ) - lo + 1) / ((hi : ℝ) - lo - 1) * ((T (lo + i + 1) - T lo) / ((T (hi - 1) - T lo) / ((hi : ℝ) - lo - 1)) - (i + 1))

open Spec

/-! ## Auxiliary facts -/

private theorem transfer_mono {q : ℝ → ℤ} {T : ℤ → ℝ} {lo hi : ℤ} (h : Transfer q T lo hi) (c d : ℤ) (h1 : lo ≤ c) (h2 : c ≤ d) (h3 : d < hi) : T c ≤ T d := by
  by_contra hlt
  push Not at hlt
  obtain ⟨v, h4, h5⟩ := exists_between hlt
  have a := h.below c h1 (by omega) v h5
  have b := h.above d (by omega) h3 v h4
  omega

private theorem countP_card (N : ℕ) (f : ℕ → ℤ) (p : ℤ → Bool) : ((List.range N).map f).countP p = ((range N).filter fun n => p (f n) = true).card := by
  induction N with
  | zero => simp
  | succ N ih =>
    rw [List.range_succ, List.map_append, List.countP_append, ih, range_add_one, filter_insert]
    by_cases h : p (f N) = true
    · rw [if_pos h, card_insert_of_notMem (by simp)]
      simp [h]
    · rw [if_neg h]
      simp [h]

/-- `Spec.Transfer` without noise is `Spec.SineCodes`. -/
theorem Spec.Transfer.sineCodes {q : ℝ → ℤ} {T : ℤ → ℝ} {lo hi : ℤ} (h : Transfer q T lo hi) (N b : ℕ) (A φ D : ℝ) :
    SineCodes (sineCodesOf q N b A φ D) T lo hi N b A φ D 0 := by
  have e : ∀ n < N, (sineCodesOf q N b A φ D).getD n 0 = q (sineAt A ((b : ℝ) / N) φ D n) := by
    intro n hn
    rw [List.getD_eq_getElem _ _ (by simpa [sineCodesOf] using hn)]
    simp [sineCodesOf]
  refine ⟨by simp [sineCodesOf], transfer_mono h, fun n hn c h1 h2 hv => ?_, fun n hn c h1 h2 hv => ?_⟩
  · rw [e n hn]
    exact h.below c h1 h2 _ (by linarith)
  · rw [e n hn]
    exact h.above c h1 h2 _ (by linarith)

/-- Samples below `x` of the amplitude. -/
private theorem cnt_below (N b : ℕ) (hN : 0 < N) (hcop : Nat.Coprime b N) (φ x : ℝ) :
    (N : ℝ) * Real.arccos (-x) / Real.pi - 1 ≤ ((range N).filter fun n : ℕ => Real.cos (2 * Real.pi * ((b : ℝ) / N) * n + φ) < x).card := by
  have hpi := Real.pi_pos
  rcases lt_or_ge x (-1) with hlt | hge
  · rw [Real.arccos_of_one_le (by linarith), mul_zero, zero_div]
    have := Nat.cast_nonneg (α := ℝ) ((range N).filter fun n : ℕ => Real.cos (2 * Real.pi * ((b : ℝ) / N) * n + φ) < x).card
    linarith
  rcases lt_or_ge 1 x with hlt | hle
  · rw [Real.arccos_of_le_neg_one (by linarith), mul_div_assoc, div_self hpi.ne', mul_one, filter_true_of_mem (fun n _ => (Real.cos_le_one _).trans_lt hlt), card_range]
    linarith
  have h := count_below N b hN hcop φ (Real.arccos x) (Real.arccos_nonneg x) (Real.arccos_le_pi x)
  rw [Real.cos_arccos hge hle, ← Real.arccos_neg] at h
  exact h

/-- Samples above `x` of the amplitude. -/
private theorem cnt_above (N b : ℕ) (hN : 0 < N) (hcop : Nat.Coprime b N) (φ x : ℝ) :
    (N : ℝ) - N * Real.arccos (-x) / Real.pi - 1 ≤ ((range N).filter fun n : ℕ => x < Real.cos (2 * Real.pi * ((b : ℝ) / N) * n + φ)).card := by
  have hpi := Real.pi_pos
  have e : (N : ℝ) - N * Real.arccos (-x) / Real.pi = N * Real.arccos x / Real.pi := by
    rw [Real.arccos_neg]
    field_simp
    ring
  rw [e]
  rcases lt_or_ge x (-1) with hlt | hge
  · rw [Real.arccos_of_le_neg_one hlt.le, mul_div_assoc, div_self hpi.ne', mul_one, filter_true_of_mem (fun n _ => hlt.trans_le (Real.neg_one_le_cos _)), card_range]
    linarith
  rcases lt_or_ge 1 x with hlt | hle
  · rw [Real.arccos_of_one_le hlt.le, mul_zero, zero_div]
    have := Nat.cast_nonneg (α := ℝ) ((range N).filter fun n : ℕ => x < Real.cos (2 * Real.pi * ((b : ℝ) / N) * n + φ)).card
    linarith
  have h := count_above N b hN hcop φ (Real.arccos x) (Real.arccos_nonneg x) (Real.arccos_le_pi x)
  rw [Real.cos_arccos hge hle] at h
  exact h

/-- The number of samples at or below a code is between the shares of the period below the lower and the upper end of its transition, up to one sample. -/
private theorem atMost_bounds (zs : List ℤ) (N b : ℕ) (hlen : zs.length = N) (hN : 0 < N) (hcop : Nat.Coprime b N) (A φ D : ℝ) (hA : 0 < A) (c : ℤ) (t ρ : ℝ)
    (hbelow : ∀ n < N, sineAt A ((b : ℝ) / N) φ D n < t - ρ → zs.getD n 0 ≤ c) (habove : ∀ n < N, t + ρ < sineAt A ((b : ℝ) / N) φ D n → c < zs.getD n 0) :
    (N : ℝ) * Real.arccos (-((t - ρ - D) / A)) / Real.pi - 1 ≤ atMost zs c ∧ (atMost zs c : ℝ) ≤ (N : ℝ) * Real.arccos (-((t + ρ - D) / A)) / Real.pi + 1 := by
  have hz : zs = (List.range N).map fun n => zs.getD n 0 := by
    apply List.ext_getElem
    · simp [hlen]
    · intro n h1 h2
      rw [List.getElem_map, List.getElem_range, List.getD_eq_getElem _ _ h1]
  have hcard : atMost zs c = ((range N).filter fun n => zs.getD n 0 ≤ c).card := by
    unfold atMost
    conv_lhs => rw [hz]
    rw [countP_card]
    simp
  have hcount : atMost zs c + ((range N).filter fun n => c < zs.getD n 0).card = N := by
    have h := card_filter_add_card_filter_not (s := range N) (fun n => zs.getD n 0 ≤ c)
    rw [card_range] at h
    rw [hcard]
    simpa only [not_le] using h
  constructor
  · refine (cnt_below N b hN hcop φ _).trans ?_
    rw [hcard]
    have : ((range N).filter fun n : ℕ => Real.cos (2 * Real.pi * ((b : ℝ) / N) * n + φ) < (t - ρ - D) / A) ⊆ (range N).filter fun n => zs.getD n 0 ≤ c := by
      intro n hn
      rw [mem_filter] at hn ⊢
      refine ⟨hn.1, hbelow n (mem_range.mp hn.1) ?_⟩
      unfold sineAt
      have := (lt_div_iff₀ hA).mp hn.2
      linarith
    exact_mod_cast card_le_card this
  · have h1 : (atMost zs c : ℝ) + (((range N).filter fun n => c < zs.getD n 0).card : ℝ) = N := by exact_mod_cast hcount
    have h2 : ((range N).filter fun n : ℕ => (t + ρ - D) / A < Real.cos (2 * Real.pi * ((b : ℝ) / N) * n + φ)) ⊆ (range N).filter fun n => c < zs.getD n 0 := by
      intro n hn
      rw [mem_filter] at hn ⊢
      refine ⟨hn.1, habove n (mem_range.mp hn.1) ?_⟩
      unfold sineAt
      have := (div_lt_iff₀ hA).mp hn.2
      linarith
    have h3 := cnt_above N b hN hcop φ ((t + ρ - D) / A)
    have h4 : (((range N).filter fun n : ℕ => (t + ρ - D) / A < Real.cos (2 * Real.pi * ((b : ℝ) / N) * n + φ)).card : ℝ) ≤
      (((range N).filter fun n => c < zs.getD n 0).card : ℝ) := by exact_mod_cast card_le_card h2
    linarith

/-- Without noise: the share of the period below the transition level, up to one sample. -/
theorem atMost_close (q : ℝ → ℤ) (N b : ℕ) (hN : 0 < N) (hcop : Nat.Coprime b N) (A φ D : ℝ) (hA : 0 < A) (c : ℤ) (t : ℝ) (hbelow : ∀ v, v < t → q v ≤ c)
    (habove : ∀ v, t < v → c < q v) : |(N : ℝ) * Real.arccos (-((t - D) / A)) / Real.pi - atMost (sineCodesOf q N b A φ D) c| ≤ 1 := by
  have e : ∀ n < N, (sineCodesOf q N b A φ D).getD n 0 = q (sineAt A ((b : ℝ) / N) φ D n) := by
    intro n hn
    rw [List.getD_eq_getElem _ _ (by simpa [sineCodesOf] using hn)]
    simp [sineCodesOf]
  have h := atMost_bounds (sineCodesOf q N b A φ D) N b (by simp [sineCodesOf]) hN hcop A φ D hA c t 0
    (fun n hn hv => by rw [e n hn]; exact hbelow _ (by linarith)) (fun n hn hv => by rw [e n hn]; exact habove _ (by linarith))
  rw [sub_zero, add_zero] at h
  rw [abs_le]
  constructor <;> linarith [h.1, h.2]

/-- Minus cosine grows by at most the angle. -/
private theorem neg_cos_le (y y' d : ℝ) (hy : 0 ≤ y) (hy' : y' ≤ Real.pi) (hd : 0 ≤ d) (h : y ≤ y' + d) : -Real.cos y ≤ -Real.cos y' + d := by
  rcases le_total y y' with hle | hle
  · have := Real.cos_le_cos_of_nonneg_of_le_pi hy hy' hle
    linarith
  · have := (abs_le.mp (Real.abs_cos_sub_cos_le y' y)).2
    rw [abs_sub_comm, abs_of_nonneg (sub_nonneg.mpr hle)] at this
    linarith

/-- The estimated level is the true one up to `π / N` of the amplitude and the noise. -/
theorem level_close (zs : List ℤ) (N b : ℕ) (hlen : zs.length = N) (hN : 0 < N) (hcop : Nat.Coprime b N) (A φ D : ℝ) (hA : 0 < A) (c : ℤ) (t ρ : ℝ)
    (hbelow : ∀ n < N, sineAt A ((b : ℝ) / N) φ D n < t - ρ → zs.getD n 0 ≤ c) (habove : ∀ n < N, t + ρ < sineAt A ((b : ℝ) / N) φ D n → c < zs.getD n 0)
    (hc : |t - D| ≤ A + ρ) : |sineLevel zs c - (t - D) / A| ≤ Real.pi / N + ρ / A := by
  have hNR : (0 : ℝ) < N := by exact_mod_cast hN
  have hpi := Real.pi_pos
  obtain ⟨h1, h2⟩ := atMost_bounds zs N b hlen hN hcop A φ D hA c t ρ hbelow habove
  have hM0 : (0 : ℝ) ≤ atMost zs c := Nat.cast_nonneg _
  have hM1 : (atMost zs c : ℝ) ≤ N := by
    have : atMost zs c ≤ zs.length := List.countP_le_length
    rw [hlen] at this
    exact_mod_cast this
  unfold sineLevel
  rw [hlen]
  obtain ⟨M, hM⟩ : ∃ M : ℝ, M = atMost zs c := ⟨_, rfl⟩
  rw [← hM] at h1 h2 hM0 hM1 ⊢
  obtain ⟨hc1, hc2⟩ := abs_le.mp hc
  have hy0 : 0 ≤ Real.pi * M / N := by positivity
  have hy1 : Real.pi * M / N ≤ Real.pi := by
    rw [div_le_iff₀ hNR]
    exact mul_le_mul_of_nonneg_left hM1 hpi.le
  have hlow : Real.arccos (-((t - ρ - D) / A)) ≤ Real.pi * M / N + Real.pi / N := by
    rw [← add_div, le_div_iff₀ hNR]
    rw [sub_le_iff_le_add, div_le_iff₀ hpi] at h1
    linarith
  have hup : Real.pi * M / N ≤ Real.arccos (-((t + ρ - D) / A)) + Real.pi / N := by
    rw [div_le_iff₀ hNR, add_mul, div_mul_cancel₀ _ hNR.ne']
    rw [← sub_le_iff_le_add, le_div_iff₀ hpi] at h2
    linarith
  have a1 := neg_cos_le _ _ (Real.pi / N) (Real.arccos_nonneg _) hy1 (by positivity) hlow
  have a2 := neg_cos_le _ _ (Real.pi / N) hy0 (Real.arccos_le_pi _) (by positivity) hup
  have b1 : (t - ρ - D) / A ≤ -Real.cos (Real.arccos (-((t - ρ - D) / A))) := by
    have hle : (t - ρ - D) / A ≤ 1 := by rw [div_le_one hA]; linarith
    rcases lt_or_ge ((t - ρ - D) / A) (-1) with hlt | hge
    · have := Real.cos_le_one (Real.arccos (-((t - ρ - D) / A)))
      linarith
    · rw [Real.cos_arccos (by linarith) (by linarith), neg_neg]
  have b2 : -Real.cos (Real.arccos (-((t + ρ - D) / A))) ≤ (t + ρ - D) / A := by
    have hge : -1 ≤ (t + ρ - D) / A := by rw [le_div_iff₀ hA]; linarith
    rcases lt_or_ge 1 ((t + ρ - D) / A) with hlt | hle
    · have := Real.neg_one_le_cos (Real.arccos (-((t + ρ - D) / A)))
      linarith
    · rw [Real.cos_arccos (by linarith) (by linarith), neg_neg]
  have e1 : (t - ρ - D) / A = (t - D) / A - ρ / A := by ring
  have e2 : (t + ρ - D) / A = (t - D) / A + ρ / A := by ring
  rw [e1] at a1 b1
  rw [e2] at a2 b2
  rw [abs_le]
  constructor <;> linarith

/-- Without noise: up to `π / N` of the amplitude. -/
theorem level_close_exact (q : ℝ → ℤ) (N b : ℕ) (hN : 0 < N) (hcop : Nat.Coprime b N) (A φ D : ℝ) (hA : 0 < A) (c : ℤ) (t : ℝ) (hbelow : ∀ v, v < t → q v ≤ c)
    (habove : ∀ v, t < v → c < q v) (hc : |t - D| ≤ A) : |sineLevel (sineCodesOf q N b A φ D) c - (t - D) / A| ≤ Real.pi / N := by
  have e : ∀ n < N, (sineCodesOf q N b A φ D).getD n 0 = q (sineAt A ((b : ℝ) / N) φ D n) := by
    intro n hn
    rw [List.getD_eq_getElem _ _ (by simpa [sineCodesOf] using hn)]
    simp [sineCodesOf]
  have h := level_close (sineCodesOf q N b A φ D) N b (by simp [sineCodesOf]) hN hcop A φ D hA c t 0
    (fun n hn hv => by rw [e n hn]; exact hbelow _ (by linarith)) (fun n hn hv => by rw [e n hn]; exact habove _ (by linarith)) (by linarith)
  rwa [zero_div, add_zero] at h

private theorem share_close (x y L S η : ℝ) (hη : 0 ≤ η) (hxy : |x - y| ≤ 2 * η) (hL : |L - S| ≤ 2 * η) (hS : 2 * η < S) (hy0 : 0 ≤ y) (hy1 : y ≤ S) :
    |x / L - y / S| ≤ 4 * η / (S - 2 * η) := by
  have hS0 : 0 < S := by linarith
  have hL0 : S - 2 * η ≤ L := by have := (abs_le.mp hL).1; linarith
  have hLp : 0 < L := by linarith
  have e : x / L - y / S = ((x - y) - y / S * (L - S)) / L := by field_simp; ring
  have hq : |y / S| ≤ 1 := by
    rw [abs_of_nonneg (div_nonneg hy0 hS0.le), div_le_one hS0]
    exact hy1
  have hnum : |(x - y) - y / S * (L - S)| ≤ 4 * η := by
    refine (abs_sub _ _).trans ?_
    rw [abs_mul]
    have := mul_le_mul hq hL (abs_nonneg _) zero_le_one
    linarith
  rw [e, abs_div, abs_of_pos hLp]
  exact (div_le_div_of_nonneg_right hnum hLp.le).trans (div_le_div_of_nonneg_left (by positivity) (by linarith) hL0)

/-- Everything the theorems below need about one record. -/
private theorem setup (zs : List ℤ) (T : ℤ → ℝ) (N b : ℕ) (hN : 0 < N) (hcop : Nat.Coprime b N) (A φ D ρ clipPercent η : ℝ) (hA : 0 < A)
    (hρ : 0 ≤ ρ) (hclip : 0 ≤ clipPercent) (lo hi : ℤ) (hT : SineCodes zs T lo hi N b A φ D ρ) (hlh : lo < hi) (hk : KeptRange zs clipPercent lo hi) (hη : Real.pi * A / N + ρ = η) (hS : 2 * η < T (hi - 1) - T lo) :
    lo + 1 < hi ∧ InteriorHit zs lo hi ∧
      (∀ c, lo ≤ c → c < hi → |sineLevel zs c - (T c - D) / A| ≤ Real.pi / N + ρ / A) ∧
      ∀ c d, lo ≤ d → d ≤ c → c < hi → |(sineLevel zs c - sineLevel zs d) /
        (sineLevel zs (hi - 1) - sineLevel zs lo) - (T c - T d) / (T (hi - 1) - T lo)| ≤
          4 * η / (T (hi - 1) - T lo - 2 * η) := by
  have hNR : (0 : ℝ) < N := by exact_mod_cast hN
  have hpi := Real.pi_pos
  have hmono := hT.mono
  have hlenN := hT.len
  have hη0 : 0 < η := hη ▸ by positivity
  have hlt : lo < hi - 1 := by
    by_contra h
    have e : hi - 1 = lo := by omega
    rw [e, sub_self] at hS
    linarith
  obtain ⟨mn, mx, ⟨hmn, _⟩, ⟨hmx, hmx'⟩, h1, h2⟩ := hk
  have hmnmx := hmx' mn hmn
  have he : 0 ≤ rint (clipPercent * ((mx - mn : ℤ) : ℝ)) := by
    have hx : 0 ≤ clipPercent * ((mx - mn : ℤ) : ℝ) := mul_nonneg hclip (by exact_mod_cast (by omega : 0 ≤ mx - mn))
    have := abs_sub_rint_le (clipPercent * ((mx - mn : ℤ) : ℝ))
    rw [abs_le] at this
    have h3 : (-1 : ℝ) < (rint (clipPercent * ((mx - mn : ℤ) : ℝ)) : ℝ) := by linarith [this.2]
    have h4 : -1 < rint (clipPercent * ((mx - mn : ℤ) : ℝ)) := by exact_mod_cast h3
    omega
  have hlo : mn ≤ lo := by omega
  have hhi : hi ≤ mx := by omega
  have hrange : ∀ c, lo ≤ c → c < hi → |T c - D| ≤ A + ρ := by
    intro c hc1 hc2
    obtain ⟨n1, hl1, hn1⟩ := List.mem_iff_getElem.mp hmn
    obtain ⟨n2, hl2, hn2⟩ := List.mem_iff_getElem.mp hmx
    have a1 : sineAt A ((b : ℝ) / N) φ D n1 ≤ T c + ρ := by
      by_contra hcon
      have := hT.above n1 (hlenN ▸ hl1) c hc1 hc2 (not_le.mp hcon)
      rw [List.getD_eq_getElem _ _ hl1, hn1] at this
      omega
    have a2 : T c - ρ ≤ sineAt A ((b : ℝ) / N) φ D n2 := by
      by_contra hcon
      have := hT.below n2 (hlenN ▸ hl2) c hc1 hc2 (not_le.mp hcon)
      rw [List.getD_eq_getElem _ _ hl2, hn2] at this
      omega
    unfold sineAt at a1 a2
    have b1 := mul_le_mul_of_nonneg_left (Real.neg_one_le_cos (2 * Real.pi * ((b : ℝ) / N) * n1 + φ)) hA.le
    have b2 := mul_le_mul_of_nonneg_left (Real.cos_le_one (2 * Real.pi * ((b : ℝ) / N) * n2 + φ)) hA.le
    rw [abs_le]
    constructor <;> linarith
  have hlev : ∀ c, lo ≤ c → c < hi → |sineLevel zs c - (T c - D) / A| ≤ Real.pi / N + ρ / A :=
    fun c hc1 hc2 => level_close zs N b hlenN hN hcop A φ D hA c (T c) ρ (fun n hn => hT.below n hn c hc1 hc2) (fun n hn => hT.above n hn c hc1 hc2) (hrange c hc1 hc2)
  have hηA : Real.pi / N + ρ / A = η / A := by rw [← hη]; field_simp
  have hdiff : ∀ c d, lo ≤ c → c < hi → lo ≤ d → d < hi →
      |sineLevel zs c - sineLevel zs d - (T c - T d) / A| ≤ 2 * (η / A) := by
    intro c d hc1 hc2 hd1 hd2
    have a1 := abs_le.mp (hlev c hc1 hc2)
    have a2 := abs_le.mp (hlev d hd1 hd2)
    rw [hηA] at a1 a2
    have e : (T c - T d) / A = (T c - D) / A - (T d - D) / A := by ring
    rw [e, abs_le]
    constructor <;> linarith [a1.1, a1.2, a2.1, a2.2]
  have hSA : 2 * (η / A) < (T (hi - 1) - T lo) / A := by
    rw [← mul_div_assoc]
    exact div_lt_div_of_pos_right hS hA
  have htot := hdiff (hi - 1) lo (by omega) (by omega) le_rfl (by omega)
  refine ⟨by omega, ?_, hlev, ?_⟩
  · by_contra hno
    have heq : atMost zs (hi - 1) = atMost zs lo := by
      unfold atMost
      apply List.countP_congr
      intro z hz
      simp only [decide_eq_true_eq]
      constructor
      · intro h
        by_contra h'
        exact hno ⟨z, hz, by omega, by omega⟩
      · intro h
        omega
    have : sineLevel zs (hi - 1) = sineLevel zs lo := by unfold sineLevel; rw [heq]
    rw [this, sub_self, zero_sub, abs_neg] at htot
    have := (abs_le.mp htot).2
    linarith
  · intro c d hd hdc hc
    have h := share_close _ ((T c - T d) / A) _ ((T (hi - 1) - T lo) / A) (η / A) (by positivity) (hdiff c d (by omega) hc hd (by omega)) htot hSA
      (div_nonneg (sub_nonneg.mpr (hmono d c hd hdc hc)) hA.le)
      (div_le_div_of_nonneg_right (by have := hmono c (hi - 1) (by omega) (by omega) (by omega); have := hmono lo d le_rfl hd (by omega); linarith) hA.le)
    have e1 : (T c - T d) / A / ((T (hi - 1) - T lo) / A) = (T c - T d) / (T (hi - 1) - T lo) := div_div_div_cancel_right₀ hA.ne' _ _
    have e2 : 4 * (η / A) / ((T (hi - 1) - T lo) / A - 2 * (η / A)) = 4 * η / (T (hi - 1) - T lo - 2 * η) := by
      rw [← mul_div_assoc, ← mul_div_assoc, ← sub_div, div_div_div_cancel_right₀ hA.ne']
    rw [e1, e2] at h
    exact h

/-- **C150 (levels).** The transition level the histogram gives for a code is the true one up to `π A / N` and the input-referred noise `ρ`, for every converter, every
phase and every number of periods coprime to the record length, as long as the level is in reach of the sine. -/
theorem C150_levels (zs : List ℤ) (T : ℤ → ℝ) (lo hi : ℤ) (N b : ℕ) (hN : 0 < N) (hcop : Nat.Coprime b N) (A φ D ρ : ℝ) (hA : 0 < A) (hT : SineCodes zs T lo hi N b A φ D ρ)
    (c : ℤ) (h1 : lo ≤ c) (h2 : c < hi) (hc : |T c - D| ≤ A + ρ) : |(A * sineLevel zs c + D) - T c| ≤ Real.pi * A / N + ρ := by
  have h := level_close zs N b hT.len hN hcop A φ D hA c (T c) ρ (fun n hn => hT.below n hn c h1 h2) (fun n hn => hT.above n hn c h1 h2) hc
  have e : (A * sineLevel zs c + D) - T c = A * (sineLevel zs c - (T c - D) / A) := by field_simp; ring
  rw [e, abs_mul, abs_of_pos hA]
  calc A * |sineLevel zs c - (T c - D) / A| ≤ A * (Real.pi / N + ρ / A) := mul_le_mul_of_nonneg_left h hA.le
    _ = Real.pi * A / N + ρ := by field_simp

/-- **C150 (DNL).** With `η = π A / N + ρ`, `ρ` bounding the input-referred noise, and `S` the distance between the outermost levels kept, every DNL value is the true one, clipped at -1, up to
`4 n η / (S - 2 η)` for `n` kept codes. -/
theorem C150_dnl (zs : List ℤ) (T : ℤ → ℝ) (N b : ℕ) (hN : 0 < N) (hcop : Nat.Coprime b N) (A φ D ρ clipPercent η : ℝ) (hA : 0 < A) (hρ : 0 ≤ ρ) (hclip : 0 ≤ clipPercent)
    (numBits : Option ℕ) (fullScale : Option ℝ) (lo hi : ℤ) (hT : SineCodes zs T lo hi N b A φ D ρ) (hlt : lo < hi) (hk : KeptRange zs clipPercent lo hi) (hη : Real.pi * A / N + ρ = η)
    (hS : 2 * η < T (hi - 1) - T lo) :
    ∃ r, inlFromSine (zs.map fun (z : ℤ) => (z : ℝ)) false numBits fullScale clipPercent = .ok r ∧ r.dnl.length = (hi - lo - 1).toNat ∧
      ∀ i < r.dnl.length, |r.dnl.getD i 0 - max (trueDnl T lo hi i) (-1)| ≤ ((hi : ℝ) - lo + 1) * (4 * η / (T (hi - 1) - T lo - 2 * η)) := by
  obtain ⟨hlh, hin, _, hsh⟩ := setup zs T N b hN hcop A φ D ρ clipPercent η hA hρ hclip lo hi hT hlt hk hη hS
  obtain ⟨r, hr, hl, hv⟩ := C48_sine_value _ numBits fullScale clipPercent lo hi hk hin
  refine ⟨r, hr, hl, fun i hi' => ?_⟩
  rw [hv i hi']
  refine (abs_max_sub_max_le_abs _ _ _).trans ?_
  rw [hl] at hi'
  have hp : (2 : ℝ) ≤ (hi : ℝ) - lo := by
    have : ((2 : ℤ) : ℝ) ≤ ((hi - lo : ℤ) : ℝ) := by exact_mod_cast (by omega : 2 ≤ hi - lo)
    push_cast at this
    exact this
  have hη0 : 0 < η := by
    rw [← hη]
    have : (0 : ℝ) < N := by exact_mod_cast hN
    have := Real.pi_pos
    positivity
  have hS0 : T (hi - 1) - T lo ≠ 0 := by linarith
  have hm : (hi : ℝ) - lo - 1 ≠ 0 := by linarith
  have e : trueDnl T lo hi i = ((hi : ℝ) - lo + 1) * ((T (lo + i + 1) - T (lo + i)) / (T (hi - 1) - T lo) - 1 / ((hi : ℝ) - lo - 1)) := by
    unfold trueDnl
    field_simp
  rw [e, ← mul_sub, abs_mul, abs_of_pos (by linarith), sub_sub_sub_cancel_right]
  exact mul_le_mul_of_nonneg_left (hsh _ _ (by omega) (by omega) (by omega)) (by linarith)

/-- **C150 (INL).** If no code is so narrow that its DNL is clipped, every INL value is the true one up to the same bound: the errors of the levels do not add up. -/
theorem C150_inl (zs : List ℤ) (T : ℤ → ℝ) (N b : ℕ) (hN : 0 < N) (hcop : Nat.Coprime b N) (A φ D ρ clipPercent η w : ℝ) (hA : 0 < A) (hρ : 0 ≤ ρ) (hclip : 0 ≤ clipPercent)
    (numBits : Option ℕ) (fullScale : Option ℝ) (lo hi : ℤ) (hT : SineCodes zs T lo hi N b A φ D ρ) (hlt : lo < hi) (hk : KeptRange zs clipPercent lo hi) (hη : Real.pi * A / N + ρ = η)
    (hS : 2 * η < T (hi - 1) - T lo) (hw : ∀ c, lo < c → c < hi → w ≤ T c - T (c - 1))
    (hwide : 2 / (((hi : ℝ) - lo + 1) * ((hi : ℝ) - lo - 1)) + 4 * η / (T (hi - 1) - T lo - 2 * η) ≤ w / (T (hi - 1) - T lo)) :
    ∃ r, inlFromSine (zs.map fun (z : ℤ) => (z : ℝ)) false numBits fullScale clipPercent = .ok r ∧ r.inl.length = (hi - lo - 1).toNat ∧
      ∀ i < r.inl.length, |r.inl.getD i 0 - trueInl T lo hi i| ≤ ((hi : ℝ) - lo + 1) * (4 * η / (T (hi - 1) - T lo - 2 * η)) := by
  obtain ⟨hlh, hin, _, hsh⟩ := setup zs T N b hN hcop A φ D ρ clipPercent η hA hρ hclip lo hi hT hlt hk hη hS
  obtain ⟨r, hr, hl, hv⟩ := C48_sine_value _ numBits fullScale clipPercent lo hi hk hin
  have hne : zs ≠ [] := by
    obtain ⟨z, hz, _⟩ := hin
    exact List.ne_nil_of_mem hz
  obtain ⟨r', lo', hi', _, hr', _, hil, _, hb⟩ := C48_sine_bookkeeping zs hne numBits fullScale clipPercent
  obtain rfl : r = r' := by
    rw [hr] at hr'
    exact Except.ok.inj hr'
  have hp : (2 : ℝ) ≤ (hi : ℝ) - lo := by
    have : ((2 : ℤ) : ℝ) ≤ ((hi - lo : ℤ) : ℝ) := by exact_mod_cast (by omega : 2 ≤ hi - lo)
    push_cast at this
    exact this
  have hη0 : 0 < η := by
    rw [← hη]
    have : (0 : ℝ) < N := by exact_mod_cast hN
    have := Real.pi_pos
    positivity
  have hS0 : 0 < T (hi - 1) - T lo := by linarith
  have hm : (hi : ℝ) - lo - 1 ≠ 0 := by linarith
  obtain ⟨L, hL⟩ : ∃ L : ℤ → ℝ, L = sineLevel zs := ⟨_, rfl⟩
  rw [← hL] at hv hsh
  have hunclipped : ∀ i < r.dnl.length, r.dnl.getD i 0 = ((hi : ℝ) - lo + 1) * ((L (lo + i + 1) - L (lo + i)) / (L (hi - 1) - L lo) - 1 / ((hi : ℝ) - lo - 1)) := by
    intro i hi'
    rw [hv i hi']
    apply max_eq_left
    rw [hl] at hi'
    have h1 := (abs_le.mp (hsh (lo + i + 1) (lo + i) (by omega) (by omega) (by omega))).1
    have h2 := hw (lo + i + 1) (by omega) (by omega)
    rw [add_sub_cancel_right] at h2
    have h3 := div_le_div_of_nonneg_right h2 hS0.le
    have h4 : 2 / (((hi : ℝ) - lo + 1) * ((hi : ℝ) - lo - 1)) ≤ (L (lo + i + 1) - L (lo + i)) / (L (hi - 1) - L lo) := by linarith
    have h5 : 2 / (((hi : ℝ) - lo + 1) * ((hi : ℝ) - lo - 1)) - 1 / ((hi : ℝ) - lo - 1) = -1 / ((hi : ℝ) - lo + 1) := by
      have : (hi : ℝ) - lo + 1 ≠ 0 := by linarith
      field_simp
      ring
    have h6 : -1 / ((hi : ℝ) - lo + 1) ≤ (L (lo + i + 1) - L (lo + i)) / (L (hi - 1) - L lo) - 1 / ((hi : ℝ) - lo - 1) := by rw [← h5]; linarith
    rw [div_le_iff₀ (by linarith)] at h6
    linarith
  refine ⟨r, hr, by rw [hil, hl], fun i hi' => ?_⟩
  rw [hil] at hi'
  rw [(hb i hi').2.2]
  have hsum : ∀ k ≤ r.dnl.length, ∑ j ∈ range k, r.dnl.getD j 0 = ((hi : ℝ) - lo + 1) * ((L (lo + k) - L lo) / (L (hi - 1) - L lo) - k / ((hi : ℝ) - lo - 1)) := by
    intro k
    induction k with
    | zero => intro _; simp
    | succ k ih =>
      intro hk'
      rw [sum_range_succ, ih (by omega), hunclipped k (by omega)]
      push_cast
      rw [← add_assoc]
      ring
  rw [hsum (i + 1) (by omega)]
  rw [hl] at hi'
  have e : trueInl T lo hi i = ((hi : ℝ) - lo + 1) * ((T (lo + i + 1) - T lo) / (T (hi - 1) - T lo) - ((i + 1 : ℕ) : ℝ) / ((hi : ℝ) - lo - 1)) := by
    unfold trueInl
    have := hS0.ne'
    push_cast
    field_simp
  rw [e, ← mul_sub, abs_mul, abs_of_pos (by linarith), sub_sub_sub_cancel_right]
  push_cast
  rw [← add_assoc]
  exact mul_le_mul_of_nonneg_left (hsh _ _ (by omega) (by omega) (by omega)) (by linarith)

/-- **C150 (ideal converter).** Transition levels `Δ` apart, at least 5 codes kept and `η = π A / N + ρ ≤ Δ / 8`: every reported DNL and INL value is at most
`8 η / Δ` in magnitude. For a sine over the whole range of `B` bits without noise this is `4 π 2^B / N` LSB. -/
theorem C150_ideal (zs : List ℤ) (T₀ Δ : ℝ) (hΔ : 0 < Δ) (N b : ℕ) (hN : 0 < N) (hcop : Nat.Coprime b N) (A φ D ρ clipPercent : ℝ)
    (hA : 0 < A) (hρ : 0 ≤ ρ) (hclip : 0 ≤ clipPercent) (numBits : Option ℕ) (fullScale : Option ℝ) (lo hi : ℤ) (hT : SineCodes zs (fun c => T₀ + Δ * c) lo hi N b A φ D ρ) (hk : KeptRange zs clipPercent lo hi)
    (hlen : lo + 4 ≤ hi) (hfine : 8 * (Real.pi * A / N + ρ) ≤ Δ) :
    ∃ r, inlFromSine (zs.map fun (z : ℤ) => (z : ℝ)) false numBits fullScale clipPercent = .ok r ∧ r.dnl.length = (hi - lo - 1).toNat ∧
      r.inl.length = r.dnl.length ∧ ∀ i < r.dnl.length, |r.dnl.getD i 0| ≤ 8 * (Real.pi * A / N + ρ) / Δ ∧ |r.inl.getD i 0| ≤ 8 * (Real.pi * A / N + ρ) / Δ := by
  have hNR : (0 : ℝ) < N := by exact_mod_cast hN
  have hpi := Real.pi_pos
  obtain ⟨η, hη⟩ : ∃ η, Real.pi * A / N + ρ = η := ⟨_, rfl⟩
  have hη0 : 0 < η := hη ▸ by positivity
  have hηΔ : 8 * η ≤ Δ := hη ▸ hfine
  obtain ⟨m, hm⟩ : ∃ m : ℝ, m = (hi : ℝ) - lo - 1 := ⟨_, rfl⟩
  have hm2 : 3 ≤ m := by
    have : ((4 : ℤ) : ℝ) ≤ ((hi - lo : ℤ) : ℝ) := by exact_mod_cast (by omega : 4 ≤ hi - lo)
    push_cast at this
    linarith
  have hSe : (T₀ + Δ * ((hi - 1 : ℤ) : ℝ)) - (T₀ + Δ * (lo : ℝ)) = Δ * m := by push_cast; rw [hm]; ring
  have hn : (hi : ℝ) - lo + 1 = m + 2 := by rw [hm]; ring
  have hS : 2 * η < (T₀ + Δ * ((hi - 1 : ℤ) : ℝ)) - (T₀ + Δ * (lo : ℝ)) := by
    rw [hSe]
    have := mul_le_mul_of_nonneg_left hm2 hΔ.le
    linarith
  have hden : 11 / 12 * (Δ * m) ≤ Δ * m - 2 * η := by
    have := mul_le_mul_of_nonneg_left hm2 hΔ.le
    linarith
  have hΔm : 0 < Δ * m := by positivity
  have hbound : (m + 2) * (4 * η / (Δ * m - 2 * η)) ≤ 8 * (Real.pi * A / N + ρ) / Δ := by
    have h1 : 4 * η / (Δ * m - 2 * η) ≤ 4 * η / (11 / 12 * (Δ * m)) := div_le_div_of_nonneg_left (by positivity) (by positivity) hden
    have h2 : 8 * (Real.pi * A / N + ρ) / Δ = 8 * η / Δ := by rw [← hη]
    rw [h2]
    refine (mul_le_mul_of_nonneg_left h1 (by linarith)).trans ?_
    rw [← mul_div_assoc, div_le_div_iff₀ (by positivity) hΔ]
    have h3 : 0 ≤ η * Δ * (m - 3) := mul_nonneg (by positivity) (by linarith)
    have h4 : 0 < η * Δ := by positivity
    nlinarith
  have hwide : 2 / (((hi : ℝ) - lo + 1) * ((hi : ℝ) - lo - 1)) + 4 * η / ((T₀ + Δ * ((hi - 1 : ℤ) : ℝ)) - (T₀ + Δ * (lo : ℝ)) - 2 * η) ≤
      Δ / ((T₀ + Δ * ((hi - 1 : ℤ) : ℝ)) - (T₀ + Δ * (lo : ℝ))) := by
    rw [hSe, hn, ← hm]
    have h1 : 4 * η / (Δ * m - 2 * η) ≤ 4 * η / (11 / 12 * (Δ * m)) := div_le_div_of_nonneg_left (by positivity) (by positivity) hden
    have h2 : 4 * η / (11 / 12 * (Δ * m)) ≤ 6 / 11 / m := by
      rw [div_le_div_iff₀ (by positivity) (by linarith)]
      have := mul_le_mul_of_nonneg_right hηΔ (by linarith : (0 : ℝ) ≤ m)
      linarith
    have h3 : 2 / ((m + 2) * m) ≤ 2 / 5 / m := by
      rw [div_le_div_iff₀ (by positivity) (by linarith)]
      have : 0 ≤ m * (m - 3) := mul_nonneg (by linarith) (by linarith)
      linarith
    have h4 : Δ / (Δ * m) = 1 / m := by field_simp
    have h5 : 2 / 5 / m + 6 / 11 / m ≤ 1 / m := by
      rw [← add_div]
      exact div_le_div_of_nonneg_right (by norm_num) (by linarith)
    rw [h4]
    linarith
  obtain ⟨r, hr, hl, hd⟩ := C150_dnl zs _ N b hN hcop A φ D ρ clipPercent η hA hρ hclip numBits fullScale lo hi hT (by omega) hk hη hS
  obtain ⟨r', hr', hl', hd'⟩ := C150_inl zs _ N b hN hcop A φ D ρ clipPercent η Δ hA hρ hclip numBits fullScale lo hi hT (by omega) hk hη hS (fun c _ _ => by push_cast; linarith) hwide
  obtain rfl : r = r' := by
    rw [hr] at hr'
    exact Except.ok.inj hr'
  refine ⟨r, hr, hl, by rw [hl, hl'], fun i hi' => ⟨?_, ?_⟩⟩
  · have h := hd i hi'
    have e : trueDnl (fun c : ℤ => T₀ + Δ * (c : ℝ)) lo hi i = 0 := by
      unfold trueDnl
      simp only
      rw [hSe, ← hm, mul_div_assoc, div_self (by linarith)]
      push_cast
      have : T₀ + Δ * ((lo : ℝ) + i + 1) - (T₀ + Δ * ((lo : ℝ) + i)) = Δ * 1 := by ring
      rw [this, div_self (by linarith), sub_self, mul_zero]
    rw [e, max_eq_left (by norm_num), sub_zero] at h
    rw [hSe, hn] at h
    exact h.trans hbound
  · have h := hd' i (by rw [hl', ← hl]; exact hi')
    have e : trueInl (fun c : ℤ => T₀ + Δ * (c : ℝ)) lo hi i = 0 := by
      unfold trueInl
      simp only
      rw [hSe, ← hm, mul_div_assoc, div_self (by linarith)]
      push_cast
      have : T₀ + Δ * ((lo : ℝ) + i + 1) - (T₀ + Δ * (lo : ℝ)) = Δ * (i + 1) := by ring
      rw [this, mul_one, mul_div_cancel_left₀ _ hΔ.ne', sub_self, mul_zero]
    rw [e, sub_zero] at h
    rw [hSe, hn] at h
    exact h.trans hbound

/-! ## Concrete cases -/

/-- The floor converter of step 1 has the transition levels `1 + c`. -/
example (lo hi : ℤ) : Transfer (fun v => ⌊v⌋) (fun c => (1 : ℝ) + 1 * c) lo hi :=
  ⟨fun c _ _ v h => by
    have : ⌊v⌋ < c + 1 := Int.floor_lt.mpr (by push_cast; linarith)
    show ⌊v⌋ ≤ c
    omega, fun c _ _ v h => by
    have : c + 1 ≤ ⌊v⌋ := Int.le_floor.mpr (by push_cast; linarith)
    show c < ⌊v⌋
    omega⟩

/-- 1009 samples of 101 periods, every second one converted with an error of 1/100. -/
private noncomputable def noisy : List ℤ :=
  (List.range 1009).map fun n => ⌊sineAt 8 (((101 : ℕ) : ℝ) / (1009 : ℕ)) 0 8 n + (if n % 2 = 1 then 1 / 100 else 0)⌋

private theorem noise_range (n : ℕ) : (0 : ℝ) ≤ (if n % 2 = 1 then 1 / 100 else 0) ∧ (if n % 2 = 1 then 1 / 100 else 0 : ℝ) ≤ 1 / 100 := by
  split_ifs <;> norm_num

private theorem noisy_codes : SineCodes noisy (fun c => (1 : ℝ) + 1 * c) 0 16 1009 101 8 0 8 (1 / 100) := by
  have e : ∀ n < 1009, noisy.getD n 0 = ⌊sineAt 8 (((101 : ℕ) : ℝ) / (1009 : ℕ)) 0 8 n + (if n % 2 = 1 then 1 / 100 else 0)⌋ := by
    intro n hn
    rw [List.getD_eq_getElem _ _ (by simpa [noisy] using hn)]
    simp [noisy]
  refine ⟨by simp [noisy], fun c d _ h _ => ?_, fun n hn c _ _ hv => ?_, fun n hn c _ _ hv => ?_⟩
  · have : (c : ℝ) ≤ d := by exact_mod_cast h
    linarith
  · rw [e n hn]
    have : ⌊sineAt 8 (((101 : ℕ) : ℝ) / (1009 : ℕ)) 0 8 n + (if n % 2 = 1 then 1 / 100 else 0)⌋ < c + 1 :=
      Int.floor_lt.mpr (by push_cast at hv ⊢; linarith [(noise_range n).2])
    omega
  · rw [e n hn]
    have : c + 1 ≤ ⌊sineAt 8 (((101 : ℕ) : ℝ) / (1009 : ℕ)) 0 8 n + (if n % 2 = 1 then 1 / 100 else 0)⌋ :=
      Int.le_floor.mpr (by push_cast at hv ⊢; linarith [(noise_range n).1])
    omega

/-- The codes seen: 0 to 16. -/
private theorem noisy_kept : KeptRange noisy 0 0 16 := by
  have hpi := Real.pi_lt_d2
  have hp0 := Real.pi_pos
  refine ⟨0, 16, ⟨?_, ?_⟩, ⟨?_, ?_⟩, ?_, ?_⟩
  · refine List.mem_map.mpr ⟨5, by simp, ?_⟩
    have hn := noise_range 5
    unfold sineAt
    have e : 2 * Real.pi * (((101 : ℕ) : ℝ) / (1009 : ℕ)) * (5 : ℕ) + 0 = Real.pi / 1009 + Real.pi := by push_cast; ring
    rw [e, Real.cos_add_pi, Int.floor_eq_iff]
    have h1 := Real.one_sub_sq_div_two_le_cos (x := Real.pi / 1009)
    have h2 := Real.cos_le_one (Real.pi / 1009)
    have h3 : (Real.pi / 1009) ^ 2 ≤ (1 / 100) ^ 2 := pow_le_pow_left₀ (by positivity) (by rw [div_le_div_iff₀ (by norm_num) (by norm_num)]; linarith) 2
    norm_num at h3
    constructor
    · push_cast; linarith
    · push_cast; linarith
  · intro z hz
    obtain ⟨n, _, rfl⟩ := List.mem_map.mp hz
    have hn := noise_range n
    apply Int.floor_nonneg.mpr
    unfold sineAt
    have := Real.neg_one_le_cos (2 * Real.pi * (((101 : ℕ) : ℝ) / (1009 : ℕ)) * n + 0)
    linarith
  · refine List.mem_map.mpr ⟨0, by simp, ?_⟩
    unfold sineAt
    rw [Nat.cast_zero, mul_zero, zero_add, Real.cos_zero, Int.floor_eq_iff]
    norm_num
  · intro z hz
    obtain ⟨n, _, rfl⟩ := List.mem_map.mp hz
    have hn := noise_range n
    have := Real.cos_le_one (2 * Real.pi * (((101 : ℕ) : ℝ) / (1009 : ℕ)) * n + 0)
    have h : ⌊sineAt 8 (((101 : ℕ) : ℝ) / (1009 : ℕ)) 0 8 n + (if n % 2 = 1 then 1 / 100 else 0)⌋ < 17 := by
      apply Int.floor_lt.mpr
      unfold sineAt
      push_cast at this ⊢
      linarith
    show ⌊sineAt 8 (((101 : ℕ) : ℝ) / (1009 : ℕ)) 0 8 n + (if n % 2 = 1 then 1 / 100 else 0)⌋ ≤ 16
    omega
  · have : rint (0 : ℝ) = 0 := by simpa using rint_intCast (K := ℝ) 0
    rw [zero_mul, this]
    rfl
  · have : rint (0 : ℝ) = 0 := by simpa using rint_intCast (K := ℝ) 0
    rw [zero_mul, this]
    rfl

/-- 17 codes: every DNL and INL value is below 0.3. -/
example : ∃ r, inlFromSine (noisy.map fun (z : ℤ) => (z : ℝ)) false none none 0 = .ok r ∧ r.dnl.length = 15 ∧
      ∀ i < r.dnl.length, |r.dnl.getD i 0| ≤ 3 / 10 ∧ |r.inl.getD i 0| ≤ 3 / 10 := by
  have hpi := Real.pi_lt_d2
  have hp0 := Real.pi_pos
  obtain ⟨r, hr, hl, _, hb⟩ := C150_ideal noisy 1 1 one_pos 1009 101 (by norm_num) (by norm_num) 8 0 8 (1 / 100) 0 (by norm_num) (by norm_num) le_rfl none none 0 16
    noisy_codes noisy_kept (by norm_num) (by norm_num; linarith)
  have hle : 8 * (Real.pi * 8 / (1009 : ℕ) + 1 / 100) / 1 ≤ (3 / 10 : ℝ) := by
    norm_num
    linarith
  exact ⟨r, hr, hl, fun i hi' => ⟨(hb i hi').1.trans hle, (hb i hi').2.trans hle⟩⟩

end Verif
