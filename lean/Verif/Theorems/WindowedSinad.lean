import Verif.Proofs.WindowedSinad
import Verif.Theorems.Sinad

/-!
# C96: the SNDR and ENOB of windowed, averaged records
-/

namespace Verif

open Model Finset Spec

/-! ## Specification -/

/-- How many times the error bound the amplitude must be so that each window still shows the sine as the strongest line. -/
noncomputable def windowMargin : String → ℝ
  | "boxcar" | "rectangular" => 6
  | "hamming" => 13
  | "blackman" => 20
  | "blackmanharris" => 27
  | "flattop" => 350
  | _ => 15

/-- Every run is a sine of `b` periods per record, of amplitude `A` and of any phase and offset, up to errors of at most `σ`. -/
def NoisyRuns (data : List (List ℝ)) (N b : ℕ) (A σ : ℝ) : Prop :=
  ∀ row ∈ data, row.length = N ∧ ∃ φ D, ∀ n < N, |row.getD n 0 - sineAt A ((b : ℝ) / N) φ D n| ≤ σ

/-- A power-averaging call without cutoff and assumed level, whose side bins, if given, cover the window's main lobe. -/
structure AveragingCall (a : SpectrumArgs) : Prop where
  kaiser : a.win ≠ "kaiser"
  chebwin : a.win ≠ "chebwin"
  side : ∀ s, a.sideBin = some s → defaultSideBin a.win ≤ s
  coh : a.coherent = false
  cut : a.cutoff = 0
  ass : a.assumed = none
  osr : 0 < a.osr
  harm : 1 ≤ a.maxHarmonic
  nf0 : 0 ≤ a.nfMethod
  nf4 : a.nfMethod ≤ 4

/-! ## Windows -/

private theorem cosine_gap (a : List ℝ) (m N b : ℕ) (hlen : a.length = m + 1) (h0 : 0 < a.getD 0 0) (hm : 2 * m < b) (hb : 2 * (b + m) < N)
    (c Q g : ℝ) (hc : ∀ j, 1 ≤ j → j ≤ m → |a.getD j 0| ≤ c) (hc0 : 0 ≤ c) (hca : c < 2 * a.getD 0 0) (hg0 : 0 ≤ g)
    (hQ : ∑ i ∈ range (2 * m + 1), (if i = m then a.getD 0 0 else |a.getD ((i : ℤ) - m).natAbs 0| / 2) ^ 2 ≤ Q ^ 2) (hQ0 : 0 ≤ Q)
    (hg : 6 * Q ≤ g * (a.getD 0 0 - c / 2)) (k : ℤ) (hk : ¬ (N : ℤ) ∣ k) :
    6 * Real.sqrt (N * ∑ n ∈ range N, generalCosine a N n ^ 2)
      ≤ g * (‖dft N (fun n => ((generalCosine a N n : ℝ) : ℂ)) 0‖ - ‖dft N (fun n => ((generalCosine a N n : ℝ) : ℂ)) k‖) := by
  have hN : 1 < N := by omega
  have hmN : 2 * m < N := by omega
  have hNR : (0 : ℝ) < N := by exact_mod_cast (by omega : 0 < N)
  have hlobe : LobeWindow (fun n => generalCosine a N n) N m := lobe_generalCosine a m N hN hlen hmN h0 fun j h1 h2 => (hc j h1 h2).trans_lt hca
  have hW0 : ‖dft N (fun n => ((generalCosine a N n : ℝ) : ℂ)) 0‖ = a.getD 0 0 * N := by
    rw [dft_generalCosine_zero a m N hN hlen hmN, Complex.norm_real, Real.norm_eq_abs, abs_of_pos (mul_pos h0 hNR)]
  have hWk : ‖dft N (fun n => ((generalCosine a N n : ℝ) : ℂ)) k‖ ≤ c / 2 * N := by
    by_cases hex : ∃ j : ℤ, |j| ≤ m ∧ (N : ℤ) ∣ k - j
    · obtain ⟨j, hj, hd⟩ := hex
      rw [abs_le] at hj
      have hj0 : j ≠ 0 := by
        rintro rfl
        exact hk (by simpa using hd)
      refine (norm_generalCosine a m N hN hlen hmN j.natAbs (by omega) (by omega) k ?_).trans ?_
      · rcases le_total 0 j with h | h
        · left
          rwa [Int.natAbs_of_nonneg h]
        · right
          rwa [Int.ofNat_natAbs_of_nonpos h, ← sub_eq_add_neg]
      · apply mul_le_mul_of_nonneg_right _ hNR.le
        have := hc j.natAbs (by omega) (by omega)
        linarith
    · push Not at hex
      have := hlobe.band k hex
      rw [this, norm_zero]
      positivity
  have hS : N * ∑ n ∈ range N, generalCosine a N n ^ 2 ≤ (Q * N) ^ 2 := by
    rw [← lobe_sum N b m (fun n => generalCosine a N n) hlobe (by omega) hb, sum_Ico_eq_sum_range, show b + m + 1 - (b - m) = 2 * m + 1 by omega, mul_pow]
    refine le_trans ?_ (mul_le_mul_of_nonneg_right hQ (sq_nonneg _))
    rw [sum_mul]
    refine sum_le_sum fun i hi => ?_
    rw [mem_range] at hi
    rw [← mul_pow]
    apply pow_le_pow_left₀ (norm_nonneg _)
    have hz : (((b - m + i : ℕ) : ℤ)) - b = (i : ℤ) - m := by omega
    rw [hz]
    split_ifs with him
    · rw [him, sub_self, hW0]
    · refine norm_generalCosine a m N hN hlen hmN ((i : ℤ) - m).natAbs (by omega) (by omega) _ ?_
      rcases le_total 0 ((i : ℤ) - m) with h | h
      · left
        rw [Int.natAbs_of_nonneg h, sub_self]
        exact dvd_zero _
      · right
        rw [Int.ofNat_natAbs_of_nonpos h]
        simp
  have hsq : Real.sqrt (N * ∑ n ∈ range N, generalCosine a N n ^ 2) ≤ Q * N := (Real.sqrt_le_left (by positivity)).mpr hS
  rw [hW0]
  calc 6 * Real.sqrt (N * ∑ n ∈ range N, generalCosine a N n ^ 2) ≤ 6 * Q * N := by linarith
    _ ≤ g * (a.getD 0 0 - c / 2) * N := mul_le_mul_of_nonneg_right hg hNR.le
    _ = g * (a.getD 0 0 * N - c / 2 * N) := by ring
    _ ≤ _ := mul_le_mul_of_nonneg_left (by linarith) hg0

/-- The window margins suffice. -/
private theorem window_gap (lib : WinLib) (name : String) (h1 : name ≠ "kaiser") (h2 : name ≠ "chebwin") (N b : ℕ)
    (hm : 2 * defaultSideBin name < b) (hb : 2 * (b + defaultSideBin name) < N) (k : ℤ) (hk : ¬ (N : ℤ) ∣ k) :
    6 ≤ windowMargin name ∧ 6 * Real.sqrt (N * ∑ n ∈ range N, windowVector lib name N n ^ 2)
      ≤ windowMargin name * (‖dft N (fun n => ((windowVector lib name N n : ℝ) : ℂ)) 0‖ - ‖dft N (fun n => ((windowVector lib name N n : ℝ) : ℂ)) k‖) := by
  by_cases hr : name = "boxcar" ∨ name = "rectangular"
  · have hw : windowVector lib name N = fun n => generalCosine [1] N n := by
      funext n
      unfold windowVector generalCosine
      rw [if_pos hr, if_neg (by omega)]
      simp
    have hd : defaultSideBin name = 0 := by rcases hr with rfl | rfl <;> rfl
    have hg : windowMargin name = 6 := by rcases hr with rfl | rfl <;> rfl
    rw [hw, hg]
    rw [hd] at hm hb
    exact ⟨le_rfl, cosine_gap [1] 0 N b rfl (by simp) hm hb 0 1 6 (fun j h1 h2 => by omega) le_rfl (by norm_num) (by norm_num) (by simp) (by norm_num)
      (by norm_num) k hk⟩
  · have hw : windowVector lib name N = fun n => generalCosine (cosineCoeffs name) N n := by
      funext n
      unfold windowVector
      rw [if_neg hr, if_neg h1, if_neg h2]
    rw [hw]
    push Not at hr
    by_cases a1 : name = "hamming"
    · subst a1
      exact ⟨by norm_num [windowMargin], cosine_gap _ 1 N b rfl (by norm_num [cosineCoeffs]) hm hb (46 / 100) (631 / 1000) _
        (fun j h1 h2 => by interval_cases j; norm_num [cosineCoeffs]) (by norm_num) (by norm_num [cosineCoeffs]) (by norm_num [windowMargin])
        (by norm_num [sum_range_succ, cosineCoeffs]) (by norm_num) (by norm_num [windowMargin, cosineCoeffs]) k hk⟩
    by_cases a2 : name = "blackman"
    · subst a2
      exact ⟨by norm_num [windowMargin], cosine_gap _ 2 N b rfl (by norm_num [cosineCoeffs]) hm hb (50 / 100) (552 / 1000) _
        (fun j h1 h2 => by interval_cases j <;> norm_num [cosineCoeffs]) (by norm_num) (by norm_num [cosineCoeffs]) (by norm_num [windowMargin])
        (by norm_num [sum_range_succ, cosineCoeffs]) (by norm_num) (by norm_num [windowMargin, cosineCoeffs]) k hk⟩
    by_cases a3 : name = "blackmanharris"
    · subst a3
      exact ⟨by norm_num [windowMargin], cosine_gap _ 3 N b rfl (by norm_num [cosineCoeffs]) hm hb (48829 / 100000) (509 / 1000) _
        (fun j h1 h2 => by interval_cases j <;> norm_num [cosineCoeffs]) (by norm_num) (by norm_num [cosineCoeffs]) (by norm_num [windowMargin])
        (by norm_num [sum_range_succ, cosineCoeffs]) (by norm_num) (by norm_num [windowMargin, cosineCoeffs]) k hk⟩
    by_cases a4 : name = "flattop"
    · subst a4
      exact ⟨by norm_num [windowMargin], cosine_gap _ 4 N b rfl (by norm_num [cosineCoeffs]) hm hb (41663158 / 100000000) (419 / 1000) _
        (fun j h1 h2 => by interval_cases j <;> norm_num [cosineCoeffs]) (by norm_num) (by norm_num [cosineCoeffs]) (by norm_num [windowMargin])
        (by norm_num [sum_range_succ, cosineCoeffs]) (by norm_num) (by norm_num [windowMargin, cosineCoeffs]) k hk⟩
    have hc : cosineCoeffs name = [1 / 2, 1 / 2] := by
      unfold cosineCoeffs
      split <;> first | rfl | contradiction
    have hs : defaultSideBin name = 1 := by
      unfold defaultSideBin
      split <;> first | rfl | (exfalso; first | exact hr.1 rfl | exact hr.2 rfl | contradiction)
    have hg : windowMargin name = 15 := by
      unfold windowMargin
      split <;> first | rfl | (exfalso; first | exact hr.1 rfl | exact hr.2 rfl | contradiction)
    rw [hc, hg]
    rw [hs] at hm hb
    exact ⟨by norm_num, cosine_gap _ 1 N b rfl (by norm_num) hm hb (1 / 2) (613 / 1000) _
      (fun j h1 h2 => by interval_cases j; norm_num) (by norm_num) (by norm_num) (by norm_num)
      (by norm_num [sum_range_succ]) (by norm_num) (by norm_num) k hk⟩

/-! ## Runs -/

/-- A prepared run: mean removed, in units of full scale. -/
noncomputable def preparedRun (V : ℝ) (row : List ℝ) (n : ℕ) : ℝ := (row.getD n 0 - row.sum / row.length) / V

private theorem prepared_getD (V : ℝ) (row : List ℝ) (n : ℕ) (hn : n < row.length) :
    ((removeDc row).map (· / V)).getD n 0 = preparedRun V row n := by
  unfold removeDc preparedRun
  rw [List.getD_eq_getElem?_getD, List.getElem?_map, List.getElem?_map, List.getD_eq_getElem?_getD, List.getElem?_eq_getElem hn]
  rfl

private theorem run_form (N b : ℕ) (hb : 0 < b) (hbN : 2 * b < N) (V A σ : ℝ) (hV : 0 < V) (row : List ℝ) (hl : row.length = N) (φ D : ℝ)
    (h : ∀ n < N, |row.getD n 0 - sineAt A ((b : ℝ) / N) φ D n| ≤ σ) :
    ∃ (c : ℝ) (f : ℕ → ℝ), |c| ≤ σ / V ∧ (∀ n < N, |f n| ≤ σ / V) ∧
      ∀ n < N, preparedRun V row n = A / V * Real.cos (2 * Real.pi * (b * n / N) + φ) + c + f n := by
  have hNR : (0 : ℝ) < N := by exact_mod_cast (by omega : 0 < N)
  set e : ℕ → ℝ := fun n => row.getD n 0 - sineAt A ((b : ℝ) / N) φ D n with he
  have hs : ∀ n, sineAt A ((b : ℝ) / N) φ D n = A * Real.cos (2 * Real.pi * (b * n / N) + φ) + D := by
    intro n
    unfold sineAt
    rw [show 2 * Real.pi * ((b : ℝ) / N) * n = 2 * Real.pi * (b * n / N) by ring]
    try ring
  have hsum : row.sum = N * D + ∑ n ∈ range N, e n := by
    rw [list_sum_getD, hl]
    have : ∀ n ∈ range N, row.getD n 0 = (A * Real.cos (2 * Real.pi * (b * n / N) + φ) + D) + e n := fun n _ => by rw [he, ← hs]; ring
    rw [sum_congr rfl this, sum_add_distrib, sum_add_distrib, tone_sum N b A φ hb hbN]
    simp
  refine ⟨-((∑ n ∈ range N, e n) / N) / V, fun n => e n / V, ?_, ?_, ?_⟩
  · rw [abs_div, abs_neg, abs_of_pos hV]
    apply div_le_div_of_nonneg_right _ hV.le
    rw [abs_div, abs_of_pos hNR, div_le_iff₀ hNR]
    calc |∑ n ∈ range N, e n| ≤ ∑ n ∈ range N, |e n| := abs_sum_le_sum_abs _ _
      _ ≤ ∑ n ∈ range N, σ := sum_le_sum fun n hn => h n (mem_range.mp hn)
      _ = σ * N := by rw [sum_const, card_range, nsmul_eq_mul, mul_comm]
  · intro n hn
    rw [abs_div, abs_of_pos hV]
    exact div_le_div_of_nonneg_right (h n hn) hV.le
  · intro n hn
    unfold preparedRun
    rw [hl, hsum, show row.getD n 0 = (A * Real.cos (2 * Real.pi * (b * n / N) + φ) + D) + e n by rw [he, ← hs]; ring]
    field_simp
    ring

theorem power_is_average (lib : WinLib) (a : SpectrumArgs) (hcoh : a.coherent = false) (hcut : a.cutoff = 0) (data : List (List ℝ))
    (N : ℕ) (hN : 1 < N) (hne : data ≠ []) (hlen : ∀ row ∈ data, row.length = N) (hshape : data.length ≤ 2 * N) (V : ℝ) (hV : 0 < V)
    (hpk : peakAmplitude data a.scale = .ok V) (hw : ∑ n ∈ range N, windowVector lib a.win N n ≠ 0) :
    ∃ d, prepareFftInput data a.scale = .ok d ∧ (d.headD []).length = N ∧ ∀ n, (applyCutoff (rawSpectrum lib a d N n) a.cutoff a.fs N) =
      (List.range (N / 2 + 1)).map fun (k : ℕ) => (data.map fun row => binPower (windowVector lib a.win N) N (preparedRun V row) k).sum / data.length := by
  have hhead : (data.headD []).length = N := by
    obtain ⟨x, l, rfl⟩ := List.exists_cons_of_ne_nil hne
    exact hlen x (by simp)
  have ho : orient data = data := by
    unfold orient
    simp only
    rw [hhead, if_neg (by omega), if_neg (by omega)]
  refine ⟨data.map fun r => (removeDc r).map (· / V), ?_, ?_, ?_⟩
  · unfold prepareFftInput
    simp only [ho, hpk]
    congr 1
    exact List.map_congr_left fun r _ => if_pos hV.ne'
  · obtain ⟨x, l, rfl⟩ := List.exists_cons_of_ne_nil hne
    simp [removeDc, hlen x (by simp)]
  · intro n
    unfold applyCutoff rawSpectrum
    rw [if_neg (by rw [hcut]; exact lt_irrefl 0)]
    simp only [hcoh, Bool.false_eq_true, if_false]
    unfold powerAverage runsOf
    rw [List.map_map]
    apply List.map_congr_left
    intro k hk
    simp only [Function.comp, List.map_map, List.length_map]
    rw [powerCorrection_eq _ N (by omega) hw, oneSided_eq]
    have hrun : ∀ row ∈ data, ((fun x : ℕ → ℝ => ‖dft N (fun n => ((x n : ℝ) : ℂ)) k‖ ^ 2) ∘ (fun r : List ℝ => fun n => r.getD n 0 * windowVector lib a.win N n) ∘
        fun r => (removeDc r).map (· / V)) row = ‖dft N (fun n => ((preparedRun V row n * windowVector lib a.win N n : ℝ) : ℂ)) k‖ ^ 2 := by
      intro row hrow
      simp only [Function.comp]
      congr 2
      exact dft_congr N _ _ k fun n hn => by rw [prepared_getD V row n (by rw [hlen row hrow]; exact hn)]
    rw [List.map_congr_left hrun]
    have hbin : ∀ row ∈ data, binPower (windowVector lib a.win N) N (preparedRun V row) k
        = (foldShare N k / (N : ℝ) ^ 2 * (4 * N / ∑ n ∈ range N, windowVector lib a.win N n ^ 2)) *
          ‖dft N (fun n => ((preparedRun V row n * windowVector lib a.win N n : ℝ) : ℂ)) k‖ ^ 2 := by
      intro row _
      unfold binPower
      rw [oneSided_eq]
      ring
    rw [List.map_congr_left hbin, List.sum_map_mul_left]
    ring

/-- Everything the metrics need about the averaged spectrum. -/
private theorem average_bounds (w : ℕ → ℝ) (data : List (List ℝ)) (N b m : ℕ) (A σ V : ℝ) (hV : 0 < V) (hσ : 0 ≤ σ) (hA : 0 < A) (hne : data ≠ [])
    (hruns : NoisyRuns data N b A σ) (hw : LobeWindow w N m) (hm : 2 * m < b) (hb : 2 * (b + m) < N) (h6 : 6 * σ ≤ A)
    (hsep : ∀ k : ℤ, ¬ (N : ℤ) ∣ k → 6 * σ * Real.sqrt (N * ∑ n ∈ range N, w n ^ 2)
      ≤ A * (‖dft N (fun n => (w n : ℂ)) 0‖ - ‖dft N (fun n => (w n : ℂ)) k‖))
    (p : ℕ → ℝ) (hp : ∀ k ≤ N / 2, p k = (data.map fun row => binPower w N (preparedRun V row) k).sum / data.length) :
    (∀ s ⊆ range (N / 2 + 1) \ (range (m + 1) ∪ Ico (b - m) (b + m + 1)), ∑ k ∈ s, p k ≤ 2 * (σ / V) ^ 2) ∧
    (∀ s ⊆ range (N / 2 + 1), Ico (b - m) (b + m + 1) ⊆ s → (A / V - Real.sqrt 2 * (σ / V)) ^ 2 ≤ ∑ k ∈ s, p k) ∧
    (∀ s ⊆ range (N / 2 + 1), ∑ k ∈ s, p k ≤ (A / V + 2 * (Real.sqrt 2 * (σ / V))) ^ 2) ∧
    ∀ k, k ≤ N / 2 → k ≠ b → p k < p b := by
  have hN : N ≠ 0 := by omega
  have hr2 : Real.sqrt 2 ≤ 3 / 2 := by
    rw [Real.sqrt_le_left (by norm_num)]
    norm_num
  have hτ : 0 ≤ σ / V := by positivity
  have hrun : ∀ row ∈ data, RunBounds w N b m (preparedRun V row) (A / V) (σ / V) := fun row hrow => by
    obtain ⟨hl, φ, D, hD⟩ := hruns row hrow
    obtain ⟨c, f, hc, hf, hy⟩ := run_form N b (by omega) (by omega) V A σ hV row hl φ D hD
    exact run_bounds w b m hw hm hb (preparedRun V row) f (A / V) φ c (σ / V) (by positivity) hτ hy hf hc (by
      rw [mul_div_assoc']
      apply div_le_div_of_nonneg_right _ hV.le
      nlinarith)
  have hsum : ∀ s ⊆ range (N / 2 + 1), ∑ k ∈ s, p k = (data.map fun row => ∑ k ∈ s, binPower w N (preparedRun V row) k).sum / data.length := by
    intro s hs
    rw [← avg_sum]
    exact sum_congr rfl fun k hk => hp k (by have := mem_range.mp (hs hk); omega)
  have hnn : ∀ (row : List ℝ) (k : ℕ), 0 ≤ binPower w N (preparedRun V row) k := fun row k => binPower_nonneg w hN _ k
  refine ⟨?_, ?_, ?_, ?_⟩
  · intro s hs
    rw [hsum s (hs.trans sdiff_subset)]
    exact avg_le data hne _ _ fun row hrow => (sum_le_sum_of_subset_of_nonneg hs fun k _ _ => hnn row k).trans (hrun row hrow).1
  · intro s hs hs2
    rw [hsum s hs]
    exact le_avg data hne _ _ fun row hrow => (hrun row hrow).2.1.trans (sum_le_sum_of_subset_of_nonneg hs2 fun k _ _ => hnn row k)
  · intro s hs
    rw [hsum s hs]
    exact avg_le data hne _ _ fun row hrow => (sum_le_sum_of_subset_of_nonneg hs fun k _ _ => hnn row k).trans (hrun row hrow).2.2.2.2
  · intro k hk hkb
    have hndvd : ¬ (N : ℤ) ∣ (k : ℤ) - b := by
      rintro ⟨q, hq⟩
      have hN' : (0 : ℤ) < N := by omega
      have g1 : -(N : ℤ) < (k : ℤ) - b := by omega
      have g2 : (k : ℤ) - b < N := by omega
      rw [hq] at g1 g2
      have : -1 < q := by nlinarith
      have : q < 1 := by nlinarith
      have : q = 0 := by omega
      subst this
      omega
    have hSpos : 0 < Real.sqrt (N * ∑ n ∈ range N, w n ^ 2) := by
      apply Real.sqrt_pos.mpr
      have : (0 : ℝ) < N := by exact_mod_cast (by omega : 0 < N)
      refine mul_pos this (lt_of_le_of_ne (sum_nonneg fun n _ => sq_nonneg _) fun h0 => hw.mean (sum_eq_zero fun n hn => ?_))
      exact pow_eq_zero_iff two_ne_zero |>.mp ((sum_eq_zero_iff_of_nonneg (fun i _ => sq_nonneg (w i))).mp h0.symm n hn)
    have h1 := hsep _ hndvd
    have h2 := hw.peak _ hndvd
    set q := Real.sqrt (N * ∑ n ∈ range N, w n ^ 2) with hq
    set W0 := ‖dft N (fun n => (w n : ℂ)) 0‖
    set Wk := ‖dft N (fun n => (w n : ℂ)) ((k : ℤ) - b)‖
    have hbig : A / V * Wk / q + 2 * (Real.sqrt 2 * (σ / V)) < A / V * W0 / q - 2 * (Real.sqrt 2 * (σ / V)) := by
      have e : A / V * W0 / q - 2 * (Real.sqrt 2 * (σ / V)) - (A / V * Wk / q + 2 * (Real.sqrt 2 * (σ / V)))
          = (A * (W0 - Wk) - 4 * Real.sqrt 2 * σ * q) / (V * q) := by
        field_simp
        ring
      have : 0 < (A * (W0 - Wk) - 4 * Real.sqrt 2 * σ * q) / (V * q) := by
        apply div_pos _ (mul_pos hV hSpos)
        have hsq : 4 * Real.sqrt 2 ≤ 576 / 100 := by
          have : Real.sqrt 2 ≤ 144 / 100 := by
            rw [Real.sqrt_le_left (by norm_num)]
            norm_num
          linarith
        have h4 : 4 * Real.sqrt 2 * σ * q ≤ 576 / 100 * (σ * q) := by
          rw [mul_assoc]
          exact mul_le_mul_of_nonneg_right hsq (mul_nonneg hσ hSpos.le)
        have h5 : 0 < A * (W0 - Wk) := mul_pos hA (by linarith)
        nlinarith [mul_nonneg hσ hSpos.le]
      linarith
    set x := A / V * Wk / q + 2 * (Real.sqrt 2 * (σ / V)) with hx
    have hx0 : 0 ≤ x := by positivity
    have hlow : x ^ 2 < (A / V * W0 / q - 2 * (Real.sqrt 2 * (σ / V))) ^ 2 := pow_lt_pow_left₀ hbig hx0 two_ne_zero
    have hpk : p k ≤ x ^ 2 := by
      rw [hp k hk]
      exact avg_le data hne _ _ fun row hrow => by
        rw [← binAmp_sq w hN]
        exact pow_le_pow_left₀ (binAmp_nonneg w _ _) ((hrun row hrow).2.2.2.1 k hk) 2
    have hpb : (A / V * W0 / q - 2 * (Real.sqrt 2 * (σ / V))) ^ 2 ≤ p b := by
      rw [hp b (by omega)]
      exact le_avg data hne _ _ fun row hrow => by
        rw [← binAmp_sq w hN]
        exact pow_le_pow_left₀ (by linarith) (hrun row hrow).2.2.1 2
    linarith

/-! ## The reported metrics -/

/-- **C96 (SNDR of noisy sines).** For every cosine-sum window, any number of averaged runs, every in-band OSR and automatic or covering side bins: if every
run is a sine of `b` periods up to errors of at most `σ`, and the amplitude exceeds the window's margin, the call succeeds, finds the sine in bin `b`,
reports its amplitude within `2 √2 σ` and an SNDR of at least `(A - √2 σ)^2 / 2` over `σ^2` (plus the numerical floor). -/
theorem C96_windowed_sndr (lib : WinLib) (a : SpectrumArgs) (ha : AveragingCall a) (data : List (List ℝ)) (N b : ℕ) (A σ V : ℝ) (hA : 0 < A)
    (hσ : 0 ≤ σ) (hV : 0 < V) (hne : data ≠ []) (hshape : data.length ≤ 2 * N) (hruns : NoisyRuns data N b A σ)
    (hpk : peakAmplitude data a.scale = .ok V) (hm : 2 * defaultSideBin a.win < b) (hb : 2 * (b + defaultSideBin a.win) < N) (n : ℕ)
    (hn : rfftInbandBinCount (N : ℤ) a.osr = .ok n) (hbn : b + defaultSideBin a.win < n) (hmargin : windowMargin a.win * σ ≤ A) :
    ∃ r, computeSpectrum lib data a = .ok r ∧ r.fundamentalBin = b ∧
      (∃ Am, A - Real.sqrt 2 * σ ≤ Am ∧ Am ≤ A + 2 * (Real.sqrt 2 * σ) ∧ r.sigPwr = 10 * Real.logb 10 (max ((Am / V) ^ 2) (1 / 10 ^ 30))) ∧
      dB ((A - Real.sqrt 2 * σ) ^ 2 / 2 / (σ ^ 2 + V ^ 2 / 2 / 10 ^ 20)) ≤ r.sndr := by
  set m := defaultSideBin a.win with hmdef
  have hlobe := C26_default_side_bin_covers_lobe lib a.win ha.kaiser ha.chebwin N (by omega) (by omega)
  rw [← hmdef] at hlobe
  have hgap := window_gap lib a.win ha.kaiser ha.chebwin N b hm hb
  have h6 : 6 * σ ≤ A := by
    have h1 : ¬ (N : ℤ) ∣ 1 := fun h => by have := Int.le_of_dvd one_pos h; omega
    nlinarith [(hgap 1 h1).1]
  obtain ⟨d, hd, hdl, hpow⟩ := power_is_average lib a ha.coh ha.cut data N (by omega) hne (fun row hrow => (hruns row hrow).1) hshape V hV hpk hlobe.mean
  obtain ⟨r, h⟩ := (C63_compute_spectrum_total lib data a d hd (by omega)).mpr ⟨ha.osr, ha.harm, ha.nf0, ha.nf4⟩
  refine ⟨r, h, ?_⟩
  obtain ⟨d', n', hd', hn', _, hnl, hpl, _, _, hnn, hp, hmet⟩ := computeSpectrum_ok lib data a r h
  rw [hd] at hd'
  injection hd' with hd'
  subst hd'
  rw [hdl] at hn' hpl hp hmet
  rw [hn] at hn'
  injection hn' with hn'
  subst hn'
  rw [hpow n] at hp
  obtain ⟨bins, spur, noise, _, _, _, hr⟩ := spectrumMetrics_ok _ _ _ _ _ _ _ hmet
  have hpk' : ∀ k ≤ N / 2, r.power.getD k 0
      = (data.map fun row => binPower (windowVector lib a.win N) N (preparedRun V row) k).sum / data.length := by
    intro k hk
    rw [hp, List.getD_eq_getElem?_getD, List.getElem?_map, List.getElem?_range (by omega)]
    rfl
  obtain ⟨hnad, hsigL, hsigU, hpeak⟩ := average_bounds (windowVector lib a.win N) data N b m A σ V hV hσ hA hne hruns hlobe hm hb h6
    (fun k hk => by
      have h1 := (hgap k hk).2
      have h2 := hlobe.peak k hk
      have h3 := mul_le_mul_of_nonneg_left h1 hσ
      have h4 := mul_le_mul_of_nonneg_right hmargin (by linarith : 0 ≤ ‖dft N (fun n => ((windowVector lib a.win N n : ℝ) : ℂ)) 0‖
        - ‖dft N (fun n => ((windowVector lib a.win N n : ℝ) : ℂ)) k‖)
      linarith)
    (fun k => r.power.getD k 0) hpk'
  have hfund : fundamentalBin r.power n = b := by
    obtain ⟨f1, f2, f3, _⟩ := C27_fundamental_strongest r.power n hnl (by omega)
    by_contra hne'
    have h4 := hpeak (fundamentalBin r.power n) (by omega) hne'
    have h5 := f3 b (by omega) (by omega)
    linarith
  have hloc : (locateFundamental r.power n).1 = b := hfund
  have hsb : m ≤ sideBinOf lib a N n r.power := by
    unfold sideBinOf
    split
    · rename_i s hs
      exact ha.side s hs
    · simp only [hloc]
      have := (C33_side_bin_range r.power b (locateFundamental r.power n).2 n N (windowVector lib a.win N)
        (powerCorrection (windowGain (windowVector lib a.win N) N) (windowEnbw (windowVector lib a.win N) N)) (autoSideBinFallback a.win)
        (defaultSideBin a.win) (by omega)).1
      omega
  generalize sideBinOf lib a N n r.power = sb at hr hsb
  have hrf : r.fundamentalBin = b := by
    rw [hr]
    exact hloc
  have hsig : signalPower r.power n sb b = ∑ k ∈ Ico (b - sb) (min (b + sb + 1) n), r.power.getD k 0 := by
    unfold signalPower
    rw [slice_sum]
    congr 2
    omega
  have hsub : Ico (b - sb) (min (b + sb + 1) n) ⊆ range (N / 2 + 1) := by
    intro k hk
    rw [mem_Ico] at hk
    rw [mem_range]
    omega
  have hS1 := hsigL _ hsub (by
    intro k hk
    rw [mem_Ico] at hk ⊢
    omega)
  have hS2 := hsigU _ hsub
  rw [← hsig] at hS1 hS2
  have hN1 : noiseAndDistortion r.power n sb b ≤ 2 * (σ / V) ^ 2 := by
    rw [C28_noise_and_distortion_spec r.power n sb b hnl]
    refine hnad _ ?_
    intro k hk
    unfold nadBins dcLobe lobe at hk
    simp only [mem_sdiff, mem_range, mem_Icc, mem_union, mem_Ico, not_or, not_and] at hk ⊢
    omega
  have hN0 : 0 ≤ noiseAndDistortion r.power n sb b := by
    rw [C28_noise_and_distortion_spec r.power n sb b hnl]
    exact sum_nonneg fun k _ => getD_nonneg r.power hnn k
  have hr2 : Real.sqrt 2 ≤ 3 / 2 := by
    rw [Real.sqrt_le_left (by norm_num)]
    norm_num
  have hpos : 0 < A - Real.sqrt 2 * σ := by nlinarith
  have e1 : A / V - Real.sqrt 2 * (σ / V) = (A - Real.sqrt 2 * σ) / V := by ring
  have e2 : A / V + 2 * (Real.sqrt 2 * (σ / V)) = (A + 2 * (Real.sqrt 2 * σ)) / V := by ring
  rw [e1] at hS1
  rw [e2] at hS2
  refine ⟨hrf, ⟨V * Real.sqrt (signalPower r.power n sb b), ?_, ?_, ?_⟩, ?_⟩
  · have := Real.le_sqrt_of_sq_le hS1
    rw [div_le_iff₀ hV] at this
    linarith
  · have := (Real.sqrt_le_left (by positivity : 0 ≤ (A + 2 * (Real.sqrt 2 * σ)) / V)).mpr hS2
    rw [le_div_iff₀ hV] at this
    linarith
  · rw [mul_div_cancel_left₀ _ hV.ne', Real.sq_sqrt (le_trans (sq_nonneg _) hS1)]
    conv_lhs => rw [hr]
    unfold assemble sigPwrDbfs
    simp only [ha.ass, hloc]
  · have hsn : r.sndr = dB (signalPower r.power n sb b / (noiseAndDistortion r.power n sb b + 1 / 10 ^ 20)) := by
      conv_lhs => rw [hr]
      unfold assemble sigLinear
      simp only [ha.ass, hloc]
    rw [hsn]
    apply dB_mono (by positivity)
    have e3 : (A - Real.sqrt 2 * σ) ^ 2 / 2 / (σ ^ 2 + V ^ 2 / 2 / 10 ^ 20)
        = ((A - Real.sqrt 2 * σ) / V) ^ 2 / (2 * (σ / V) ^ 2 + 1 / 10 ^ 20) := by
      field_simp
    rw [e3]
    exact div_le_div₀ (le_trans (sq_nonneg _) hS1) hS1 (by positivity) (by linarith)

/-- The amplitude-to-error ratio of an ideal converter of `bits` bits. -/
private theorem bits_ratio (k : ℕ) (h3 : 3 ≤ k) (h29 : k ≤ 29) (F : ℝ) (hF : 0 < F) :
    3 / 2 * 4 ^ k ≤ (F / 2 - Real.sqrt 2 * (F / 2 ^ (k + 1) / 2)) ^ 2 / 2 / ((F / 2 ^ (k + 1) / 2) ^ 2 + (F / 2) ^ 2 / 2 / 10 ^ 20) := by
  have h8 : (8 : ℝ) ≤ 2 ^ k := by
    calc (8 : ℝ) = 2 ^ 3 := by norm_num
      _ ≤ 2 ^ k := pow_le_pow_right₀ (by norm_num) h3
  have hk29 : (2 : ℝ) ^ k ≤ 2 ^ 29 := pow_le_pow_right₀ (by norm_num) h29
  have e4 : (4 : ℝ) ^ k = (2 ^ k) ^ 2 := by rw [← pow_mul, mul_comm, pow_mul]; norm_num
  rw [e4, pow_succ (2 : ℝ) k]
  generalize (2 : ℝ) ^ k = z at *
  have hz : 0 < z := by linarith
  have e : (F / 2 - Real.sqrt 2 * (F / (z * 2) / 2)) ^ 2 / 2 / ((F / (z * 2) / 2) ^ 2 + (F / 2) ^ 2 / 2 / 10 ^ 20)
      = (2 * z - Real.sqrt 2) ^ 2 / 2 / (1 + 2 * z ^ 2 / 10 ^ 20) := by
    field_simp
  rw [e, le_div_iff₀ (by positivity), le_div_iff₀ (by norm_num)]
  have hr2 : Real.sqrt 2 ≤ 3 / 2 := by
    rw [Real.sqrt_le_left (by norm_num)]
    norm_num
  have h1 : (29 / 16 * z) ^ 2 ≤ (2 * z - Real.sqrt 2) ^ 2 := pow_le_pow_left₀ (by positivity) (by linarith) 2
  have h2 : 2 * z ^ 2 / 10 ^ 20 ≤ 1 / 100 := by
    have := pow_le_pow_left₀ hz.le hk29 2
    norm_num at this ⊢
    linarith
  have h3 : 3 / 2 * z ^ 2 * (1 + 2 * z ^ 2 / 10 ^ 20) * 2 ≤ 3 / 2 * z ^ 2 * (1 + 1 / 100) * 2 := by
    apply mul_le_mul_of_nonneg_right _ (by norm_num)
    apply mul_le_mul_of_nonneg_left (by linarith) (by positivity)
  nlinarith [sq_nonneg z]

/-- The runs of an ideal converter of `bits` bits at full scale, with any phases. -/
def IdealRuns (data : List (List ℝ)) (N b bits : ℕ) (vmin vmax : ℝ) : Prop :=
  ∀ row ∈ data, row.length = N ∧ ∃ φ, ∀ n < N,
    row.getD n 0 = quantize (sineAt ((vmax - vmin) / 2) ((b : ℝ) / N) φ ((vmin + vmax) / 2) n) bits vmin vmax

theorem IdealRuns.noisy {data : List (List ℝ)} {N b bits : ℕ} {vmin vmax : ℝ} (h : IdealRuns data N b bits vmin vmax) (hbits : bits ≠ 0)
    (hv : vmin < vmax) : NoisyRuns data N b ((vmax - vmin) / 2) ((vmax - vmin) / 2 ^ bits / 2) := by
  intro row hrow
  obtain ⟨hl, φ, hq⟩ := h row hrow
  refine ⟨hl, φ, (vmin + vmax) / 2 - (vmax - vmin) / 2 ^ bits / 2, fun n hn => ?_⟩
  have hb := quantize_band bits hbits (sineAt ((vmax - vmin) / 2) ((b : ℝ) / N) φ ((vmin + vmax) / 2) n) vmin vmax hv
    (by unfold sineAt; nlinarith [Real.neg_one_le_cos (2 * Real.pi * ((b : ℝ) / N) * n + φ)])
    (by unfold sineAt; nlinarith [Real.cos_le_one (2 * Real.pi * ((b : ℝ) / N) * n + φ)])
  rw [← hq n hn] at hb
  have e : sineAt ((vmax - vmin) / 2) ((b : ℝ) / N) φ ((vmin + vmax) / 2 - (vmax - vmin) / 2 ^ bits / 2) n
      = sineAt ((vmax - vmin) / 2) ((b : ℝ) / N) φ ((vmin + vmax) / 2) n - (vmax - vmin) / 2 ^ bits / 2 := by
    unfold sineAt; ring
  rw [e, abs_le]
  constructor <;> linarith [hb.1, hb.2]

/-- **C96 (the number of bits shows with every window).** An ideal converter of 4 to 30 bits (for the flat-top window at least 9, and so on: the
window's margin must not exceed `2 ^ bits`) at full scale, with any number of runs of any phases, reports more than `bits - 1` effective bits. -/
theorem C96_ideal_converter_enob (lib : WinLib) (a : SpectrumArgs) (ha : AveragingCall a) (bits : ℕ) (h4 : 4 ≤ bits) (h30 : bits ≤ 30)
    (hmargin : windowMargin a.win ≤ 2 ^ bits) (vmin vmax : ℝ) (hv : vmin < vmax) (hscale : a.scale = .seq [vmin, vmax]) (data : List (List ℝ))
    (N b : ℕ) (hne : data ≠ []) (hshape : data.length ≤ 2 * N) (hruns : IdealRuns data N b bits vmin vmax)
    (hm : 2 * defaultSideBin a.win < b) (hb : 2 * (b + defaultSideBin a.win) < N) (n : ℕ) (hn : rfftInbandBinCount (N : ℤ) a.osr = .ok n)
    (hbn : b + defaultSideBin a.win < n) :
    ∃ r, computeSpectrum lib data a = .ok r ∧ r.fundamentalBin = b ∧ (((bits : ℝ) - 1 : ℝ) : EReal) < r.enob := by
  have hd : 0 < vmax - vmin := by linarith
  obtain ⟨r, hr, hf, _, hs⟩ := C96_windowed_sndr lib a ha data N b ((vmax - vmin) / 2) ((vmax - vmin) / 2 ^ bits / 2) ((vmax - vmin) / 2) (by linarith)
    (by positivity) (by linarith) hne hshape (hruns.noisy (by omega) hv) (by rw [hscale]; rfl) hm hb n hn hbn (by
      rw [div_div, mul_div_assoc', div_le_div_iff₀ (by positivity) (by norm_num)]
      have : windowMargin a.win * (vmax - vmin) ≤ 2 ^ bits * (vmax - vmin) := mul_le_mul_of_nonneg_right hmargin hd.le
      linarith)
  refine ⟨r, hr, hf, ?_⟩
  rw [(C62_noise_floor_identities lib data a r hr).2.2.2]
  obtain ⟨k, rfl⟩ : ∃ k, bits = k + 1 := ⟨bits - 1, by omega⟩
  have e : ((k + 1 : ℕ) : ℝ) - 1 = (k : ℝ) := by push_cast; ring
  rw [e]
  exact enob_above k _ (bits_ratio k (by omega) (by omega) _ hd) _ hs

/-- **C96 (quick_sndr).** `quick_sndr` with its default Hann window and default side bin gives the same guarantee. -/
theorem C96_quick_sndr (lib : WinLib) (bits : ℕ) (h4 : 4 ≤ bits) (h30 : bits ≤ 30) (vmin vmax : ℝ) (hv : vmin < vmax) (data : List (List ℝ))
    (N b : ℕ) (hne : data ≠ []) (hshape : data.length ≤ 2 * N) (hruns : IdealRuns data N b bits vmin vmax) (hm : 2 < b) (hb : 2 * (b + 1) < N) :
    ∃ s e, quickSndr lib data "hann" none (.seq [vmin, vmax]) = .ok (s, e) ∧ (((bits : ℝ) - 1 : ℝ) : EReal) < e := by
  have h16 : (15 : ℝ) ≤ 2 ^ bits := by
    calc (15 : ℝ) ≤ 2 ^ 4 := by norm_num
      _ ≤ 2 ^ bits := pow_le_pow_right₀ (by norm_num) h4
  obtain ⟨r, hr, _, he⟩ := C96_ideal_converter_enob lib { scale := .seq [vmin, vmax], sideBin := some 1 }
    ⟨(by decide : "hann" ≠ "kaiser"), (by decide : "hann" ≠ "chebwin"), fun s hs => by injection hs with hs; exact hs.le, rfl, rfl, rfl, one_pos, by norm_num, by norm_num, by norm_num⟩ bits h4 h30 h16
    vmin vmax hv rfl data N b hne hshape hruns hm hb _ (C25_osr_one _ (by omega)) (by show b + 1 < _; omega)
  have h := C30_quick_sndr_agrees lib data _ r hr 1 rfl rfl rfl rfl rfl
  exact ⟨r.sndr, r.enob, h, he⟩

/-! ## Concrete cases -/

/-- The default call. -/
example : AveragingCall { scale := .seq [0, 1] } :=
  ⟨by decide, by decide, fun s hs => by simp at hs, rfl, rfl, rfl, one_pos, by norm_num, by norm_num, by norm_num⟩

/-- Two runs of 64 samples with 5 periods, 12 bits over `[0, 1]`, default arguments except the range: more than 11 effective bits. -/
example (lib : WinLib) : ∃ (data : List (List ℝ)) (r : SpectrumResult), data.length = 2 ∧ IdealRuns data 64 5 12 0 1 ∧
    computeSpectrum lib data { scale := .seq [0, 1] } = .ok r ∧ r.fundamentalBin = 5 ∧ ((11 : ℝ) : EReal) < r.enob := by
  set run : ℝ → List ℝ := fun φ => (List.range 64).map fun (n : ℕ) =>
    quantize (sineAt ((1 - 0) / 2) (((5 : ℕ) : ℝ) / (64 : ℕ)) φ ((0 + 1) / 2) n) 12 0 1 with hrun
  have hruns : IdealRuns [run 1, run 2] 64 5 12 0 1 := by
    intro row hrow
    have key : ∀ φ, (run φ).length = 64 ∧ ∃ φ', ∀ n < 64,
        (run φ).getD n 0 = quantize (sineAt ((1 - 0) / 2) (((5 : ℕ) : ℝ) / (64 : ℕ)) φ' ((0 + 1) / 2) n) 12 0 1 := by
      intro φ
      refine ⟨by simp [hrun], φ, fun n hn => ?_⟩
      rw [hrun, List.getD_eq_getElem?_getD, List.getElem?_map, List.getElem?_range hn]
      rfl
    rcases List.mem_pair.mp hrow with rfl | rfl
    · exact key 1
    · exact key 2
  obtain ⟨r, h1, h2, h3⟩ := C96_ideal_converter_enob lib { scale := .seq [0, 1] }
    ⟨by decide, by decide, fun s hs => by simp at hs, rfl, rfl, rfl, one_pos, by norm_num, by norm_num, by norm_num⟩ 12 (by norm_num) (by norm_num)
    (by show (15 : ℝ) ≤ 2 ^ 12; norm_num) 0 1 one_pos rfl [run 1, run 2] 64 5 (by simp) (by simp) hruns (by decide) (by decide) _
    (C25_osr_one _ (by norm_num)) (by decide)
  refine ⟨_, r, rfl, hruns, h1, h2, ?_⟩
  have e : ((12 : ℕ) : ℝ) - 1 = 11 := by norm_num
  rwa [e] at h3

/-- Every listed window meets its margin at 10 bits. -/
example : ∀ w ∈ ["hann", "boxcar", "hamming", "blackman", "blackmanharris", "flattop"], windowMargin w ≤ 2 ^ 10 := by
  intro w hw
  fin_cases hw <;> first | (norm_num [windowMargin]; done) | (show (15 : ℝ) ≤ 2 ^ 10; norm_num)

end Verif
