import Verif.Theorems.Tone
import Verif.Proofs.Sinad

/-!
# Lemmas for the SNDR of windowed records (C96): one run, and the average over runs
-/

namespace Verif

open Model Finset Spec

section Run

variable (w : ℕ → ℝ) (N : ℕ)

/-- Share of a bin kept by the one-sided folding. -/
noncomputable def foldShare (k : ℕ) : ℝ := oneSided N k 1

/-- Corrected power of bin `k` of a record `z`. -/
noncomputable def binPower (z : ℕ → ℝ) (k : ℕ) : ℝ :=
  oneSided N k (‖dft N (fun n => ((z n * w n : ℝ) : ℂ)) k‖ ^ 2 / (N : ℝ) ^ 2) * (4 * N / ∑ n ∈ range N, w n ^ 2)

/-- Corrected amplitude of bin `k` of a record `z`. -/
noncomputable def binAmp (z : ℕ → ℝ) (k : ℕ) : ℝ :=
  Real.sqrt (foldShare N k * (4 / (N * ∑ n ∈ range N, w n ^ 2))) * ‖dft N (fun n => ((z n * w n : ℝ) : ℂ)) k‖

theorem oneSided_eq (k : ℕ) (v : ℝ) : oneSided N k v = foldShare N k * v := by
  unfold foldShare oneSided
  simp only
  split_ifs <;> ring

theorem foldShare_nonneg (k : ℕ) : 0 ≤ foldShare N k := oneSided_nonneg N k 1 zero_le_one

theorem foldShare_le (k : ℕ) : foldShare N k ≤ 1 := by
  unfold foldShare oneSided
  simp only
  split_ifs <;> norm_num

theorem foldShare_inner (k : ℕ) (h0 : 0 < k) (h1 : 2 * k < N) : foldShare N k = 1 := by
  unfold foldShare oneSided
  simp only
  rw [if_neg (by omega), if_neg (by omega)]

variable {N}

theorem binAmp_nonneg (z : ℕ → ℝ) (k : ℕ) : 0 ≤ binAmp w N z k := mul_nonneg (Real.sqrt_nonneg _) (norm_nonneg _)

theorem binAmp_sq (hN : N ≠ 0) (z : ℕ → ℝ) (k : ℕ) : binAmp w N z k ^ 2 = binPower w N z k := by
  have hNR : (N : ℝ) ≠ 0 := by exact_mod_cast hN
  have hs : 0 ≤ ∑ n ∈ range N, w n ^ 2 := sum_nonneg fun n _ => sq_nonneg _
  unfold binAmp binPower
  rw [mul_pow, Real.sq_sqrt (mul_nonneg (foldShare_nonneg N k) (by positivity)), oneSided_eq]
  field_simp

theorem binPower_nonneg (hN : N ≠ 0) (z : ℕ → ℝ) (k : ℕ) : 0 ≤ binPower w N z k := by
  rw [← binAmp_sq w hN]; positivity

theorem dft_add (x y : ℕ → ℂ) (k : ℤ) : dft N (fun n => x n + y n) k = dft N x k + dft N y k := by
  unfold dft
  rw [← sum_add_distrib]
  exact sum_congr rfl fun n _ => by ring

theorem binAmp_add (x y z : ℕ → ℝ) (hz : ∀ n < N, z n = x n + y n) (k : ℕ) :
    binAmp w N z k ≤ binAmp w N x k + binAmp w N y k ∧ binAmp w N x k ≤ binAmp w N z k + binAmp w N y k := by
  have e : dft N (fun n => ((z n * w n : ℝ) : ℂ)) k = dft N (fun n => ((x n * w n : ℝ) : ℂ)) k + dft N (fun n => ((y n * w n : ℝ) : ℂ)) k := by
    rw [← dft_add]
    exact dft_congr N _ _ k fun n hn => by rw [hz n hn]; push_cast; ring
  unfold binAmp
  rw [← mul_add, ← mul_add, e]
  constructor
  · exact mul_le_mul_of_nonneg_left (norm_add_le _ _) (Real.sqrt_nonneg _)
  · apply mul_le_mul_of_nonneg_left _ (Real.sqrt_nonneg _)
    have := norm_sub_le (dft N (fun n => ((x n * w n : ℝ) : ℂ)) k + dft N (fun n => ((y n * w n : ℝ) : ℂ)) k) (dft N (fun n => ((y n * w n : ℝ) : ℂ)) k)
    simpa using this

/-- Total of the one-sided spectrum of a record bounded by `τ`. -/
theorem binPower_total (hN : N ≠ 0) (hw : ∑ n ∈ range N, w n ^ 2 ≠ 0) (z : ℕ → ℝ) (τ : ℝ) (hz : ∀ n < N, |z n| ≤ τ) :
    ∑ k ∈ range (N / 2 + 1), binPower w N z k ≤ 2 * τ ^ 2 := by
  have hNR : (N : ℝ) ≠ 0 := by exact_mod_cast hN
  have hs : 0 < ∑ n ∈ range N, w n ^ 2 := lt_of_le_of_ne (sum_nonneg fun n _ => sq_nonneg _) hw.symm
  have h := C26_total_power [fun n => z n * w n] N hN
  unfold powerAverage at h
  rw [list_sum_map_range] at h
  simp only [List.map_cons, List.map_nil, List.sum_cons, List.sum_nil, add_zero, List.length_cons, List.length_nil, zero_add, Nat.cast_one, div_one] at h
  unfold binPower
  rw [← sum_mul, h]
  have hle : ∑ n ∈ range N, (z n * w n) ^ 2 ≤ τ ^ 2 * ∑ n ∈ range N, w n ^ 2 := by
    rw [mul_sum]
    refine sum_le_sum fun n hn => ?_
    rw [mul_pow]
    apply mul_le_mul_of_nonneg_right _ (sq_nonneg _)
    exact sq_le_sq' (by have := (abs_le.mp (hz n (mem_range.mp hn))).1; linarith) (abs_le.mp (hz n (mem_range.mp hn))).2
  have e : (∑ n ∈ range N, (z n * w n) ^ 2) / (N : ℝ) / 2 * (4 * N / ∑ n ∈ range N, w n ^ 2)
      = 2 * ((∑ n ∈ range N, (z n * w n) ^ 2) / ∑ n ∈ range N, w n ^ 2) := by field_simp; ring
  rw [e]
  have : (∑ n ∈ range N, (z n * w n) ^ 2) / ∑ n ∈ range N, w n ^ 2 ≤ τ ^ 2 := by
    rw [div_le_iff₀ hs]
    exact hle
  linarith

theorem binAmp_le (hN : N ≠ 0) (hw : ∑ n ∈ range N, w n ^ 2 ≠ 0) (z : ℕ → ℝ) (τ : ℝ) (hτ : 0 ≤ τ) (hz : ∀ n < N, |z n| ≤ τ) (k : ℕ) (hk : k ≤ N / 2) :
    binAmp w N z k ≤ Real.sqrt 2 * τ := by
  have h := binPower_total w hN hw z τ hz
  have h1 : binPower w N z k ≤ ∑ k ∈ range (N / 2 + 1), binPower w N z k :=
    single_le_sum (f := fun k => binPower w N z k) (fun i _ => binPower_nonneg w hN z i) (mem_range.mpr (by omega))
  rw [← binAmp_sq w hN] at h1
  apply le_of_sq_le_sq _ (by positivity)
  rw [mul_pow, Real.sq_sqrt (by norm_num)]
  linarith

theorem l2_triangle (s : Finset ℕ) (f g h : ℕ → ℝ) (hf : ∀ k ∈ s, 0 ≤ f k) (hg : ∀ k ∈ s, 0 ≤ g k) (hh : ∀ k ∈ s, 0 ≤ h k)
    (hle : ∀ k ∈ s, f k ≤ g k + h k) :
    Real.sqrt (∑ k ∈ s, f k ^ 2) ≤ Real.sqrt (∑ k ∈ s, g k ^ 2) + Real.sqrt (∑ k ∈ s, h k ^ 2) := by
  have hG : 0 ≤ ∑ k ∈ s, g k ^ 2 := sum_nonneg fun _ _ => sq_nonneg _
  have hH : 0 ≤ ∑ k ∈ s, h k ^ 2 := sum_nonneg fun _ _ => sq_nonneg _
  have h1 : ∑ k ∈ s, f k ^ 2 ≤ ∑ k ∈ s, g k ^ 2 + 2 * ∑ k ∈ s, g k * h k + ∑ k ∈ s, h k ^ 2 := by
    rw [mul_sum, ← sum_add_distrib, ← sum_add_distrib]
    refine sum_le_sum fun k hk => ?_
    have := pow_le_pow_left₀ (hf k hk) (hle k hk) 2
    nlinarith
  have h2 : ∑ k ∈ s, g k * h k ≤ Real.sqrt (∑ k ∈ s, g k ^ 2) * Real.sqrt (∑ k ∈ s, h k ^ 2) := by
    rw [← Real.sqrt_mul hG]
    apply Real.le_sqrt_of_sq_le
    exact sum_mul_sq_le_sq_mul_sq s g h
  rw [Real.sqrt_le_left (by positivity)]
  have e1 := Real.sq_sqrt hG
  have e2 := Real.sq_sqrt hH
  nlinarith

/-- What is known about the bins of one run: noise, lobe, strongest bin, other bins, total. -/
def RunBounds (N b m : ℕ) (y : ℕ → ℝ) (A τ : ℝ) : Prop :=
    ∑ k ∈ range (N / 2 + 1) \ (range (m + 1) ∪ Ico (b - m) (b + m + 1)), binPower w N y k ≤ 2 * τ ^ 2 ∧
    (A - Real.sqrt 2 * τ) ^ 2 ≤ ∑ k ∈ Ico (b - m) (b + m + 1), binPower w N y k ∧
    A * ‖dft N (fun n => (w n : ℂ)) 0‖ / Real.sqrt (N * ∑ n ∈ range N, w n ^ 2) - 2 * (Real.sqrt 2 * τ) ≤ binAmp w N y b ∧
    (∀ k, k ≤ N / 2 →
      binAmp w N y k ≤ A * ‖dft N (fun n => (w n : ℂ)) ((k : ℤ) - b)‖ / Real.sqrt (N * ∑ n ∈ range N, w n ^ 2) + 2 * (Real.sqrt 2 * τ)) ∧
    ∑ k ∈ range (N / 2 + 1), binPower w N y k ≤ (A + 2 * (Real.sqrt 2 * τ)) ^ 2

/-- Bins of one run of a coherent sine of amplitude `A` on a small offset `c` plus a bounded record `f`. -/
theorem run_bounds (b m : ℕ) (hw : LobeWindow w N m) (hm : 2 * m < b) (hb : 2 * (b + m) < N) (y f : ℕ → ℝ) (A φ c τ : ℝ) (hA : 0 ≤ A)
    (hτ : 0 ≤ τ) (hy : ∀ n < N, y n = A * Real.cos (2 * Real.pi * (b * n / N) + φ) + c + f n) (hf : ∀ n < N, |f n| ≤ τ) (hc : |c| ≤ τ)
    (hsmall : Real.sqrt 2 * τ ≤ A) :
    RunBounds w N b m y A τ := by
  have hN : N ≠ 0 := by omega
  have hNR : (0 : ℝ) < N := by exact_mod_cast (by omega : 0 < N)
  have hS : ∑ n ∈ range N, w n ^ 2 ≠ 0 := by
    intro h0
    apply hw.mean
    apply sum_eq_zero
    intro n hn
    have := (sum_eq_zero_iff_of_nonneg (fun i _ => sq_nonneg (w i))).mp h0 n hn
    exact pow_eq_zero_iff (two_ne_zero) |>.mp this
  have hSpos : 0 < ∑ n ∈ range N, w n ^ 2 := lt_of_le_of_ne (sum_nonneg fun n _ => sq_nonneg _) hS.symm
  set t : ℕ → ℝ := fun n => A * Real.cos (2 * Real.pi * (b * n / N) + φ) with ht
  -- amplitude of the tone alone
  have htone : ∀ k, k ≤ N / 2 → binAmp w N t k
      = Real.sqrt (foldShare N k) * (A * ‖dft N (fun n => (w n : ℂ)) ((k : ℤ) - b)‖ / Real.sqrt (N * ∑ n ∈ range N, w n ^ 2)) := by
    intro k hk
    have h1 := tone_bin N b m A φ w hw (by omega) hb k hk
    have h2 : ‖dft N (fun n => ((t n * w n : ℝ) : ℂ)) k‖ = A / 2 * ‖dft N (fun n => (w n : ℂ)) ((k : ℤ) - b)‖ := by
      rw [← sq_eq_sq₀ (norm_nonneg _) (by positivity), mul_pow, h1]
      ring
    unfold binAmp
    rw [h2, Real.sqrt_mul (foldShare_nonneg N k), Real.sqrt_div (by norm_num), show (4 : ℝ) = 2 ^ 2 by norm_num, Real.sqrt_sq (by norm_num)]
    ring
  have hrest : ∀ n < N, |c + f n| ≤ 2 * τ := fun n hn => (abs_add_le _ _).trans (by have := hf n hn; linarith)
  have hsum : ∀ n < N, y n = t n + (c + f n) := fun n hn => by rw [hy n hn, ht]; ring
  -- beyond the DC lobe the offset does not matter
  have hoff : ∀ k, m < k → k ≤ N / 2 → dft N (fun n => ((y n * w n : ℝ) : ℂ)) k
      = dft N (fun n => ((t n * w n : ℝ) : ℂ)) k + dft N (fun n => ((f n * w n : ℝ) : ℂ)) k := by
    intro k hk1 hk2
    have hz : dft N (fun n => (w n : ℂ)) (k : ℤ) = 0 := by
      apply hw.band
      intro j hj hd
      rw [abs_le] at hj
      obtain ⟨q, hq⟩ := hd
      have g1 : (0 : ℤ) < (k : ℤ) - j := by omega
      have g2 : (k : ℤ) - j < N := by omega
      rw [hq] at g1 g2
      have hN' : (0 : ℤ) < N := by omega
      have : 0 < q := by nlinarith
      have : q < 1 := by nlinarith
      omega
    have h1 : dft N (fun n => ((y n * w n : ℝ) : ℂ)) k
        = dft N (fun n => (((t n * w n : ℝ) : ℂ) + ((f n * w n : ℝ) : ℂ)) + (c : ℂ) * (w n : ℂ)) k :=
      dft_congr N _ _ k fun n hn => by rw [hsum n hn]; push_cast; ring
    have h2 : dft N (fun n => (c : ℂ) * (w n : ℂ)) k = 0 := by
      have : dft N (fun n => (c : ℂ) * (w n : ℂ)) k = c * dft N (fun n => (w n : ℂ)) k := by
        unfold dft
        rw [mul_sum]
        exact sum_congr rfl fun n _ => by ring
      rw [this, hz, mul_zero]
    rw [h1, dft_add, dft_add, h2, add_zero]
  have hftot := binPower_total w hN hS f τ hf
  have hT : ∑ k ∈ Ico (b - m) (b + m + 1), binAmp w N t k ^ 2 = A ^ 2 := by
    have : ∀ k ∈ Ico (b - m) (b + m + 1), binAmp w N t k ^ 2 = A ^ 2 / (N * ∑ n ∈ range N, w n ^ 2) * ‖dft N (fun n => (w n : ℂ)) ((k : ℤ) - b)‖ ^ 2 := by
      intro k hk
      rw [mem_Ico] at hk
      rw [htone k (by omega), foldShare_inner N k (by omega) (by omega), Real.sqrt_one, one_mul, div_pow, Real.sq_sqrt (by positivity)]
      ring
    rw [sum_congr rfl this, ← mul_sum, lobe_sum N b m w hw (by omega) hb]
    field_simp
  have hzero : ∀ k, k ≤ N / 2 → (k < b - m ∨ b + m < k) → dft N (fun n => ((t n * w n : ℝ) : ℂ)) k = 0 := by
    intro k hk hk2
    have h2 := tone_bin N b m A φ w hw (by omega) hb k hk
    rw [window_outside N b m w hw (by omega) hb k (by omega) (by omega)] at h2
    have h3 : ‖dft N (fun n => ((t n * w n : ℝ) : ℂ)) k‖ ^ 2 = 0 := by
      rw [ht]
      rw [h2]
      simp
    exact norm_eq_zero.mp (pow_eq_zero_iff two_ne_zero |>.mp h3)
  have hTall : ∑ k ∈ range (N / 2 + 1), binAmp w N t k ^ 2 = A ^ 2 := by
    rw [← hT]
    symm
    apply sum_subset
    · intro k hk
      rw [mem_Ico] at hk
      rw [mem_range]
      omega
    · intro k hk hk2
      rw [mem_range] at hk
      rw [mem_Ico] at hk2
      unfold binAmp
      rw [hzero k (by omega) (by omega)]
      simp
  refine ⟨?_, ?_, ?_, ?_, ?_⟩
  · refine le_trans ?_ hftot
    calc ∑ k ∈ range (N / 2 + 1) \ (range (m + 1) ∪ Ico (b - m) (b + m + 1)), binPower w N y k
        = ∑ k ∈ range (N / 2 + 1) \ (range (m + 1) ∪ Ico (b - m) (b + m + 1)), binPower w N f k := by
          refine sum_congr rfl fun k hk => ?_
          simp only [mem_sdiff, mem_union, mem_range, mem_Ico, not_or, not_and] at hk
          unfold binPower
          rw [hoff k (by omega) (by omega), hzero k (by omega) (by omega), zero_add]
      _ ≤ ∑ k ∈ range (N / 2 + 1), binPower w N f k :=
          sum_le_sum_of_subset_of_nonneg sdiff_subset fun k _ _ => binPower_nonneg w hN f k
  · have hF : ∑ k ∈ Ico (b - m) (b + m + 1), binAmp w N f k ^ 2 ≤ 2 * τ ^ 2 := by
      refine le_trans ?_ hftot
      rw [sum_congr rfl fun k _ => binAmp_sq w hN f k]
      apply sum_le_sum_of_subset_of_nonneg
      · intro k hk
        rw [mem_Ico] at hk
        rw [mem_range]
        omega
      · exact fun k _ _ => binPower_nonneg w hN f k
    have htri := l2_triangle (Ico (b - m) (b + m + 1)) (binAmp w N t) (binAmp w N y) (binAmp w N f) (fun k _ => binAmp_nonneg w t k)
      (fun k _ => binAmp_nonneg w y k) (fun k _ => binAmp_nonneg w f k) (fun k hk => by
        rw [mem_Ico] at hk
        unfold binAmp
        rw [hoff k (by omega) (by omega), ← mul_add]
        apply mul_le_mul_of_nonneg_left _ (Real.sqrt_nonneg _)
        have := norm_sub_le (dft N (fun n => ((t n * w n : ℝ) : ℂ)) k + dft N (fun n => ((f n * w n : ℝ) : ℂ)) k) (dft N (fun n => ((f n * w n : ℝ) : ℂ)) k)
        simpa using this)
    rw [hT, Real.sqrt_sq hA] at htri
    have hF' : Real.sqrt (∑ k ∈ Ico (b - m) (b + m + 1), binAmp w N f k ^ 2) ≤ Real.sqrt 2 * τ := by
      rw [Real.sqrt_le_left (by positivity), mul_pow, Real.sq_sqrt (by norm_num)]
      exact hF
    have hY : Real.sqrt (∑ k ∈ Ico (b - m) (b + m + 1), binAmp w N y k ^ 2) ^ 2 = ∑ k ∈ Ico (b - m) (b + m + 1), binPower w N y k := by
      rw [Real.sq_sqrt (sum_nonneg fun _ _ => sq_nonneg _)]
      exact sum_congr rfl fun k _ => binAmp_sq w hN y k
    rw [← hY]
    exact pow_le_pow_left₀ (by linarith) (by linarith) 2
  · have h1 := (binAmp_add w t (fun n => c + f n) y hsum b).2
    have h2 := binAmp_le w hN hS (fun n => c + f n) (2 * τ) (by linarith) hrest b (by omega)
    rw [htone b (by omega), foldShare_inner N b (by omega) (by omega), Real.sqrt_one, one_mul, sub_self] at h1
    linarith
  · intro k hk
    have h1 := (binAmp_add w t (fun n => c + f n) y hsum k).1
    have h2 := binAmp_le w hN hS (fun n => c + f n) (2 * τ) (by linarith) hrest k hk
    rw [htone k hk] at h1
    have h3 : Real.sqrt (foldShare N k) ≤ 1 := by
      rw [Real.sqrt_le_left zero_le_one, one_pow]
      exact foldShare_le N k
    have h4 : 0 ≤ A * ‖dft N (fun n => (w n : ℂ)) ((k : ℤ) - b)‖ / Real.sqrt (N * ∑ n ∈ range N, w n ^ 2) := by positivity
    have h5 := mul_le_mul_of_nonneg_right h3 h4
    linarith
  · have htri := l2_triangle (range (N / 2 + 1)) (binAmp w N y) (binAmp w N t) (binAmp w N fun n => c + f n) (fun k _ => binAmp_nonneg w y k)
      (fun k _ => binAmp_nonneg w t k) (fun k _ => binAmp_nonneg w _ k) (fun k _ => (binAmp_add w t (fun n => c + f n) y hsum k).1)
    have h2 := binPower_total w hN hS (fun n => c + f n) (2 * τ) hrest
    rw [hTall, Real.sqrt_sq hA, sum_congr rfl fun k _ => binAmp_sq w hN y k, sum_congr rfl fun k _ => binAmp_sq w hN (fun n => c + f n) k] at htri
    have h3 : Real.sqrt (∑ k ∈ range (N / 2 + 1), binPower w N (fun n => c + f n) k) ≤ 2 * (Real.sqrt 2 * τ) := by
      rw [Real.sqrt_le_left (by positivity), mul_pow, mul_pow, Real.sq_sqrt (by norm_num)]
      linarith
    exact (Real.sqrt_le_left (by positivity)).mp (htri.trans (by linarith))

end Run

/-! ### Averages over runs -/

theorem avg_le {α : Type} (l : List α) (hl : l ≠ []) (F : α → ℝ) (B : ℝ) (h : ∀ x ∈ l, F x ≤ B) : (l.map F).sum / l.length ≤ B := by
  have hlen : (0 : ℝ) < l.length := by exact_mod_cast List.length_pos_iff.mpr hl
  rw [div_le_iff₀ hlen]
  clear hl hlen
  induction l with
  | nil => simp
  | cons a l ih =>
    have h1 := h a (by simp)
    have h2 := ih fun x hx => h x (by simp [hx])
    simp only [List.map_cons, List.sum_cons, List.length_cons]
    push_cast
    linarith

theorem le_avg {α : Type} (l : List α) (hl : l ≠ []) (F : α → ℝ) (B : ℝ) (h : ∀ x ∈ l, B ≤ F x) : B ≤ (l.map F).sum / l.length := by
  have := avg_le l hl (fun x => -F x) (-B) fun x hx => neg_le_neg (h x hx)
  have e : (l.map fun x => -F x).sum = -(l.map F).sum := by
    clear this h hl
    induction l with
    | nil => simp
    | cons a l ih => simp only [List.map_cons, List.sum_cons, ih]; ring
  rw [e, neg_div] at this
  linarith

theorem avg_sum {α : Type} (l : List α) (s : Finset ℕ) (F : α → ℕ → ℝ) :
    ∑ k ∈ s, (l.map fun x => F x k).sum / l.length = (l.map fun x => ∑ k ∈ s, F x k).sum / l.length := by
  rw [← sum_div]
  congr 1
  induction l with
  | nil => simp
  | cons a l ih => simp only [List.map_cons, List.sum_cons, sum_add_distrib, ih]

end Verif
