import Verif.Model.TestBench
import Verif.Model.Units
import Verif.Proofs.Frequency
import Verif.Theorems.Sar
import Verif.Theorems.Units
import Mathlib.RingTheory.Coprime.Basic
import Mathlib.RingTheory.Int.Basic

/-!
# C112: the helper functions of the example test benches choose what they say they choose
-/

namespace Verif

open Model Spec

section bins

variable {K : Type} [Field K] [LinearOrder K] [IsStrictOrderedRing K] [FloorRing K]

/-- **C112 (odd bin).** `coherent_odd_bin` returns an odd positive bin for every length and ratio, and for four or more points the bin lies below Nyquist. -/
theorem C112_odd_bin (n : ℤ) (ratio : K) : 1 ≤ coherentOddBin n ratio ∧ Odd (coherentOddBin n ratio) ∧ (4 ≤ n → 2 * coherentOddBin n ratio < n) := by
  unfold coherentOddBin
  simp only
  generalize rint (ratio * n) = k
  rw [Int.odd_iff]
  refine ⟨le_max_right _ _, ?_, fun hn => ?_⟩ <;> (split_ifs <;> omega)

/-- **C112 (odd bin, distance).** If the target lies between bin 1 and the last bin below Nyquist, the chosen bin is at most one and a half bins away from it. -/
theorem C112_odd_bin_near (n : ℤ) (ratio : K) (h1 : 1 ≤ ratio * n) (h2 : ratio * n ≤ ((n / 2 - 1 : ℤ) : K)) : |(coherentOddBin n ratio : K) - ratio * n| ≤ 3 / 2 := by
  obtain ⟨hne, _⟩ := rint_nearestEven (ratio * n)
  have hb : |ratio * n - rint (ratio * n)| ≤ 1 / 2 := by
    have ha := hne ⌊ratio * n⌋
    have hc := hne (⌊ratio * n⌋ + 1)
    have hf := Int.floor_le (ratio * n)
    have hg := Int.lt_floor_add_one (ratio * n)
    push_cast at hc
    rw [abs_of_nonneg (by linarith : 0 ≤ ratio * n - ⌊ratio * n⌋)] at ha
    rw [abs_of_nonpos (by linarith : ratio * n - (⌊ratio * n⌋ + 1) ≤ 0)] at hc
    linarith
  have hk1 : 1 ≤ rint (ratio * n) := by
    have := hne 1
    by_contra hlt
    have hlt' : (rint (ratio * n) : K) ≤ 0 := by exact_mod_cast (by omega : rint (ratio * n) ≤ 0)
    push_cast at this
    rw [abs_of_nonneg (by linarith : 0 ≤ ratio * n - 1), abs_of_nonneg (by linarith : 0 ≤ ratio * n - rint (ratio * n))] at this
    linarith
  have hk2 : rint (ratio * n) ≤ n / 2 - 1 := by
    have := hne (n / 2 - 1)
    by_contra hlt
    have hlt' : ((n / 2 - 1 : ℤ) : K) + 1 ≤ rint (ratio * n) := by exact_mod_cast (by omega : n / 2 - 1 + 1 ≤ rint (ratio * n))
    rw [abs_of_nonpos (by linarith : ratio * n - ((n / 2 - 1 : ℤ) : K) ≤ 0), abs_of_nonpos (by linarith : ratio * n - rint (ratio * n) ≤ 0)] at this
    linarith
  have hd : coherentOddBin n ratio = rint (ratio * n) ∨ coherentOddBin n ratio = rint (ratio * n) + 1 ∨ coherentOddBin n ratio = rint (ratio * n) - 1 := by
    unfold coherentOddBin
    simp only
    generalize rint (ratio * n) = k at hk1 hk2
    split_ifs <;> omega
  rw [abs_le] at hb ⊢
  rcases hd with hd | hd | hd <;> rw [hd] <;> push_cast <;> constructor <;> linarith [hb.1, hb.2]

private theorem odd_coprime_two_pow (b : ℤ) (hb : Odd b) (m : ℕ) : IsCoprime b (2 ^ m) := by
  apply IsCoprime.pow_right
  obtain ⟨k, hk⟩ := hb
  exact ⟨1, -k, by rw [hk]; ring⟩

/-- **C112 (coherent for powers of two).** For a power of two the odd bin is eligible in the sense of C01: no phase repeats. -/
theorem C112_odd_bin_eligible (m : ℕ) (ratio : K) : Eligible (2 ^ m) true (coherentOddBin (2 ^ m) ratio) := by
  obtain ⟨h1, h2, _⟩ := C112_odd_bin (2 ^ m) ratio
  exact ⟨by omega, fun _ => h2, odd_coprime_two_pow _ h2 m⟩

/-- For other lengths an odd bin need not be coherent: a quarter of the rate at 12 points is bin 3, which repeats every 4 samples. -/
theorem C112_odd_bin_not_eligible : coherentOddBin 12 (1 / 4 : ℚ) = 3 ∧ ¬ Eligible 12 true 3 := by
  refine ⟨by decide +kernel, ?_⟩
  rintro ⟨_, _, u, v, h⟩
  omega

/-- **C112 (near Nyquist).** From three points on, `near_nyquist_bin` is the largest bin strictly below Nyquist. It shares no factor with the length exactly when the length is odd
or a multiple of four. -/
theorem C112_near_nyquist (n : ℤ) (hn : 3 ≤ n) : 1 ≤ nearNyquistBin n ∧ 2 * nearNyquistBin n < n ∧ (∀ b : ℤ, 2 * b < n → b ≤ nearNyquistBin n) ∧
    (IsCoprime (nearNyquistBin n) n ↔ n % 2 = 1 ∨ n % 4 = 0) := by
  unfold nearNyquistBin
  refine ⟨by split_ifs <;> omega, by split_ifs <;> omega, fun b hb => by split_ifs <;> omega, ?_⟩
  split_ifs with h
  · rw [max_eq_right (by omega)]
    constructor
    · rintro ⟨u, v, huv⟩
      by_contra hc
      have h2 : n % 4 = 2 := by omega
      obtain ⟨c, hc⟩ : ∃ c, n / 2 - 1 = 2 * c := ⟨(n / 2 - 1) / 2, by omega⟩
      obtain ⟨d, hd⟩ : ∃ d, n = 2 * d := ⟨n / 2, by omega⟩
      have : 2 * (u * c + v * d) = 1 := by
        calc 2 * (u * c + v * d) = u * (2 * c) + v * (2 * d) := by ring
          _ = 1 := by rw [← hc, ← hd]; exact huv
      omega
    · intro hc
      obtain ⟨c, hc⟩ : ∃ c, n = 4 * c := ⟨n / 4, by omega⟩
      have : n / 2 - 1 = 2 * c - 1 := by omega
      rw [this, hc]
      exact ⟨-(2 * c + 1), c, by ring⟩
  · constructor
    · intro _
      omega
    · intro _
      obtain ⟨c, hc⟩ : ∃ c, n = 2 * c + 1 := ⟨n / 2, by omega⟩
      have : n / 2 = c := by omega
      rw [this, hc]
      exact ⟨-2, 1, by ring⟩

/-- With two points, the function returns the Nyquist bin. -/
theorem C112_near_nyquist_two : nearNyquistBin 2 = 1 := by decide

private theorem start_spec (n : ℤ) (hn : 4 ≤ n) (ratio : K) : 1 ≤ trainStartBin n ratio ∧ trainStartBin n ratio < n / 2 ∧ trainStartBin n ratio % 2 = 1 := by
  unfold trainStartBin
  simp only
  generalize rint (ratio * n) = k
  refine ⟨?_, ?_, ?_⟩ <;> split_ifs <;> omega

private theorem mem_trainCandidates (n b c : ℤ) : c ∈ trainCandidates n b ↔ ∃ i : ℕ, (i : ℤ) < n / 2 / 2 ∧ (c = b + 2 * ((i : ℤ) + 1) ∨ c = b - 2 * ((i : ℤ) + 1)) := by
  unfold trainCandidates
  simp only [List.mem_flatten, List.mem_map, List.mem_range]
  constructor
  · rintro ⟨l, ⟨i, hi, rfl⟩, hc⟩
    refine ⟨i, by omega, ?_⟩
    simpa using hc
  · rintro ⟨i, hi, hc⟩
    exact ⟨_, ⟨i, by omega, rfl⟩, by simpa using hc⟩

/-- The candidates come in order of distance from the start. -/
private theorem candidates_sorted (n b : ℤ) : (trainCandidates n b).Pairwise fun c d => |c - b| ≤ |d - b| := by
  unfold trainCandidates
  generalize (n / 2 / 2).toNat = m
  have key : ∀ m : ℕ, ((List.range m).map fun (i : ℕ) => [b + 2 * ((i : ℤ) + 1), b - 2 * ((i : ℤ) + 1)]).flatten.Pairwise (fun c d => |c - b| ≤ |d - b|) := by
    intro m
    induction m with
    | zero => simp
    | succ m ih =>
      rw [List.range_succ, List.map_append, List.flatten_append, List.pairwise_append]
      refine ⟨ih, ?_, ?_⟩
      · simp only [List.map_cons, List.map_nil, List.flatten_cons, List.flatten_nil, List.append_nil, List.pairwise_cons, List.mem_singleton, List.not_mem_nil, false_implies,
          implies_true, List.Pairwise.nil, and_true]
        intro d hd
        rw [hd]
        rw [show b + 2 * ((m : ℤ) + 1) - b = 2 * (m + 1) by ring, show b - 2 * ((m : ℤ) + 1) - b = -(2 * (m + 1)) by ring, abs_neg]
      · intro c hc d hd
        simp only [List.mem_flatten, List.mem_map, List.mem_range] at hc
        obtain ⟨l, ⟨i, hi, rfl⟩, hc⟩ := hc
        have hc' : |c - b| = 2 * ((i : ℤ) + 1) := by
          simp only [List.mem_cons, List.not_mem_nil, or_false] at hc
          rcases hc with rfl | rfl
          · rw [show b + 2 * ((i : ℤ) + 1) - b = 2 * (i + 1) by ring, abs_of_nonneg (by positivity)]
          · rw [show b - 2 * ((i : ℤ) + 1) - b = -(2 * (i + 1)) by ring, abs_neg, abs_of_nonneg (by positivity)]
        have hd' : |d - b| = 2 * ((m : ℤ) + 1) := by
          simp only [List.map_cons, List.map_nil, List.flatten_cons, List.flatten_nil, List.append_nil, List.mem_cons, List.not_mem_nil, or_false] at hd
          rcases hd with rfl | rfl
          · rw [show b + 2 * ((m : ℤ) + 1) - b = 2 * (m + 1) by ring, abs_of_nonneg (by positivity)]
          · rw [show b - 2 * ((m : ℤ) + 1) - b = -(2 * (m + 1)) by ring, abs_neg, abs_of_nonneg (by positivity)]
        rw [hc', hd']
        omega
  exact key m

private theorem find_first {α : Type} (R : α → α → Prop) (hR : ∀ x, R x x) (l : List α) (hl : l.Pairwise R) (P : α → Bool) (x : α) (hx : l.find? P = some x) :
    P x = true ∧ ∀ y ∈ l, P y = true → R x y := by
  induction l with
  | nil => simp at hx
  | cons a l ih =>
    rw [List.pairwise_cons] at hl
    rw [List.find?_cons] at hx
    cases ha : P a with
    | true =>
      rw [ha] at hx
      injection hx with hx
      subst hx
      refine ⟨ha, fun y hy hp => ?_⟩
      rcases List.mem_cons.mp hy with rfl | hy
      · exact hR _
      · exact hl.1 y hy
    | false =>
      rw [ha] at hx
      obtain ⟨h1, h2⟩ := ih hl.2 hx
      refine ⟨h1, fun y hy hp => ?_⟩
      rcases List.mem_cons.mp hy with rfl | hy
      · rw [ha] at hp
        exact absurd hp (by simp)
      · exact h2 y hy hp

/-- **C112 (training bin).** For every length of at least four samples and every target, `coherent_train_bin` returns an odd bin between 1 and Nyquist that shares no factor with the
length, and among all such bins a nearest one to the clamped target; the fall-back `return bin_index` is never used. -/
theorem C112_train_bin (n : ℤ) (hn : 4 ≤ n) (ratio : K) : 1 ≤ coherentTrainBin n ratio ∧ 2 * coherentTrainBin n ratio < n ∧ Eligible n true (coherentTrainBin n ratio) ∧
    ∀ c : ℤ, c < n / 2 → Eligible n true c → |coherentTrainBin n ratio - trainStartBin n ratio| ≤ |c - trainStartBin n ratio| := by
  obtain ⟨s1, s2, s3⟩ := start_spec n hn ratio
  have hco : ∀ c : ℤ, Int.gcd n c = 1 ↔ IsCoprime c n := by
    intro c
    rw [Int.gcd_comm]
    exact Int.isCoprime_iff_gcd_eq_one.symm
  unfold coherentTrainBin
  simp only
  generalize trainStartBin n ratio = b at s1 s2 s3
  split_ifs with hg
  · refine ⟨s1, by omega, ⟨by omega, fun _ => Int.odd_iff.mpr s3, (hco b).mp hg⟩, fun c _ _ => ?_⟩
    rw [sub_self, abs_zero]
    exact abs_nonneg _
  · have hb1 : b ≠ 1 := by
      intro hb
      apply hg
      rw [hb]
      simp
    have hone : (1 : ℤ) ∈ trainCandidates n b := (mem_trainCandidates n b 1).mpr ⟨((b - 3) / 2).toNat, by omega, Or.inr (by omega)⟩
    have hex : ((trainCandidates n b).find? fun c => decide (1 ≤ c ∧ c < n / 2 ∧ Int.gcd n c = 1)).isSome := by
      rw [List.find?_isSome]
      refine ⟨1, hone, ?_⟩
      rw [decide_eq_true_iff]
      exact ⟨le_rfl, by omega, by simp⟩
    obtain ⟨x, hx⟩ := Option.isSome_iff_exists.mp hex
    rw [hx]
    simp only
    obtain ⟨hp, hmin⟩ := find_first (fun c d => |c - b| ≤ |d - b|) (fun _ => le_rfl) _ (candidates_sorted n b) _ x hx
    rw [decide_eq_true_iff] at hp
    obtain ⟨p1, p2, p3⟩ := hp
    have hxm := List.mem_of_find?_eq_some hx
    obtain ⟨i, hi, hxi⟩ := (mem_trainCandidates n b x).mp hxm
    refine ⟨p1, by omega, ⟨by omega, fun _ => Int.odd_iff.mpr (by omega), (hco x).mp p3⟩, fun c hc hel => ?_⟩
    obtain ⟨e1, e2, e3⟩ := hel
    have hodd := Int.odd_iff.mp (e2 rfl)
    have hcb : c ≠ b := by
      intro h
      exact hg ((hco b).mpr (h ▸ e3))
    have hcm : c ∈ trainCandidates n b := by
      rw [mem_trainCandidates]
      rcases lt_or_gt_of_ne hcb with h | h
      · exact ⟨((b - c) / 2 - 1).toNat, by omega, Or.inr (by omega)⟩
      · exact ⟨((c - b) / 2 - 1).toNat, by omega, Or.inl (by omega)⟩
    exact hmin c hcm (by
      rw [decide_eq_true_iff]
      exact ⟨by omega, hc, (hco c).mpr e3⟩)

-- the script's own ratio: at 15 samples the rounded bin 1 is used; at 60 samples bin 5 shares a factor and 7 is taken; at 1000 samples bin 61
example : coherentTrainBin 15 (997 / 16384 : ℚ) = 1 := by decide +kernel
example : coherentTrainBin 60 (997 / 16384 : ℚ) = 7 ∧ trainStartBin 60 (997 / 16384 : ℚ) = 5 := by decide +kernel
example : coherentTrainBin 1000 (997 / 16384 : ℚ) = 61 := by decide +kernel
example : coherentOddBin 1024 (123 / 1000 : ℚ) = 127 ∧ coherentOddBin 2 (123 / 1000 : ℚ) = 1 := by decide +kernel

/-- **C112 (quantizer).** Up to 53 bits `quantize_ideal` is the generator's quantizer on (0, 1) moved up by half a step, for every input; inside the range its error is at most half a
step. -/
theorem C112_quantizer (v : K) (n : ℕ) (hn : n ≤ 53) : quantizeIdeal v n = quantize v n 0 1 + 1 / 2 ^ (n + 1) ∧ (0 ≤ v → v ≤ 1 → |quantizeIdeal v n - v| ≤ 1 / 2 ^ (n + 1)) := by
  have hp : (0 : K) < 2 ^ n := by positivity
  have h53 : (2 : K) ^ n ≤ 2 ^ 53 := pow_le_pow_right₀ (by norm_num) hn
  have h53p : (0 : K) < 2 ^ 53 := by positivity
  have hulp : (1 : K) / 2 ^ 53 * 2 ^ n ≤ 1 := by
    rw [div_mul_eq_mul_div, one_mul, div_le_one h53p]
    exact h53
  have hulp0 : (0 : K) < 1 / 2 ^ 53 * 2 ^ n := by positivity
  have hulp1 : (1 : K) / 2 ^ 53 < 1 := by norm_num
  have hone : (1 : ℤ) ≤ 2 ^ n := by exact_mod_cast Nat.one_le_two_pow
  have hcode : ⌊clip v 0 (1 - 1 / 2 ^ 53) * 2 ^ n⌋ = clip ⌊(v - 0) / ((1 - 0) / 2 ^ n)⌋ 0 (2 ^ n - 1) := by
    rw [sub_zero, sub_zero, div_div_eq_mul_div, div_one]
    unfold clip
    rcases le_total v 0 with h0 | h0
    · rw [max_eq_right h0, min_eq_left (by linarith), zero_mul, Int.floor_zero]
      have : ⌊v * 2 ^ n⌋ ≤ 0 := by
        rw [← Int.floor_zero (R := K)]
        exact Int.floor_le_floor (mul_nonpos_of_nonpos_of_nonneg h0 hp.le)
      rw [max_eq_right this, min_eq_left (by omega)]
    · rw [max_eq_left h0]
      have hf0 : 0 ≤ ⌊v * 2 ^ n⌋ := Int.floor_nonneg.mpr (by positivity)
      rw [max_eq_left hf0]
      rcases le_total v (1 - 1 / 2 ^ 53) with h1 | h1
      · rw [min_eq_left h1, min_eq_left]
        have : v * 2 ^ n < (2 : K) ^ n := by
          have : v < 1 := by linarith [div_pos (one_pos (α := K)) h53p]
          nlinarith
        have : ⌊v * 2 ^ n⌋ < (2 ^ n : ℤ) := by
          rw [Int.floor_lt]
          push_cast
          exact this
        omega
      · rw [min_eq_right h1]
        have hfl : ⌊(1 - 1 / 2 ^ 53 : K) * 2 ^ n⌋ = 2 ^ n - 1 := by
          rw [Int.floor_eq_iff]
          push_cast
          constructor
          · rw [sub_mul, one_mul]
            linarith
          · rw [sub_mul, one_mul]
            linarith
        rw [hfl, min_eq_right]
        rw [← hfl]
        exact Int.floor_le_floor (mul_le_mul_of_nonneg_right h1 hp.le)
  have heq : quantizeIdeal v n = quantize v n 0 1 + 1 / 2 ^ (n + 1) := by
    unfold quantizeIdeal quantize
    simp only
    rw [hcode, add_div, sub_zero, pow_succ]
    field_simp
    try ring
  refine ⟨heq, fun h0 h1 => ?_⟩
  rw [heq]
  have hhalf : (1 : K) / 2 ^ (n + 1) = 1 / 2 ^ n / 2 := by
    rw [pow_succ, div_div]
  obtain ⟨_, ⟨k, hk, hkq⟩, hin, _⟩ := C53_quantizer n v v (0 : K) 1 one_pos
  rw [sub_zero] at hin hkq
  rcases lt_or_eq_of_le h1 with hlt | rfl
  · obtain ⟨q1, q2⟩ := hin h0 hlt
    rw [hhalf, abs_le]
    constructor <;> linarith
  · have hq : quantize (1 : K) n 0 1 = 1 - 1 / 2 ^ n := by
      unfold quantize
      simp only
      rw [sub_zero, div_div_eq_mul_div, div_one, one_mul]
      have : ⌊(2 : K) ^ n⌋ = 2 ^ n := by
        rw [show (2 : K) ^ n = ((2 ^ n : ℤ) : K) by push_cast; rfl, Int.floor_intCast]
      rw [this]
      unfold clip
      rw [max_eq_left (by positivity), min_eq_right (by omega)]
      push_cast
      field_simp
      try ring
    have hpi : (0 : K) < 1 / 2 ^ n := by positivity
    rw [hq, hhalf, abs_le]
    constructor <;> linarith

end bins

/-- **C112 (noise for an ENOB).** `noise_rms_for_enob` returns the noise that, together with the ideal quantization noise of one twelfth of a squared step, gives exactly the requested
ENOB; if quantization alone already exceeds the budget it returns zero, and the ENOB is then below the request. -/
theorem C112_noise_for_enob (A : ℝ) (hA : 0 < A) (n : ℕ) (enob : ℝ) : 0 ≤ noiseRmsForEnob A n enob ∧
    ((1 / 2 ^ n : ℝ) ^ 2 / 12 ≤ A ^ 2 / 2 / 10 ^ (enobToSnr enob / 10) →
      snrToEnob (powerToDb (A ^ 2 / 2 / (noiseRmsForEnob A n enob ^ 2 + (1 / 2 ^ n) ^ 2 / 12))) = enob) ∧
    (A ^ 2 / 2 / 10 ^ (enobToSnr enob / 10) < (1 / 2 ^ n : ℝ) ^ 2 / 12 →
      noiseRmsForEnob A n enob = 0 ∧ snrToEnob (powerToDb (A ^ 2 / 2 / ((1 / 2 ^ n) ^ 2 / 12))) < enob) := by
  have hts : 602 / 100 * enob + 176 / 100 = enobToSnr enob := by
    unfold enobToSnr
    ring
  have hS : 0 < A ^ 2 / 2 := by positivity
  have hpow : (0 : ℝ) < 10 ^ (enobToSnr enob / 10) := by positivity
  refine ⟨Real.sqrt_nonneg _, fun h => ?_, fun h => ?_⟩
  · have hsq : noiseRmsForEnob A n enob ^ 2 + (1 / 2 ^ n) ^ 2 / 12 = A ^ 2 / 2 / 10 ^ (enobToSnr enob / 10) := by
      unfold noiseRmsForEnob
      simp only
      rw [hts, max_eq_left (by linarith), Real.sq_sqrt (by linarith)]
      ring
    rw [hsq, div_div_cancel₀ hS.ne']
    have : powerToDb ((10 : ℝ) ^ (enobToSnr enob / 10)) = enobToSnr enob := by
      have := (C06_db_round_trips (enobToSnr enob) 1 one_pos).2.2.2.1
      unfold dbToPower at this
      exact this
    rw [this]
    exact (C06_lsb_enob_round_trips enob 1 0 (by norm_num)).2.2.2
  · constructor
    · unfold noiseRmsForEnob
      simp only
      rw [hts, max_eq_right (by linarith), Real.sqrt_zero]
    · have hq : (0 : ℝ) < (1 / 2 ^ n) ^ 2 / 12 := by positivity
      have hlt : A ^ 2 / 2 / ((1 / 2 ^ n) ^ 2 / 12) < 10 ^ (enobToSnr enob / 10) := by
        rw [div_lt_iff₀ hpow] at h
        rw [div_lt_iff₀ hq]
        linarith
      have hlog : powerToDb (A ^ 2 / 2 / ((1 / 2 ^ n) ^ 2 / 12)) < enobToSnr enob := by
        have h1 := (C06_db_round_trips (enobToSnr enob) 1 one_pos).2.2.2.1
        unfold dbToPower at h1
        rw [← h1]
        unfold powerToDb log10
        have := Real.logb_lt_logb (b := 10) (by norm_num) (div_pos hS hq) hlt
        linarith
      have h2 := (C06_lsb_enob_round_trips enob 1 0 (by norm_num)).2.2.2
      rw [← h2]
      unfold snrToEnob
      exact div_lt_div_of_pos_right (by linarith) (by norm_num)

-- a 10-bit converter at half scale can be noisy enough for 9 bits
example : ((1 : ℝ) / 2 ^ 10) ^ 2 / 12 ≤ (1 / 2) ^ 2 / 2 / 10 ^ (enobToSnr 9 / 10) := by
  have h : (10 : ℝ) ^ (enobToSnr 9 / 10) ≤ 10 ^ (6 : ℝ) := by
    apply Real.rpow_le_rpow_of_exponent_le (by norm_num)
    unfold enobToSnr
    norm_num
  rw [le_div_iff₀ (by positivity)]
  have h6 : (10 : ℝ) ^ (6 : ℝ) = 1000000 := by
    rw [show (6 : ℝ) = ((6 : ℕ) : ℝ) by norm_num, Real.rpow_natCast]
    norm_num
  rw [h6] at h
  calc ((1 : ℝ) / 2 ^ 10) ^ 2 / 12 * 10 ^ (enobToSnr 9 / 10) ≤ (1 / 2 ^ 10) ^ 2 / 12 * 1000000 := by gcongr
    _ ≤ _ := by norm_num

end Verif
