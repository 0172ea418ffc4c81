import Verif.Model.MatlabFind
import Verif.Theorems.Frequency

/-!
# C129: `find_coherent_frequency` and MATLAB `findbin.m`
-/

namespace Verif

open Model Spec

variable {K : Type} [Field K] [LinearOrder K] [IsStrictOrderedRing K] [FloorRing K]

/-- What `findbin.m` returns: a bin without a factor in common with the record length; the distance counted from the
rounded-down target is the least any such bin has, the upper of two equally far ones is taken. -/
theorem C129_findbin (fs fin : K) (n : ℕ) (b : ℤ) (h : mlFindBin fs fin n = some b) :
    IsCoprime b (n : ℤ) ∧ ∀ b' : ℤ, IsCoprime b' (n : ℤ) → 0 < b' ∨ ⌊fin / fs * n⌋ ≤ b' →
      |b - ⌊fin / fs * n⌋| < |b' - ⌊fin / fs * n⌋| ∨ |b - ⌊fin / fs * n⌋| = |b' - ⌊fin / fs * n⌋| ∧ b' ≤ b := by
  unfold mlFindBin at h
  by_cases hfs : fs ≤ 0
  · rw [if_pos hfs] at h
    cases h
  rw [if_neg hfs] at h
  by_cases hn : 0 < n
  swap
  · rw [dif_neg hn] at h
    cases h
  rw [dif_pos hn] at h
  simp only [Option.some.injEq] at h
  generalize ⌊fin / fs * n⌋ = s at h ⊢
  have hs := Nat.find_spec (mlBinHit_exists n hn s)
  have hm : ∀ e : ℕ, mlBinHit n s e → Nat.find (mlBinHit_exists n hn s) ≤ e := fun e he => Nat.find_min' _ he
  generalize Nat.find (mlBinHit_exists n hn s) = d at h hs hm
  have key : ∀ b' : ℤ, IsCoprime b' (n : ℤ) → 0 < b' ∨ s ≤ b' → (d : ℤ) ≤ |b' - s| := by
    intro b' hc hb
    have hg := Int.isCoprime_iff_gcd_eq_one.mp hc
    by_cases hle : s ≤ b'
    · have := hm (b' - s).toNat (Or.inl (by rw [Int.toNat_of_nonneg (by omega), add_sub_cancel]; exact hg))
      rw [abs_of_nonneg (by omega)]
      omega
    · have h0 : 0 < b' := by omega
      have := hm (s - b').toNat (Or.inr (by rw [Int.toNat_of_nonneg (by omega), sub_sub_cancel]; exact ⟨h0, hg⟩))
      rw [abs_of_neg (by omega)]
      omega
  by_cases hu : Int.gcd (s + d) n = 1
  · rw [if_pos hu] at h
    subst h
    refine ⟨Int.isCoprime_iff_gcd_eq_one.mpr hu, fun b' hc hb => ?_⟩
    have hk := key b' hc hb
    rw [add_sub_cancel_left, abs_of_nonneg (by omega : (0 : ℤ) ≤ d)]
    rcases lt_or_eq_of_le hk with hk | hk
    · exact Or.inl hk
    · refine Or.inr ⟨hk, ?_⟩
      have := le_abs_self (b' - s)
      omega
  · rw [if_neg hu] at h
    subst h
    obtain hs | hs := hs
    · exact absurd hs hu
    refine ⟨Int.isCoprime_iff_gcd_eq_one.mpr hs.2, fun b' hc hb => ?_⟩
    have hk := key b' hc hb
    rw [show s - d - s = -(d : ℤ) by ring, abs_neg, abs_of_nonneg (by omega : (0 : ℤ) ≤ d)]
    rcases lt_or_eq_of_le hk with hk | hk
    · exact Or.inl hk
    · refine Or.inr ⟨hk, ?_⟩
      by_contra hlt
      have hup : b' = s + d := by
        rcases abs_cases (b' - s) with hh | hh <;> omega
      rw [hup] at hc
      exact hu (Int.isCoprime_iff_gcd_eq_one.mp hc)

/-- `findbin.m` answers for every frequency as soon as the rate and the record length are positive. -/
theorem C129_findbin_answers (fs fin : K) (n : ℕ) : (mlFindBin fs fin n).isSome = true ↔ 0 < fs ∧ 0 < n := by
  unfold mlFindBin
  by_cases hfs : fs ≤ 0
  · rw [if_pos hfs]
    simp [not_lt.mpr hfs]
  · rw [if_neg hfs]
    by_cases hn : 0 < n
    · rw [dif_pos hn]
      simp [not_le.mp hfs, hn]
    · rw [dif_neg hn]
      simp [hn]

private theorem not_coprime_zero (n : ℕ) (hn : 2 ≤ n) (b : ℤ) (hb : IsCoprime b (n : ℤ)) : b ≠ 0 := by
  rintro rfl
  have := Int.isCoprime_iff_gcd_eq_one.mp hb
  simp at this
  omega

private theorem odd_of_even (n : ℕ) (he : Even n) (b : ℤ) (hb : IsCoprime b (n : ℤ)) : Odd b := by
  by_contra h
  rw [Int.not_odd_iff_even] at h
  obtain ⟨k, hk⟩ := he
  obtain ⟨j, hj⟩ := h
  obtain ⟨u, v, huv⟩ := hb
  rw [hj, hk] at huv
  have h1 : Even (1 : ℤ) := ⟨u * j + v * k, by push_cast at huv; linarith⟩
  exact absurd h1 (by decide)

/-- **C129 (same bin).** When the requested bin is not negative and lies strictly between a whole number and the
midpoint above it, whatever bin `find_coherent_frequency` returns – with the even bins allowed, or for an even record
length – is the bin `findbin.m` returns. -/
theorem C129_same (fs fin : K) (hfs : 0 < fs) (hfin : 0 ≤ fin) (n : ℕ) (hn : 2 ≤ n) (odd : Bool) (hodd : odd = true → Even n) (r : ℤ)
    (hf0 : 0 < Int.fract (fin / fs * n)) (hf1 : Int.fract (fin / fs * n) < 1 / 2) (f : K) (b : ℤ)
    (h : findCoherentFrequency fs fin n odd r = .ok (f, b)) : mlFindBin fs fin n = some b := by
  obtain ⟨m, hm⟩ := Option.isSome_iff_exists.mp ((C129_findbin_answers fs fin n).mpr ⟨hfs, by omega⟩)
  obtain ⟨hc, hall⟩ := C129_findbin fs fin n m hm
  obtain ⟨hb, -⟩ := C01_coherent_bin_optimal fs fin n odd r f b h
  have hs0 : 0 ≤ ⌊fin / fs * (n : K)⌋ := Int.floor_nonneg.mpr (by positivity)
  have hfloor := Int.floor_add_fract (fin / fs * (n : K))
  have h1 := hall b hb.2.2 (Or.inl hb.1)
  have hm0 : m ≠ 0 := not_coprime_zero n hn m hc
  generalize hs : ⌊fin / fs * (n : K)⌋ = s at *
  have hmpos : 0 < m := by
    by_contra hneg
    -- a negative bin would be farther than its upper mirror image
    have h2 : (0 : ℤ) < 1 := by norm_num
    have := hall (s + (s - m)) 
    have h3 := hall 1 isCoprime_one_left (Or.inl h2)
    rcases abs_cases (m - s) with ha | ha <;> rcases abs_cases ((1 : ℤ) - s) with hb' | hb' <;> omega
  have hE : Eligible n odd m := ⟨hmpos, fun ho => odd_of_even n (hodd ho) m hc, hc⟩
  have h2 := C01_coherent_bin_globally_closest fs fin n odd r f b h m hE
  rw [hm]
  congr 1
  rw [Int.cast_natCast, ← hfloor] at h2
  generalize Int.fract (fin / fs * (n : K)) = x at *
  have e : ∀ z : ℤ, (z : K) - ((s : K) + x) = ((z - s : ℤ) : K) - x := by intro z; push_cast; ring
  rw [e, e] at h2
  have hd : |b - s| ≥ |m - s| := by rcases h1 with h1 | h1 <;> omega
  by_contra hne
  rcases h1 with h1 | ⟨h1, h3⟩
  · -- a bin farther from the start is farther from the target
    have h4 : (|((m - s : ℤ) : K)| : K) + 1 ≤ |((b - s : ℤ) : K)| := by
      rw [← Int.cast_abs, ← Int.cast_abs]
      exact_mod_cast h1
    have h5 : |((b - s : ℤ) : K)| - |x| ≤ |((b - s : ℤ) : K) - x| := abs_sub_abs_le_abs_sub _ _
    have h6 : |((m - s : ℤ) : K) - x| ≤ |((m - s : ℤ) : K)| + |x| := abs_sub _ _
    rw [abs_of_pos hf0] at h5 h6
    linarith
  · have h4 : b - s = -(m - s) ∧ 0 < m - s := by
      rcases abs_cases (m - s) with ha | ha <;> rcases abs_cases (b - s) with hb' | hb' <;> omega
    have h5 : (1 : K) ≤ ((m - s : ℤ) : K) := by exact_mod_cast h4.2
    rw [h4.1, Int.cast_neg, abs_of_neg (by linarith), abs_of_pos (by linarith)] at h2
    linarith

private theorem coprime_two_pow (k : ℕ) (b : ℤ) (hb : Odd b) : IsCoprime b ((2 ^ k : ℕ) : ℤ) := by
  rw [Nat.cast_pow]
  apply IsCoprime.pow_right
  obtain ⟨j, hj⟩ := hb
  exact ⟨1, -j, by rw [hj]; push_cast; ring⟩

private theorem ml_pow2 (fs fin : K) (hfs : 0 < fs) (hfin : 0 ≤ fin) (k : ℕ) (hk : 0 < k) :
    mlFindBin fs fin (2 ^ k) = some (if Odd ⌊fin / fs * ((2 ^ k : ℕ) : K)⌋ then ⌊fin / fs * ((2 ^ k : ℕ) : K)⌋ else ⌊fin / fs * ((2 ^ k : ℕ) : K)⌋ + 1) := by
  obtain ⟨m, hm⟩ := Option.isSome_iff_exists.mp ((C129_findbin_answers fs fin (2 ^ k)).mpr ⟨hfs, by positivity⟩)
  obtain ⟨hc, hall⟩ := C129_findbin fs fin (2 ^ k) m hm
  have hs0 : 0 ≤ ⌊fin / fs * ((2 ^ k : ℕ) : K)⌋ := Int.floor_nonneg.mpr (by positivity)
  have hmo : Odd m := odd_of_even (2 ^ k) (by rw [Nat.even_pow]; exact ⟨even_two, by omega⟩) m hc
  rw [hm]
  congr 1
  generalize ⌊fin / fs * ((2 ^ k : ℕ) : K)⌋ = s at *
  split
  · rename_i ho
    have h1 := hall s (coprime_two_pow k s ho) (Or.inr le_rfl)
    rcases abs_cases (m - s) with ha | ha <;> rw [sub_self, abs_zero] at h1 <;> omega
  · rename_i ho
    rw [Int.not_odd_iff_even] at ho
    have h1 := hall (s + 1) (coprime_two_pow k _ ho.add_one) (Or.inr (by omega))
    rw [add_sub_cancel_left, abs_one] at h1
    obtain ⟨i, hi⟩ := hmo
    obtain ⟨j, hj⟩ := ho
    rcases abs_cases (m - s) with ha | ha <;> omega

/-- **C129 (record lengths that are powers of two).** For a power of two, a positive rate, a frequency that is not negative and any
search radius from one up, both functions return a bin. It is the same bin unless the requested one is an even whole number above zero:
there `find_coherent_frequency` takes the bin below and `findbin.m` the bin above. -/
theorem C129_power_of_two (fs fin : K) (hfs : 0 < fs) (hfin : 0 ≤ fin) (k : ℕ) (hk : 0 < k) (odd : Bool) (r : ℤ) (hr : 1 ≤ r) :
    ∃ (f : K) (b : ℤ), findCoherentFrequency fs fin ((2 ^ k : ℕ) : ℤ) odd r = .ok (f, b) ∧
      ((∀ z : ℤ, 0 < z → fin / fs * ((2 ^ k : ℕ) : K) ≠ ((2 * z : ℤ) : K)) → mlFindBin fs fin (2 ^ k) = some b) ∧
      (∀ z : ℤ, 0 < z → fin / fs * ((2 ^ k : ℕ) : K) = ((2 * z : ℤ) : K) → b = 2 * z - 1 ∧ mlFindBin fs fin (2 ^ k) = some (2 * z + 1)) := by
  have hcast : (((2 ^ k : ℕ) : ℤ) : K) = ((2 ^ k : ℕ) : K) := Int.cast_natCast _
  have hn0 : ((2 ^ k : ℕ) : ℤ) ≠ 0 := by positivity
  have ht0 : 0 ≤ fin / fs * ((2 ^ k : ℕ) : K) := by positivity
  have hml := ml_pow2 fs fin hfs hfin k hk
  have hex : ∃ (f : K) (b : ℤ), findCoherentFrequency fs fin ((2 ^ k : ℕ) : ℤ) odd r = .ok (f, b) := by
    rcases C02_coherent_total fs fin ((2 ^ k : ℕ) : ℤ) odd r hfs.ne' hn0 with he | he
    · exfalso
      obtain ⟨c, hc, hnone⟩ := (C02_coherent_error_iff fs fin ((2 ^ k : ℕ) : ℤ) odd r hfs.ne').mp he
      rw [hcast] at hc
      have hc0 : 0 ≤ c := by
        by_contra hneg
        have h1 := hc.1 0
        have h2 : (c : K) ≤ -1 := by exact_mod_cast (by omega : c ≤ -1)
        rw [Int.cast_zero, sub_zero, abs_of_nonneg ht0, abs_of_nonneg (by linarith)] at h1
        linarith
      rcases Int.even_or_odd c with h2 | h2
      · exact hnone (c + 1) (by omega) (by omega) ⟨by omega, fun _ => h2.add_one, coprime_two_pow k _ h2.add_one⟩
      · have : c ≠ 0 := by rintro rfl; exact absurd h2 (by decide)
        exact hnone c (by omega) (by omega) ⟨by omega, fun _ => h2, coprime_two_pow k _ h2⟩
    · exact he
  obtain ⟨f, b, hb⟩ := hex
  refine ⟨f, b, hb, ?_⟩
  obtain ⟨⟨hbpos, -, hbc⟩, -, c, hc, hlo, hhi, htie⟩ := C01_coherent_bin_optimal fs fin ((2 ^ k : ℕ) : ℤ) odd r f b hb
  have hglob := C01_coherent_bin_globally_closest fs fin ((2 ^ k : ℕ) : ℤ) odd r f b hb
  have hbo : Odd b := odd_of_even (2 ^ k) (by rw [Nat.even_pow]; exact ⟨even_two, by omega⟩) b hbc
  have hel : ∀ z : ℤ, 0 < z → Odd z → Eligible ((2 ^ k : ℕ) : ℤ) odd z := fun z h0 h1 => ⟨h0, fun _ => h1, coprime_two_pow k z h1⟩
  rw [hcast] at hc htie hglob
  have hs0 : 0 ≤ ⌊fin / fs * ((2 ^ k : ℕ) : K)⌋ := Int.floor_nonneg.mpr ht0
  have hfl := Int.floor_add_fract (fin / fs * ((2 ^ k : ℕ) : K))
  have hx0 := Int.fract_nonneg (fin / fs * ((2 ^ k : ℕ) : K))
  have hx1 := Int.fract_lt_one (fin / fs * ((2 ^ k : ℕ) : K))
  obtain ⟨i, hi⟩ := hbo
  constructor
  · intro hne
    rw [hml]
    congr 1
    generalize fin / fs * ((2 ^ k : ℕ) : K) = t at *
    generalize Int.fract t = x at *
    generalize ⌊t⌋ = s at *
    split
    · rename_i ho
      have hsp : s ≠ 0 := by rintro rfl; exact absurd ho (by decide)
      have h1 := hglob s (hel s (by omega) ho)
      rw [show (s : K) - t = -x by linarith, abs_neg, abs_of_nonneg hx0, abs_le] at h1
      have h2 : (b : K) < s + 2 := by linarith [h1.2]
      have h3 : (s : K) - 2 < b := by linarith [h1.1]
      have h2' : b < s + 2 := by exact_mod_cast h2
      have h3' : s - 2 < b := by exact_mod_cast h3
      obtain ⟨j, hj⟩ := ho
      omega
    · rename_i ho
      rw [Int.not_odd_iff_even] at ho
      have h1 := hglob (s + 1) (hel _ (by omega) ho.add_one)
      have e1 : ((s + 1 : ℤ) : K) - t = 1 - x := by push_cast; linarith
      rw [e1, abs_of_pos (show (0 : K) < 1 - x by linarith), abs_le] at h1
      have h2 : (b : K) < s + 2 := by linarith [h1.2]
      have h2' : b < s + 2 := by exact_mod_cast h2
      obtain ⟨j, hj⟩ := ho
      have h3 : s - 1 < b := by
        rcases hx0.eq_or_lt with hx | hx
        · have hs : s = 0 := by
            by_contra hsne
            exact hne j (by omega) (by rw [← hfl, ← hx, add_zero, hj, two_mul])
          omega
        · have h3 : (s : K) - 1 < b := by linarith [h1.1]
          exact_mod_cast h3
      omega
  · intro z hz ht
    have hsz : ⌊fin / fs * ((2 ^ k : ℕ) : K)⌋ = 2 * z := by rw [ht, Int.floor_intCast]
    have hev : ¬ Odd (2 * z) := by rw [Int.not_odd_iff_even]; exact even_two_mul z
    rw [hsz, if_neg hev] at hml
    refine ⟨?_, hml⟩
    have hoL : Odd (2 * z - 1) := ⟨z - 1, by ring⟩
    have hcz : c = 2 * z := by
      have h1 := hc.1 (2 * z)
      rw [ht, sub_self, abs_zero] at h1
      have h2 := abs_nonpos_iff.mp h1
      have h3 : (((2 * z : ℤ)) : K) = c := by linarith
      exact (by exact_mod_cast h3.symm)
    have h1 := htie (2 * z - 1) (hel _ (by omega) hoL) (by omega) (by omega)
    have e1 : ((2 * z - 1 : ℤ) : K) - ((2 * z : ℤ) : K) = -1 := by push_cast; ring
    rw [ht, e1, abs_neg, abs_one] at h1
    have e2 : (b : K) - ((2 * z : ℤ) : K) = ((b - 2 * z : ℤ) : K) := by push_cast; ring
    rw [e2, ← Int.cast_abs] at h1
    have h2 : |b - 2 * z| < 1 ∨ |b - 2 * z| = 1 ∧ b ≤ 2 * z - 1 := by
      rcases h1 with h1 | h1
      · left; exact_mod_cast h1
      · right; exact ⟨by exact_mod_cast h1.1, h1.2⟩
    rcases abs_cases (b - 2 * z) with ha | ha <;> omega

/-- **C129 (not the same bin).** The documentation calls the two matched. Asked for 100 MHz at 800 MHz and 8192 points, the
documented example, `find_coherent_frequency` returns 1023 where `findbin.m` returns 1025; a record length that is not a power of two
gives different bins between the midpoint and the next whole number, because `findbin.m` rounds the start down; an odd record length gives even bins
only from `findbin.m`; and a frequency below zero gives a negative bin from `findbin.m`. -/
theorem C129_differs :
    ((findCoherentFrequency (800 : ℚ) 100 8192 true 200).map Prod.snd = .ok 1023 ∧ mlFindBin (800 : ℚ) 100 8192 = some 1025) ∧
    ((findCoherentFrequency (9 : ℚ) (17 / 10) 9 false 200).map Prod.snd = .ok 2 ∧ mlFindBin (9 : ℚ) (17 / 10) 9 = some 1) ∧
    ((findCoherentFrequency (9 : ℚ) (22 / 10) 9 true 200).map Prod.snd = .ok 1 ∧ mlFindBin (9 : ℚ) (22 / 10) 9 = some 2) ∧
    ((findCoherentFrequency (16 : ℚ) (-5 / 2) 16 true 200).map Prod.snd = .ok 1 ∧ mlFindBin (16 : ℚ) (-5 / 2) 16 = some (-3)) := by
  decide +kernel

/-- Non-vacuity of `C129_same`: 2.2 cycles of a record of nine points, even bins allowed. -/
example : 0 < Int.fract ((22 / 10 : ℚ) / 9 * (9 : ℕ)) ∧ Int.fract ((22 / 10 : ℚ) / 9 * (9 : ℕ)) < 1 / 2 ∧
    (findCoherentFrequency (9 : ℚ) (22 / 10) (9 : ℕ) false 200).map Prod.snd = .ok 2 ∧ mlFindBin (9 : ℚ) (22 / 10) 9 = some 2 := by
  decide +kernel

end Verif
