import Verif.Model.MatlabOsr
import Verif.Theorems.Osr
import Verif.Theorems.Ntf

/-!
# C119: `perfosr` and `ntfperf` against MATLAB `perfosr.m` and `ntfperf.m`
-/

namespace Verif

open Model Finset

section

variable {K : Type} [Field K] [LinearOrder K] [IsStrictOrderedRing K] [FloorRing K]

private theorem inband_range (N len : ℕ) (hl : 1 ≤ len) (osr : K) : 1 ≤ mlInband N len osr ∧ mlInband N len osr ≤ len := by
  unfold mlInband
  omega

private theorem inband_anti (N len : ℕ) (a b : K) (ha : 0 < a) (hab : a ≤ b) : mlInband N len b ≤ mlInband N len a := by
  have : ⌊(N : K) / 2 / b⌋ ≤ ⌊(N : K) / 2 / a⌋ := by
    apply Int.floor_le_floor
    apply div_le_div_of_nonneg_left (by positivity) ha hab
  unfold mlInband
  omega

private theorem max_getD (l : List K) (a : K) (t : List K) (h : l = a :: t) : l.max?.getD 0 = maxOf a t := by
  subst h
  simp [List.max?, maxOf]

private theorem ml_step_ok (e : List K) (he : ∀ v ∈ e, 0 ≤ v) (N : ℕ) (hl : 1 ≤ e.length)
    (osr : List K) (s : SweepState K) (i : ℕ) (hinv : SweepInv e s) (hprev : s.prev ≤ mlInband N e.length (osr.getD i 0)) :
    SweepInv e (mlSweepStep e N osr s i) ∧ (mlSweepStep e N osr s i).prev = mlInband N e.length (osr.getD i 0) ∧
      (mlSweepStep e N osr s i).out = Function.update s.out i (some ((mlSweepStep e N osr s i).noise, (mlSweepStep e N osr s i).spur)) := by
  obtain ⟨h1, h2⟩ := inband_range N e.length hl (osr.getD i 0)
  set c := mlInband N e.length (osr.getD i 0) with hc
  obtain ⟨i1, i2, i3, i4, i5⟩ := hinv
  unfold mlSweepStep
  simp only [← hc]
  by_cases hlt : s.prev < c
  · rw [if_pos hlt]
    refine ⟨?_, rfl, rfl⟩
    cases hs : slice e s.prev c with
    | nil =>
      exfalso
      have : (slice e s.prev c).length = c - s.prev := by
        unfold slice; rw [List.length_drop, List.length_take]; omega
      rw [hs] at this
      simp at this
      omega
    | cons a l =>
      rw [max_getD (a :: l) a l rfl]
      have hmem : ∀ v, v ∈ a :: l ↔ ∃ k, s.prev ≤ k ∧ k < c ∧ v = e.getD k 0 := by
        intro v; rw [← hs]; exact mem_slice h2 v
      have hsum : (a :: l).sum = ∑ k ∈ Ico s.prev c, e.getD k 0 := by
        rw [← hs, slice_sum, min_eq_left h2]
      refine ⟨?_, fun h => by simp at h; omega, fun _ => ?_, ?_, le_trans i5 (le_max_left _ _)⟩
      · simp only
        rw [hsum, i1, ← sum_range_add_sum_Ico _ hlt.le]
      · simp only
        obtain ⟨k, k1, k2, k3⟩ := (hmem _).mp (maxOf_mem a l)
        rcases le_total s.spur (maxOf a l) with hle | hle
        · rw [max_eq_right hle]
          exact ⟨k, k2, k3⟩
        · rw [max_eq_left hle]
          by_cases hp : s.prev = 0
          · have h0 := i2 hp
            rw [h0] at hle ⊢
            have hnn : 0 ≤ maxOf a l := by
              rw [k3]
              apply he
              rw [List.getD_eq_getElem?_getD, List.getElem?_eq_getElem (by omega)]
              exact List.getElem_mem _
            exact ⟨k, k2, by rw [← k3]; exact le_antisymm hnn hle⟩
          · obtain ⟨j, j1, j2⟩ := i3 (by omega)
            exact ⟨j, by omega, j2⟩
      · intro k hk
        simp only at hk ⊢
        by_cases hkp : k < s.prev
        · exact le_trans (i4 k hkp) (le_max_left _ _)
        · exact le_trans (le_maxOf a l _ ((hmem _).mpr ⟨k, by omega, hk, rfl⟩)) (le_max_right _ _)
  · rw [if_neg hlt]
    have hcp : c = s.prev := by omega
    refine ⟨?_, rfl, rfl⟩
    rw [hcp]
    exact ⟨i1, i2, i3, i4, i5⟩

private theorem ml_loop_ok (e : List K) (he : ∀ v ∈ e, 0 ≤ v) (N : ℕ) (hl : 1 ≤ e.length)
    (osr : List K) (order : List ℕ) : ∀ s : SweepState K, SweepInv e s → (∀ i ∈ order, 0 < osr.getD i 0) →
    order.Nodup → order.Pairwise (fun i j => osr.getD j 0 ≤ osr.getD i 0) →
    (∀ i ∈ order, s.prev ≤ mlInband N e.length (osr.getD i 0)) →
    (∀ i ∉ order, (order.foldl (mlSweepStep e N osr) s).out i = s.out i) ∧
      ∀ i ∈ order, ∃ r, (order.foldl (mlSweepStep e N osr) s).out i = some r ∧ DirectBand e (mlInband N e.length (osr.getD i 0)) r := by
  induction order with
  | nil => intro s _ _ _ _ _; exact ⟨fun _ _ => rfl, by simp⟩
  | cons i rest ih =>
    intro s hinv ho hnd hpw hprev
    obtain ⟨h2, h3, h4⟩ := ml_step_ok e he N hl osr s i hinv (hprev i (by simp))
    rw [List.pairwise_cons] at hpw
    rw [List.nodup_cons] at hnd
    obtain ⟨g2, g3⟩ := ih (mlSweepStep e N osr s i) h2 (fun j hj => ho j (by simp [hj])) hnd.2 hpw.2 (by
      intro j hj
      rw [h3]
      exact inband_anti N e.length _ _ (ho j (by simp [hj])) (hpw.1 j hj))
    rw [List.foldl_cons]
    refine ⟨?_, ?_⟩
    · intro j hj
      rw [List.mem_cons, not_or] at hj
      rw [g2 j hj.2, h4, Function.update_of_ne hj.1]
    · intro j hj
      by_cases hji : j ∈ rest
      · exact g3 j hji
      · have hji' : j = i := by
          rcases List.mem_cons.mp hj with h | h
          · exact h
          · exact absurd h hji
        subst hji'
        refine ⟨((mlSweepStep e N osr s j).noise, (mlSweepStep e N osr s j).spur), by rw [g2 j hji, h4, Function.update_self], ?_⟩
        obtain ⟨i1, i2, i3, i4, i5⟩ := h2
        rw [h3] at i1 i3 i4
        exact ⟨i1, i3 (inband_range N e.length hl _).1, i4⟩

/-- **C119 (what `perfosr.m` computes).** For every error spectrum and every list of positive OSR values, `perfosr.m` stores the sum and the maximum of the first
`max 1 (min (floor (N / 2 / osr)) (N/2 + 1))` error bins. -/
theorem C119_matlab_direct (e : List K) (he : ∀ v ∈ e, 0 ≤ v) (N : ℕ) (hl : 1 ≤ e.length)
    (osr : List K) (ho : ∀ v ∈ osr, 0 < v) (order : List ℕ) (hord : IsSweepOrder osr order) (i : ℕ) (hi : i < osr.length) :
    ∃ r, mlSweep e N osr order i = some r ∧ DirectBand e (mlInband N e.length (osr.getD i 0)) r := by
  obtain ⟨hperm, hpw⟩ := hord
  have hmem : ∀ i, i ∈ order ↔ i < osr.length := by
    intro i; rw [hperm.mem_iff, List.mem_range]
  obtain ⟨_, h3⟩ := ml_loop_ok e he N hl osr order ⟨0, 0, 0, fun _ => none⟩
    ⟨by simp, fun _ => rfl, fun h => absurd h (lt_irrefl 0), fun k hk => absurd hk (Nat.not_lt_zero k), le_refl _⟩
    (fun i hi => by
      have := (hmem i).mp hi
      apply ho
      rw [List.getD_eq_getElem?_getD, List.getElem?_eq_getElem this]
      exact List.getElem_mem _)
    (hperm.nodup_iff.mpr List.nodup_range) hpw (fun _ _ => Nat.zero_le _)
  exact h3 i ((hmem i).mpr hi)

/-- The number of in-band bins of the two programs. -/
private theorem counts (N : ℕ) (hN : 0 < N) (osr : K) (ho : 1 ≤ osr)
    (hedge : ∀ y : ℤ, (N : K) / (2 * osr) ≠ y → 1 / 10 ^ 12 + 1 / 10 ^ 12 * |(y : K)| < |(N : K) / (2 * osr) - y|) (c : ℕ)
    (hc : rfftInbandBinCount (N : ℤ) osr = .ok c) :
    c = if (N : K) / 2 < osr then mlInband N (N / 2 + 1) osr else mlInband N (N / 2 + 1) osr + 1 := by
  have hNK : (0 : K) < N := by exact_mod_cast hN
  have ho0 : 0 < osr := by linarith
  have hee : (N : K) / 2 / osr = (N : K) / (2 * osr) := by rw [div_div]
  unfold rfftInbandBinCount at hc
  rw [if_neg (by omega), if_neg (by linarith)] at hc
  simp only [Int.cast_natCast, Except.ok.injEq] at hc
  have hsnap : (if isclose12 ((N : K) / (2 * osr)) ((rint ((N : K) / (2 * osr)) : ℤ) : K) then ((rint ((N : K) / (2 * osr)) : ℤ) : K) else (N : K) / (2 * osr))
      = (N : K) / (2 * osr) := by
    split_ifs with h
    · by_contra hne
      have := hedge (rint ((N : K) / (2 * osr))) (fun e => hne e.symm)
      unfold isclose12 at h
      rw [decide_eq_true_eq] at h
      linarith
    · rfl
  rw [hsnap] at hc
  unfold mlInband
  rw [hee]
  set E := (N : K) / (2 * osr) with hE
  have hEpos : 0 < E := by positivity
  have hEle : E ≤ (N : K) / 2 := by
    rw [← hee]
    exact div_le_self (by positivity) ho
  have hfl : ⌊E⌋ ≤ ((N / 2 : ℕ) : ℤ) := by
    have h1 : ⌊E⌋ ≤ ⌊(N : K) / 2⌋ := Int.floor_le_floor hEle
    have h2 : ⌊(N : K) / 2⌋ = ((N / 2 : ℕ) : ℤ) := by
      rw [Int.floor_eq_iff]
      have hm : (N : K) = 2 * ((N / 2 : ℕ) : K) + ((N % 2 : ℕ) : K) := by exact_mod_cast (Nat.div_add_mod N 2).symm
      have h01 : (0 : K) ≤ ((N % 2 : ℕ) : K) := by positivity
      have h02 : ((N % 2 : ℕ) : K) ≤ 1 := by exact_mod_cast (by omega : N % 2 ≤ 1)
      rw [Int.cast_natCast]
      constructor <;> linarith
    omega
  by_cases hbig : (N : K) / 2 < osr
  · rw [if_pos hbig]
    have : ⌊E⌋ = 0 := by
      rw [Int.floor_eq_iff, ← hee]
      push_cast
      refine ⟨by positivity, ?_⟩
      rw [div_lt_iff₀ ho0]
      linarith
    rw [this] at hc ⊢
    push_cast at hc ⊢
    omega
  · rw [if_neg hbig]
    have : 1 ≤ ⌊E⌋ := by
      rw [Int.le_floor, ← hee]
      push_cast
      rw [le_div_iff₀ ho0]
      linarith
    push_cast at hc ⊢
    omega

/-- **C119 (refuted: one bin more).** For every error spectrum and every OSR from 1 to `N/2` the Python sweep takes in one bin more than `perfosr.m`: its noise is the
MATLAB noise plus the next error bin, its spur the larger of the MATLAB spur and that bin. So its SNDR and SFDR are never better, and SNDR is worse whenever that bin is
not empty; beyond `N/2` the two agree. (`hedge`: the band edge is on a bin or more than the snapping tolerance away from one.) -/
theorem C119_one_bin_more (e : List K) (he : ∀ v ∈ e, 0 ≤ v) (N : ℕ) (hN : 0 < N) (hl : e.length = N / 2 + 1) (osr : List K)
    (ho : ∀ v ∈ osr, 1 ≤ v) (order : List ℕ) (hord : IsSweepOrder osr order) (i : ℕ) (hi : i < osr.length)
    (hedge : ∀ y : ℤ, (N : K) / (2 * osr.getD i 0) ≠ y → 1 / 10 ^ 12 + 1 / 10 ^ 12 * |(y : K)| < |(N : K) / (2 * osr.getD i 0) - y|) :
    ∃ out py ml, sweep e N osr order = .ok out ∧ out i = some py ∧ mlSweep e N osr order i = some ml ∧
      (osr.getD i 0 ≤ (N : K) / 2 → py.1 = ml.1 + e.getD (mlInband N (N / 2 + 1) (osr.getD i 0)) 0 ∧
        py.2 = max ml.2 (e.getD (mlInband N (N / 2 + 1) (osr.getD i 0)) 0)) ∧
      ((N : K) / 2 < osr.getD i 0 → py = ml) := by
  have ho' : ∀ v ∈ osr, 0 < v := fun v hv => by have := ho v hv; linarith
  obtain ⟨out, hout, hd⟩ := C35_sweep_equals_direct e he (N : ℤ) (by omega) (by omega) osr ho' order hord
  obtain ⟨c, py, hc, hpy, d1, ⟨k, k1, k2⟩, d3⟩ := hd i hi
  obtain ⟨ml, hml, m1, ⟨k', k1', k2'⟩, m3⟩ := C119_matlab_direct e he N (by omega) osr ho' order hord i hi
  have hoi : 1 ≤ osr.getD i 0 := by
    apply ho
    rw [List.getD_eq_getElem?_getD, List.getElem?_eq_getElem hi]
    exact List.getElem_mem _
  have hcount := counts N hN (osr.getD i 0) hoi hedge c hc
  rw [hl] at m1 m3 k1'
  set m := mlInband N (N / 2 + 1) (osr.getD i 0)
  refine ⟨out, py, ml, hout, hpy, hml, fun hle => ?_, fun hlt => ?_⟩
  · rw [if_neg (not_lt.mpr hle)] at hcount
    subst hcount
    refine ⟨by rw [d1, m1, sum_range_succ], le_antisymm ?_ (max_le ?_ (d3 m (by omega)))⟩
    · rw [k2]
      rcases Nat.lt_succ_iff_lt_or_eq.mp k1 with h | h
      · exact le_max_of_le_left (m3 k h)
      · rw [h]; exact le_max_right _ _
    · rw [k2']; exact d3 k' (by omega)
  · rw [if_pos hlt] at hcount
    subst hcount
    apply Prod.ext
    · rw [d1, m1]
    · exact le_antisymm (by rw [k2]; exact m3 k k1) (by rw [k2']; exact d3 k' k1')

end

/-- The hypotheses of `C119_one_bin_more` hold for the default sweep of 8 samples; at OSR 1 Python counts the Nyquist bin, `perfosr.m` does not. -/
example : (sweep [(1 : ℚ), 2, 3, 4, 5] 8 [1, 4 / 3, 2, 4] [3, 2, 1, 0]).map (fun o => (List.range 4).map o) =
      .ok [some (15, 5), some (10, 4), some (6, 3), some (3, 2)] ∧
    (List.range 4).map (mlSweep [(1 : ℚ), 2, 3, 4, 5] 8 [1, 4 / 3, 2, 4] [3, 2, 1, 0]) = [some (10, 4), some (6, 3), some (3, 2), some (1, 1)] := by
  decide +kernel

/-! ## `ntfperf` -/

private theorem points : (mlNtfPoints : ℝ) = 1000000 ∧ mlNtfPoints = 1000000 := by
  unfold mlNtfPoints; norm_num

private theorem ml_band (fl fh : ℝ) (h0 : 0 ≤ fl) (h2 : fh ≤ 1 / 2) (i : ℕ) :
    i ∈ mlNtfBand fl fh ↔ fl * 2000000 < (i : ℝ) + 1 ∧ (i : ℝ) + 1 < fh * 2000000 := by
  unfold mlNtfBand mlNtfGrid
  rw [mem_filter, mem_range, points.1, points.2]
  constructor
  · rintro ⟨_, h3, h4⟩
    constructor <;> linarith
  · rintro ⟨h3, h4⟩
    refine ⟨?_, by linarith, by linarith⟩
    have : (i : ℝ) < 1000000 := by linarith
    exact_mod_cast this

/-- **C119 (flat NTF).** For `NTF = 1` and any band inside the Nyquist range the two programs integrate nearly the same noise: the linear powers behind the two decibel
values differ by less than `1/20000` (the grids have 65536 and 1000000 points). -/
theorem C119_ntf_flat (fl fh : ℝ) (h0 : 0 ≤ fl) (h1 : fl < fh) (h2 : fh ≤ 1 / 2) :
    |ntfPower [1] [1] fl fh - mlNtfPower [1] [1] fl fh| < 1 / 20000 := by
  have hm : ∀ w, ntfMag [1] [1] w = 1 := fun w => by simp [ntfMag, cpolyval]
  have hP : (ntfPoints : ℝ) = 65536 := by unfold ntfPoints; norm_num
  have hpy : ntfPower [1] [1] fl fh = (ntfBand fl fh).card / 65536 := by simp [ntfPower, hm, hP]
  have hml : mlNtfPower [1] [1] fl fh = (mlNtfBand fl fh).card / 1000000 := by simp [mlNtfPower, hm, points.1]
  have hs := C75_band_share fl fh h0 h1 h2
  have hmlc : |((mlNtfBand fl fh).card : ℝ) - (fh - fl) * 2000000| ≤ 1 := by
    have hcard : (mlNtfBand fl fh).card = (Ioo ⌊fl * 2000000⌋₊ ⌈fh * 2000000⌉₊).card := by
      apply card_nbij' (fun i => i + 1) (fun i => i - 1)
      · intro i hi
        rw [mem_coe, ml_band fl fh h0 h2] at hi
        rw [mem_coe, mem_Ioo, Nat.floor_lt (by positivity), Nat.lt_ceil]
        push_cast
        exact hi
      · intro i hi
        rw [mem_coe, mem_Ioo, Nat.floor_lt (by positivity), Nat.lt_ceil] at hi
        rw [mem_coe, ml_band fl fh h0 h2]
        have hi0 : 0 < i := by
          have : (0 : ℝ) < i := lt_of_le_of_lt (by positivity) hi.1
          exact_mod_cast this
        rw [Nat.cast_sub (by omega)]
        push_cast
        constructor <;> linarith [hi.1, hi.2]
      · intro i _; simp
      · intro i hi
        rw [mem_coe, mem_Ioo] at hi
        simp only
        omega
    have f1 := Nat.floor_le (by positivity : 0 ≤ fl * 2000000)
    have f2 := Nat.lt_floor_add_one (fl * 2000000)
    have c1 := Nat.le_ceil (fh * 2000000)
    have c2 := Nat.ceil_lt_add_one (by nlinarith : 0 ≤ fh * 2000000)
    rw [hcard, Nat.card_Ioo]
    have hle : ⌊fl * 2000000⌋₊ + 1 ≤ ⌈fh * 2000000⌉₊ := by
      have : ((⌊fl * 2000000⌋₊ : ℕ) : ℝ) < (⌈fh * 2000000⌉₊ : ℕ) := by linarith
      exact_mod_cast this
    rw [show ⌈fh * 2000000⌉₊ - ⌊fl * 2000000⌋₊ - 1 = ⌈fh * 2000000⌉₊ - (⌊fl * 2000000⌋₊ + 1) by omega, Nat.cast_sub hle]
    push_cast
    rw [abs_le]
    constructor <;> linarith
  rw [hpy, hml]
  rw [abs_le] at hs hmlc
  rw [abs_lt]
  constructor <;> linarith

/-- **C119 (refuted for narrow low-pass bands).** For every upper edge between the first grid point of `ntfperf.m` (`1/2000000`) and the first non-zero grid point of
`ntf_analyzer` (`1/131070`), a low-pass band with `NTF = 1` scores plus infinity in Python and a finite number in MATLAB. -/
theorem C119_ntf_narrow (fh : ℝ) (h1 : 1 / 2000000 < fh) (h2 : fh ≤ 1 / 131070) :
    ntfAnalyzer [1] [1] 0 fh = ⊤ ∧ ∃ v : ℝ, mlNtfperf [1] [1] 0 fh = some (v : EReal) := by
  constructor
  · apply C75_empty_band
    rw [Finset.eq_empty_iff_forall_notMem]
    intro i hi
    unfold ntfBand ntfGrid at hi
    rw [mem_filter] at hi
    obtain ⟨_, h3, h4⟩ := hi
    have hP : (ntfPoints : ℝ) - 1 = 65535 := by unfold ntfPoints; norm_num
    rw [hP] at h3 h4
    have hi0 : (0 : ℝ) < i := by
      by_contra hc
      have : (i : ℝ) = 0 := le_antisymm (not_lt.mp hc) (by positivity)
      rw [this] at h3
      simp at h3
    have hi1 : (1 : ℝ) ≤ i := by
      have : 0 < i := by exact_mod_cast hi0
      exact_mod_cast this
    have : (1 : ℝ) * (1 / 2 / 65535) ≤ i * (1 / 2 / 65535) := mul_le_mul_of_nonneg_right hi1 (by norm_num)
    norm_num at this h4 h2
    linarith
  · have hmem : 0 ∈ mlNtfBand 0 fh := by
      rw [ml_band 0 fh le_rfl (by linarith)]
      constructor
      · norm_num
      · push_cast; linarith
    have hm : ∀ w, ntfMag [1] [1] w = 1 := fun w => by simp [ntfMag, cpolyval]
    have hml : mlNtfPower [1] [1] 0 fh = (mlNtfBand 0 fh).card / 1000000 := by simp [mlNtfPower, hm, points.1]
    have hpos : (0 : ℝ) < (mlNtfBand 0 fh).card := by exact_mod_cast card_pos.mpr ⟨0, hmem⟩
    unfold mlNtfperf
    rw [if_neg (by norm_num), if_neg (by push Not; constructor <;> linarith), hml, if_neg (by positivity)]
    exact ⟨_, rfl⟩

example : (1 / 2000000 : ℝ) < 1 / 200000 ∧ (1 / 200000 : ℝ) ≤ 1 / 131070 := by norm_num

/-- **C119 (checks).** `ntfperf.m` refuses edges outside `0 ≤ fl < fh ≤ 1/2`; `ntfperf` checks nothing, and for `fh ≤ fl` returns plus infinity. -/
theorem C119_ntf_checks (num den : List ℝ) (fl fh : ℝ) :
    (mlNtfperf num den fl fh = none ↔ ¬ (0 ≤ fl ∧ fl < fh ∧ fh ≤ 1 / 2)) ∧ (fh ≤ fl → ntfAnalyzer num den fl fh = ⊤) := by
  constructor
  · unfold mlNtfperf
    split_ifs with h1 h2 h3
    · simp only [true_iff]
      rintro ⟨a, b, c⟩
      rcases h1 with h | h <;> linarith
    · simp only [true_iff]
      rintro ⟨a, b, c⟩
      rcases h2 with h | h <;> linarith
    all_goals
      simp only [reduceCtorEq, false_iff, not_not]
      push Not at h1 h2
      exact ⟨h1.1, h2.1, h2.2⟩
  · intro h
    apply C75_empty_band
    rw [Finset.eq_empty_iff_forall_notMem]
    intro i hi
    unfold ntfBand at hi
    rw [mem_filter] at hi
    linarith [hi.2.1, hi.2.2]

end Verif
