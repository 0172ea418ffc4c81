import Verif.Model.Interleave
import Verif.Spec.Interleave
import Mathlib.LinearAlgebra.Lagrange
import Mathlib.Algebra.BigOperators.Intervals

/-!
# C17–C19, C21: interleaving, foreground calibration, Farrow delay
-/

namespace Verif

open Model Spec

/-! ### C17, C18 -/

private theorem deint_ok {α : Type} [Zero α] (x : List α) (m k : ℕ) (hm : m ≠ 0) (hx : x.length = k * m) :
    deinterleave 1 x m = .ok ((List.range m).map fun c => (List.range k).map fun r => x.getD (r * m + c) 0) := by
  unfold deinterleave
  rw [if_neg (by simp), if_neg (by omega), if_neg (by rw [hx]; push_cast; simp)]
  simp only [Int.toNat_natCast]
  rw [hx, Nat.mul_div_cancel _ (Nat.pos_of_ne_zero hm)]

private theorem deint_ok_inv {α : Type} [Zero α] {ndim : ℕ} {x : List α} {M : ℤ} {ch : List (List α)}
    (h : deinterleave ndim x M = .ok ch) : ndim = 1 ∧ ∃ m k : ℕ, M = m ∧ m ≠ 0 ∧ x.length = k * m := by
  unfold deinterleave at h
  split_ifs at h with h1 h2 h3
  · refine ⟨by simpa using h1, M.toNat, x.length / M.toNat, by omega, by omega, ?_⟩
    have hM : M = (M.toNat : ℤ) := by omega
    rw [hM] at h3
    have h3' : x.length % M.toNat = 0 := by
      have := not_not.mp h3
      exact_mod_cast this
    exact (Nat.div_mul_cancel (Nat.dvd_of_mod_eq_zero h3')).symm

private theorem idx_lt {k m r c : ℕ} (hr : r < k) (hc : c < m) : r * m + c < k * m := by
  have : (r + 1) * m ≤ k * m := Nat.mul_le_mul_right m hr
  rw [Nat.add_mul] at this; omega

/-- **C17 (channels).** A successful `deinterleave` is exactly the split of the record: `M` rows, sample `k` of channel
`m` is `x[k*M+m]`, in order, nothing lost or duplicated. -/
theorem C17_deinterleave_split {α : Type} [Zero α] (ndim : ℕ) (x : List α) (M : ℤ) (ch : List (List α))
    (h : deinterleave ndim x M = .ok ch) : IsSplit x M.toNat ch := by
  obtain ⟨rfl, m, k, rfl, hm, hx⟩ := deint_ok_inv h
  rw [deint_ok x m k hm hx] at h
  injection h with h
  subst h
  refine ⟨by simp, ?_, ?_⟩
  · intro row hrow
    rw [List.mem_map] at hrow
    obtain ⟨c, -, rfl⟩ := hrow
    simp [hx]
  · intro c r v
    simp only [Int.toNat_natCast, List.getElem?_map]
    constructor
    · rintro ⟨row, hrow, hv⟩
      rw [Option.map_eq_some_iff] at hrow
      obtain ⟨c', hc', rfl⟩ := hrow
      rw [List.getElem?_eq_some_iff] at hc'
      obtain ⟨hlt, hc'⟩ := hc'
      simp at hlt hc'
      subst hc'
      rw [List.getElem?_map, Option.map_eq_some_iff] at hv
      obtain ⟨r', hr', rfl⟩ := hv
      rw [List.getElem?_eq_some_iff] at hr'
      obtain ⟨hlt', hr'⟩ := hr'
      simp at hlt' hr'
      subst hr'
      have := idx_lt (m := m) hlt' hlt
      refine ⟨hlt, ?_⟩
      rw [List.getD_eq_getElem?_getD, List.getElem?_eq_getElem (by omega)]
      simp
    · rintro ⟨hc, hv⟩
      rw [List.getElem?_eq_some_iff] at hv
      obtain ⟨hlt, hv⟩ := hv
      have hr : r < k := by
        by_contra hcon
        have : k * m ≤ r * m := Nat.mul_le_mul_right m (by omega)
        omega
      refine ⟨_, by rw [List.getElem?_eq_getElem (by simpa using hc)]; rfl, ?_⟩
      rw [List.getElem?_map, List.getElem?_eq_getElem (by simpa using hr)]
      simp only [List.getElem_range, Option.map_some, Option.some.injEq]
      rw [List.getD_eq_getElem?_getD, List.getElem?_eq_getElem hlt]
      simpa using hv

private theorem headD_len {α : Type} (ch : List (List α)) (k : ℕ) (h : ch ≠ []) (hr : ∀ row ∈ ch, row.length = k) :
    (ch.headD []).length = k := by
  cases ch with
  | nil => exact absurd rfl h
  | cons a l => simpa using hr a (by simp)

/-- **C17 (round trip).** Interleaving a successful `deinterleave` gives back the record. -/
theorem C17_interleave_deinterleave {α : Type} [Zero α] (ndim : ℕ) (x : List α) (M : ℤ) (ch : List (List α))
    (h : deinterleave ndim x M = .ok ch) : interleave 2 ch = .ok x := by
  obtain ⟨rfl, m, k, rfl, hm, hx⟩ := deint_ok_inv h
  rw [deint_ok x m k hm hx] at h
  injection h with h
  subst h
  unfold interleave
  rw [if_neg (by simp)]
  simp only
  rw [headD_len _ k (by simp [hm]) (by simp)]
  simp only [List.length_map, List.length_range]
  congr 1
  apply List.ext_getElem
  · simp [hx]
  · intro i h1 h2
    simp only [List.getElem_map, List.getElem_range]
    have hmpos : 0 < m := Nat.pos_of_ne_zero hm
    have h3 : i % m < m := Nat.mod_lt _ hmpos
    have h4 : i / m < k := by rw [Nat.div_lt_iff_lt_mul hmpos]; omega
    simp only [List.getD_eq_getElem?_getD, List.getElem?_map]
    rw [List.getElem?_eq_getElem (l := List.range m) (by simpa using h3)]
    simp only [List.getElem_range, Option.map_some, Option.getD_some, List.getElem?_map]
    rw [List.getElem?_eq_getElem (l := List.range k) (by simpa using h4)]
    simp only [List.getElem_range, Option.map_some, Option.getD_some]
    have : i / m * m + i % m = i := Nat.div_add_mod' i m
    rw [this, List.getElem?_eq_getElem h2]; rfl

private theorem inter_len {α : Type} [Zero α] (ch : List (List α)) (k : ℕ) (hne : ch ≠ [])
    (hrect : ∀ row ∈ ch, row.length = k) :
    interleave 2 ch = .ok ((List.range (k * ch.length)).map fun i => (ch.getD (i % ch.length) []).getD (i / ch.length) 0) := by
  unfold interleave
  rw [if_neg (by simp)]
  simp only
  rw [headD_len ch k hne hrect]

/-- **C17 (other round trip).** De-interleaving an interleaved (rectangular, non-empty) channel matrix gives it back. -/
theorem C17_deinterleave_interleave {α : Type} [Zero α] (ch : List (List α)) (k : ℕ) (hne : ch ≠ [])
    (hrect : ∀ row ∈ ch, row.length = k) :
    ∃ x, interleave 2 ch = .ok x ∧ x.length = k * ch.length ∧ deinterleave 1 x ch.length = .ok ch := by
  have hM : ch.length ≠ 0 := by simpa using hne
  refine ⟨_, inter_len ch k hne hrect, by simp, ?_⟩
  rw [deint_ok _ ch.length k hM (by simp)]
  congr 1
  apply List.ext_getElem
  · simp
  · intro c h1 h2
    simp only [List.getElem_map, List.getElem_range]
    have hrow : (ch[c]).length = k := hrect _ (List.getElem_mem h2)
    apply List.ext_getElem
    · simp [hrow]
    · intro r h3 h4
      simp only [List.getElem_map, List.getElem_range]
      have hr : r < k := by simpa using h3
      have hlt := idx_lt (m := ch.length) hr h2
      rw [List.getD_eq_getElem?_getD, List.getElem?_map, List.getElem?_eq_getElem (by simpa using hlt)]
      simp only [List.getElem_range, Option.map_some, Option.getD_some]
      have e1 : (r * ch.length + c) % ch.length = c := by
        rw [Nat.add_comm, Nat.add_mul_mod_self_right, Nat.mod_eq_of_lt h2]
      have e2 : (r * ch.length + c) / ch.length = r := by
        rw [Nat.add_comm, Nat.add_mul_div_right _ _ (Nat.pos_of_ne_zero hM), Nat.div_eq_of_lt h2, Nat.zero_add]
      rw [e1, e2]
      simp [List.getD_eq_getElem?_getD, List.getElem?_eq_getElem h2, List.getElem?_eq_getElem h4]

/-- **C18.** `deinterleave` raises `ValueError` exactly for a wrong dimension, a non-positive `M`, or a length that is
not a multiple of `M`; it never raises anything else. -/
theorem C18_deinterleave_error_iff {α : Type} [Zero α] (ndim : ℕ) (x : List α) (M : ℤ) (e : PyErr) :
    deinterleave ndim x M = .error e ↔ e = .valueError ∧ (ndim ≠ 1 ∨ M ≤ 0 ∨ ¬ M ∣ (x.length : ℤ)) := by
  have hmod : ((x.length : ℤ) % M = 0) ↔ M ∣ (x.length : ℤ) := (Int.dvd_iff_emod_eq_zero).symm
  unfold deinterleave
  split_ifs with h1 h2 h3
  · simp [h1, eq_comm]
  · simp [h2, eq_comm]
  · have : ¬ M ∣ (x.length : ℤ) := fun hh => h3 (hmod.mpr hh)
    simp [this, eq_comm]
  · have hd : M ∣ (x.length : ℤ) := by rw [← hmod]; simpa using h3
    simp [h2, hd]; intro _; simpa using h1

/-! ### C19 -/

variable {K : Type} [Field K] [LinearOrder K] [IsStrictOrderedRing K]

private theorem skewLoop_zero (fft farrow : List K → K → K → Py (List K)) (method : String) (fsCh : K)
    (ch : List (List K)) (skew : List K) (hlen : ch.length = skew.length) (hz : ∀ s ∈ skew, s = 0) :
    skewLoop fft farrow method fsCh ch skew = .ok ch := by
  induction ch generalizing skew with
  | nil => cases skew <;> rfl
  | cons row rows ih =>
    cases skew with
    | nil => simp at hlen
    | cons s ss =>
      have hs : s = 0 := hz s (by simp)
      subst hs
      unfold skewLoop skewRow
      rw [if_pos (by rw [abs_zero]; positivity)]
      rw [ih ss (by simpa using hlen) (fun t ht => hz t (by simp [ht]))]
      rfl

/-- Per-channel gain/offset mismatch applied to an ideal interleaved record: sample `n` belongs to channel `n % M`. -/
def mismatched (s offset gain : List K) (M : ℕ) : List K :=
  (List.range s.length).map fun n => s.getD n 0 * gain.getD (n % M) 1 + offset.getD (n % M) 0

/-- **C19.** Distort an ideal record by per-channel non-zero gains and arbitrary offsets; calibrating with those
parameters and zero skews returns the ideal record exactly — for any channel count, length and signal, whatever the
two delay functions and the skew method are. -/
theorem C19_calibration_inverts_mismatch (fft farrow : List K → K → K → Py (List K)) (method : String) (fs : K)
    (s offset gain : List K) (m k : ℕ) (hm : m ≠ 0) (hs : s.length = k * m)
    (ho : offset.length = m) (hg : gain.length = m) (hg0 : ∀ g ∈ gain, g ≠ 0) :
    calibrateForeground fft farrow 1 (mismatched s offset gain m) m offset gain (List.replicate m 0) fs method
      = .ok s := by
  have hlen : (mismatched s offset gain m).length = k * m := by simp [mismatched, hs]
  have hsplit := deint_ok s m k hm hs
  have hrt := C17_interleave_deinterleave 1 s m _ hsplit
  unfold calibrateForeground
  rw [deint_ok _ m k hm hlen]
  simp only [bind, Except.bind]
  rw [if_neg (by simp [ho, hg])]
  have hch : List.zipWith (fun row (og : K × K) => row.map fun v => (v - og.1) / og.2)
      ((List.range m).map fun c => (List.range k).map fun r => (mismatched s offset gain m).getD (r * m + c) 0)
      (offset.zip gain) = (List.range m).map fun c => (List.range k).map fun r => s.getD (r * m + c) 0 := by
    apply List.ext_getElem
    · simp [ho, hg]
    · intro c h1 h2
      have hc : c < m := by simpa using h2
      simp only [List.getElem_zipWith, List.getElem_map, List.getElem_range, List.getElem_zip, List.map_map]
      apply List.map_congr_left
      intro r hr
      rw [List.mem_range] at hr
      simp only [Function.comp]
      have hlt := idx_lt (m := m) hr hc
      have hval : (mismatched s offset gain m).getD (r * m + c) 0
          = s.getD (r * m + c) 0 * gain[c] + offset[c] := by
        have e1 : (r * m + c) % m = c := by
          rw [Nat.add_comm, Nat.add_mul_mod_self_right, Nat.mod_eq_of_lt hc]
        unfold mismatched
        rw [List.getD_eq_getElem?_getD, List.getElem?_map, List.getElem?_eq_getElem (by simp; omega)]
        simp only [List.getElem_range, Option.map_some, Option.getD_some, e1]
        simp [List.getD_eq_getElem?_getD, List.getElem?_eq_getElem (show c < gain.length by omega),
          List.getElem?_eq_getElem (show c < offset.length by omega)]
      have hgc : gain[c] ≠ 0 := hg0 _ (List.getElem_mem _)
      rw [hval]
      field_simp
      ring
  rw [hch]
  rw [skewLoop_zero _ _ _ _ _ _ (by simp) (by intro t ht; exact List.eq_of_mem_replicate ht)]
  exact hrt

/-- **C19 (checks).** Parameter vectors whose length is not `M` are rejected with `ValueError`. -/
theorem C19_calibration_length_check (fft farrow : List K → K → K → Py (List K)) (method : String) (fs : K)
    (x offset gain skew : List K) (M : ℤ)
    (h : (offset.length : ℤ) ≠ M ∨ (gain.length : ℤ) ≠ M ∨ (skew.length : ℤ) ≠ M) :
    calibrateForeground fft farrow 1 x M offset gain skew fs method = .error .valueError := by
  unfold calibrateForeground
  cases hd : deinterleave 1 x M with
  | error e =>
    have := (C18_deinterleave_error_iff 1 x M e).mp hd
    simp only [bind, Except.bind, this.1]
  | ok ch =>
    simp only [bind, Except.bind]
    rw [if_pos (by tauto)]

/-- **C19 (defect).** An unknown `skew_method` is silently accepted when every skew is (near) zero. -/
theorem C19_unknown_method_accepted (fft farrow : List K → K → K → Py (List K)) (fs : K) :
    calibrateForeground fft farrow 1 [1, 2] 2 [0, 0] [1, 1] [0, 0] fs "bogus" = .ok [1, 2] := by
  have := C19_calibration_inverts_mismatch fft farrow "bogus" fs [1, 2] [0, 0] [1, 1] 2 1 (by simp) rfl rfl rfl
    (by simp)
  simpa [mismatched, List.range_succ] using this

end Verif
