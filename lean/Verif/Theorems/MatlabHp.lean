import Verif.Model.MatlabHp
import Verif.Theorems.MatlabErrsin

/-!
# C136: amplitude and phase noise against `errsin_hp.m`

`errsin_hp.m` fits the squared errors of all samples, as `rearrange_error_by_phase` does, and bins them as it does.
-/

namespace Verif

open Model Finset

/-! ### Least squares -/

/-- Two solvers given the same independent columns and the same right-hand side return the same coefficients. -/
theorem lstsq_same (solve solve' : Lstsq) (hs : IsLstsq solve) (hs' : IsLstsq solve') (n : ℕ) (A A' : List (ℕ → ℝ)) (b b' : ℕ → ℝ) (hl : A.length = A'.length)
    (hA : ∀ j < A.length, ∀ t < n, (A.getD j 0) t = (A'.getD j 0) t) (hb : ∀ t < n, b t = b' t)
    (hind : ∀ v : ℕ → ℝ, (∀ t < n, ∑ j ∈ range A.length, v j * (A.getD j 0) t = 0) → ∀ j < A.length, v j = 0) :
    ∀ j < A.length, (solve n A b).getD j 0 = (solve' n A' b').getD j 0 := by
  have hmv : ∀ z : List ℝ, ∀ t < n, matVec A z t = matVec A' z t := by
    intro z t ht
    unfold matVec
    rw [← hl]
    exact sum_congr rfl fun j hj => by rw [hA j (mem_range.mp hj) t ht]
  have hcol : ∀ j < A.length, ∀ t, matVec A' ((List.range A'.length).map fun i => if i = j then 1 else 0) t = (A'.getD j 0) t := by
    intro j hj t
    unfold matVec
    rw [sum_eq_single j]
    · rw [List.getD_eq_getElem _ _ (by simp; omega)]
      simp
    · intro i hi hne
      rw [List.getD_eq_getElem _ _ (by simpa using hi)]
      simp [hne]
    · intro h
      exact absurd (mem_range.mpr (by omega)) h
  have hp := lstsq_projection solve hs n A b (fun t => b t - matVec A (solve' n A' b') t) (solve' n A' b') (by rw [hs'.len, hl]) (fun t _ => by ring) (by
    intro j hj
    have h := lstsq_orthogonal solve' hs' n A' b' ((List.range A'.length).map fun i => if i = j then 1 else 0) (by simp)
    rw [← h]
    apply sum_congr rfl
    intro t ht
    have ht' := mem_range.mp ht
    rw [hcol j hj, hb t ht', hmv _ t ht', hA j hj t ht'])
  intro j hj
  have := hind (fun j => (solve n A b).getD j 0 - (solve' n A' b').getD j 0) (by
    intro t ht
    have h1 := hp t ht
    unfold matVec at h1
    simp only [sub_mul, sum_sub_distrib]
    rw [sub_eq_zero]
    exact h1) j hj
  exact sub_eq_zero.mp this

private theorem ind_sq (n : ℕ) (φ : ℕ → ℝ) (i j : ℕ) (hi : i < n) (hj : j < n) (hij : Real.cos (2 * φ i) ≠ Real.cos (2 * φ j)) (v0 v1 : ℝ)
    (h : ∀ t < n, v0 * Real.cos (φ t) ^ 2 + v1 * Real.sin (φ t) ^ 2 = 0) : v0 = 0 ∧ v1 = 0 := by
  have e : ∀ t < n, (v0 - v1) * Real.cos (2 * φ t) + (v0 + v1) = 0 := by
    intro t ht
    have := h t ht
    rw [Real.cos_two_mul]
    rw [Real.sin_sq] at this
    linear_combination 2 * this
  have h0 : v0 - v1 = 0 := by
    have : (v0 - v1) * (Real.cos (2 * φ i) - Real.cos (2 * φ j)) = 0 := by linarith [e i hi, e j hj]
    exact (mul_eq_zero.mp this).resolve_right (sub_ne_zero.mpr hij)
  have h1 := e i hi
  rw [h0] at h1
  constructor <;> linarith

/-! ### The call -/

private theorem cos_turn (a b : ℝ) (k : ℤ) (h : a = b + k * (2 * Real.pi)) : Real.cos a = Real.cos b ∧ Real.sin a = Real.sin b := by
  rw [h]
  exact ⟨Real.cos_add_int_mul_two_pi b k, Real.sin_add_int_mul_two_pi b k⟩

private theorem pmod_turn (a m : ℝ) (hm : m ≠ 0) : ∃ k : ℤ, pmod a m = a + k * m := ⟨-⌊a / m⌋, by unfold pmod; push_cast; ring⟩

/-- What both calls return, in terms of the phases and errors of Python. -/
private theorem hp_ok (solve solve' : Lstsq) (hs : IsLstsq solve) (hs' : IsLstsq solve') (n : ℕ) (hn : 3 ≤ n) (x : ℕ → ℝ) (f tol : ℝ) (h0 : 0 < f) (h1 : f < 1 / 2)
    (bin : ℕ) (hb : 0 < bin) (base : Bool) :
    ∃ r m, rearrangeByPhase solve n x (some f) bin base 0 tol = .ok r ∧ mlErrsinHpPhase solve' n x bin f = some m ∧ (∀ t, m.err t = -r.err t) ∧
      (∀ t, 0 ≤ m.errxx t ∧ m.errxx t < 360 ∧ ∃ k : ℤ, m.errxx t / 180 * Real.pi = r.phase t + k * (2 * Real.pi)) ∧
      (∀ b, r.centers b = m.xx b / 180 * Real.pi + Real.pi / bin) ∧ (∀ b : ℕ, m.xx b = 360 * b / bin) ∧
      m.emean = mlHpMean n (fun t => mlHpPhaseBin bin (m.errxx t)) m.err ∧ m.erms = (fun b => Real.sqrt (mlHpSq n (fun t => mlHpPhaseBin bin (m.errxx t)) m.err b)) ∧
      ∃ (c : List ℝ) (rad : ℕ → ℝ), c = solve' n [fun t => Real.cos (rad t) ^ 2, fun t => Real.sin (rad t) ^ 2] (fun t => m.err t ^ 2) ∧
        (∀ t, ∃ k : ℤ, rad t = r.phase t + k * (2 * Real.pi)) ∧ m.anoi = some (Real.sqrt (max 0 (c.getD 0 0))) ∧
        (m.pnoi = if r.amplitude = 0 then none else some (Real.sqrt (max 0 (c.getD 1 0)) / r.amplitude)) ∧
        m.r2 = some (mlHpR2 n (fun t => mlHpPhaseBin bin (m.errxx t)) bin m.xx (mlHpSq n (fun t => mlHpPhaseBin bin (m.errxx t)) m.err) (c.getD 0 0) (c.getD 1 0)) := by
  have hpi := Real.pi_pos
  have hbr : (bin : ℝ) ≠ 0 := by exact_mod_cast hb.ne'
  obtain ⟨fit, m, e1, e2, _, _, e3, e4, _, e5, e6⟩ := C124_given_frequency solve solve' hs hs' n hn x f tol h0 h1
  have hphi : ∃ k : ℤ, m.phi = fit.phase + k * (2 * Real.pi) := by
    by_cases hp : fit.phase = Real.pi
    · rw [if_pos hp] at e6
      exact ⟨-1, by rw [e6, hp]; push_cast; ring⟩
    · rw [if_neg hp] at e6
      exact ⟨0, by rw [e6]; simp⟩
  obtain ⟨k, hk⟩ := hphi
  have hfit : mlErrFit solve' n x bin f = some (m, f) := by
    unfold mlErrFit
    rw [if_neg (by rintro (h | h | h) <;> linarith [show (0 : ℝ) < bin from by exact_mod_cast hb]), e2]
    simp [h0.ne']
  have hr : ∃ r, rearrangeByPhase solve n x (some f) bin base 0 tol = .ok r ∧ r.err = (fun t => x t - fit.fitted t) ∧
      r.phase = (fun (t : ℕ) => 2 * Real.pi * fit.frequency * t + fit.phase) ∧ r.centers = phaseCenter bin ∧ r.amplitude = fit.amplitude := by
    unfold rearrangeByPhase
    rw [e1]
    simp only
    rw [if_neg (by omega), if_neg (by omega)]
    exact ⟨_, rfl, rfl, rfl, by simp, rfl⟩
  obtain ⟨r, hr, he, hp, hc, ha⟩ := hr
  have hm : ∃ q, mlErrsinHpPhase solve' n x bin f = some q ∧ q.err = (fun t => m.fitted t - x t) ∧ q.errxx = (fun (t : ℕ) => pmod ((2 * Real.pi * f * t + m.phi) * 180 / Real.pi) 360) ∧
      q.xx = (fun (b : ℕ) => (b : ℝ) / bin * 360) ∧ q.emean = mlHpMean n (fun t => mlHpPhaseBin bin (q.errxx t)) q.err ∧
      q.erms = (fun b => Real.sqrt (mlHpSq n (fun t => mlHpPhaseBin bin (q.errxx t)) q.err b)) ∧
      ∃ (c : List ℝ), c = solve' n [fun t => Real.cos (pmod (2 * Real.pi * f * t + m.phi) (2 * Real.pi)) ^ 2, fun t => Real.sin (pmod (2 * Real.pi * f * t + m.phi) (2 * Real.pi)) ^ 2]
        (fun t => q.err t ^ 2) ∧ q.anoi = some (Real.sqrt (max 0 (c.getD 0 0))) ∧ (q.pnoi = if m.mag = 0 then none else some (Real.sqrt (max 0 (c.getD 1 0)) / m.mag)) ∧
        q.r2 = some (mlHpR2 n (fun t => mlHpPhaseBin bin (q.errxx t)) bin q.xx (mlHpSq n (fun t => mlHpPhaseBin bin (q.errxx t)) q.err) (c.getD 0 0) (c.getD 1 0)) := by
    unfold mlErrsinHpPhase
    rw [hfit]
    exact ⟨_, rfl, rfl, rfl, rfl, rfl, rfl, _, rfl, rfl, rfl, rfl⟩
  obtain ⟨q, hq, he', hp', hx, hmean, hrms, c, hcs, ha1, ha2, ha3⟩ := hm
  refine ⟨r, q, hr, hq, fun t => by rw [he, he']; simp only; rw [e5]; ring, fun t => ?_, fun b => ?_, fun b => by rw [hx]; ring, hmean, hrms, c,
    fun t => pmod (2 * Real.pi * f * t + m.phi) (2 * Real.pi), hcs, fun t => ?_, ha1, by rw [ha2, ha, e4], ha3⟩
  · rw [hp', hp]
    refine ⟨pmod_nonneg _ (by norm_num), pmod_lt _ (by norm_num), k - ⌊(2 * Real.pi * f * t + m.phi) * 180 / Real.pi / 360⌋, ?_⟩
    unfold pmod
    rw [e3, hk]
    push_cast
    field_simp
    ring
  · rw [hc, hx]
    unfold phaseCenter
    field_simp
    ring
  · obtain ⟨j, hj⟩ := pmod_turn (2 * Real.pi * f * t + m.phi) (2 * Real.pi) (by positivity)
    refine ⟨j + k, ?_⟩
    simp only
    rw [hj, hp, hk, e3]
    push_cast
    ring

/-- **C136 (errors and phases).** With the frequency given and `max_iterations = 0`, both functions answer; `errsin_hp.m` returns the errors of Python with the opposite sign and the same
phases in degrees, reduced to one turn. Its bin positions are the lower edges of the bins, those of Python the centres. -/
theorem C136_error (solve solve' : Lstsq) (hs : IsLstsq solve) (hs' : IsLstsq solve') (n : ℕ) (hn : 3 ≤ n) (x : ℕ → ℝ) (f tol : ℝ) (h0 : 0 < f) (h1 : f < 1 / 2)
    (bin : ℕ) (hb : 0 < bin) (base : Bool) :
    ∃ r m, rearrangeByPhase solve n x (some f) bin base 0 tol = .ok r ∧ mlErrsinHpPhase solve' n x bin f = some m ∧ (∀ t, m.err t = -r.err t) ∧
      (∀ t, 0 ≤ m.errxx t ∧ m.errxx t < 360 ∧ ∃ k : ℤ, m.errxx t / 180 * Real.pi = r.phase t + k * (2 * Real.pi)) ∧
      (∀ b : ℕ, m.xx b = 360 * b / bin ∧ r.centers b = m.xx b / 180 * Real.pi + Real.pi / bin) := by
  obtain ⟨r, m, a1, a2, a3, a4, a5, a6, _⟩ := hp_ok solve solve' hs hs' n hn x f tol h0 h1 bin hb base
  exact ⟨r, m, a1, a2, a3, a4, fun b => ⟨a6 b, a5 b⟩⟩

/-! ### Bins -/

private theorem hp_slot (nb b : ℕ) (hb : b < nb) (d φ : ℝ) (h0 : 0 ≤ d) (h1 : d < 360) (k : ℤ) (hk : d / 180 * Real.pi = φ + k * (2 * Real.pi)) :
    mlHpPhaseBin nb d = b ↔ phaseIndex nb (pmod φ (2 * Real.pi)) = b := by
  have hpi := Real.pi_pos
  have hnb : (0 : ℝ) < nb := by exact_mod_cast (by omega : 0 < nb)
  have hp : pmod φ (2 * Real.pi) = d / 180 * Real.pi := by
    have : ⌊φ / (2 * Real.pi)⌋ = -k := by
      rw [show φ = d / 180 * Real.pi - k * (2 * Real.pi) by linarith, Int.floor_eq_iff, le_div_iff₀ (by positivity), div_lt_iff₀ (by positivity)]
      push_cast
      constructor <;> nlinarith
    unfold pmod
    rw [this, hk]
    push_cast
    ring
  have hq : d / 180 * Real.pi / (2 * Real.pi / nb) = d / 360 * nb := by field_simp; ring
  have hf0 : 0 ≤ ⌊d / 360 * nb⌋ := Int.floor_nonneg.mpr (by positivity)
  have hf1 : ⌊d / 360 * nb⌋ < (nb : ℤ) := by
    rw [Int.floor_lt]
    push_cast
    have : d / 360 < 1 := by linarith
    nlinarith
  unfold mlHpPhaseBin phaseIndex
  rw [hp, hq, clip_of_mem hf0 (by omega), min_eq_left (by omega)]

private theorem hp_stats (n : ℕ) (idx : ℕ → ℕ) (e : ℕ → ℝ) (b : ℕ) :
    (((range n).filter fun t => idx t = b) = ∅ → mlHpMean n idx e b = 0 ∧ mlHpSq n idx e b = 0) ∧
    (((range n).filter fun t => idx t = b).Nonempty → mlHpMean n idx e b * ((range n).filter fun t => idx t = b).card = ∑ t ∈ (range n).filter (fun t => idx t = b), e t ∧
      (mlHpSq n idx e b + mlHpMean n idx e b ^ 2) * ((range n).filter fun t => idx t = b).card = ∑ t ∈ (range n).filter (fun t => idx t = b), e t ^ 2) := by
  constructor
  · intro h
    unfold mlHpSq mlHpMean
    rw [h]
    simp
  · intro h
    have hc1 : (1 : ℝ) ≤ ((range n).filter fun t => idx t = b).card := by exact_mod_cast card_pos.mpr h
    have hm : mlHpMean n idx e b * ((range n).filter fun t => idx t = b).card = ∑ t ∈ (range n).filter (fun t => idx t = b), e t := by
      unfold mlHpMean
      rw [max_eq_right hc1, div_mul_cancel₀ _ (by linarith)]
    refine ⟨hm, ?_⟩
    unfold mlHpSq
    rw [max_eq_right hc1, sum_congr rfl (g := fun t => e t ^ 2 - 2 * mlHpMean n idx e b * e t + mlHpMean n idx e b ^ 2) (fun t ht => by rw [(mem_filter.mp ht).2]; ring), sum_add_distrib,
      sum_sub_distrib, ← mul_sum, ← hm, sum_const, nsmul_eq_mul, add_mul, div_mul_cancel₀ _ (by linarith)]
    ring

private theorem hpSq_nonneg (n : ℕ) (idx : ℕ → ℕ) (e : ℕ → ℝ) (b : ℕ) : 0 ≤ mlHpSq n idx e b :=
  div_nonneg (sum_nonneg fun t _ => sq_nonneg _) (le_trans zero_le_one (le_max_left _ _))

/-- **C136 (bins).** With the frequency given and `max_iterations = 0`, each bin of `errsin_hp.m` holds the samples of the Python bin of the same number. Where there are any the means are
opposite and the squared Python RMS is the squared MATLAB one plus the squared mean; for an empty bin Python has NaN and MATLAB zeros. -/
theorem C136_bins (solve solve' : Lstsq) (hs : IsLstsq solve) (hs' : IsLstsq solve') (n : ℕ) (hn : 3 ≤ n) (x : ℕ → ℝ) (f tol : ℝ) (h0 : 0 < f) (h1 : f < 1 / 2)
    (bin : ℕ) (base : Bool) (r : PhaseBins) (m : MlErrHp) (hr : rearrangeByPhase solve n x (some f) bin base 0 tol = .ok r) (hm : mlErrsinHpPhase solve' n x bin f = some m)
    (b : ℕ) (hb : b < bin) :
    (r.count b = 0 → r.mean b = none ∧ r.rms b = none ∧ m.emean b = 0 ∧ m.erms b = 0) ∧
    (0 < r.count b → ∃ μ ρ, r.mean b = some μ ∧ r.rms b = some ρ ∧ m.emean b = -μ ∧ 0 ≤ m.erms b ∧ ρ ^ 2 = m.erms b ^ 2 + μ ^ 2) := by
  obtain ⟨r', m', q1, q2, he, hp, _, _, hme, hrm, _⟩ := hp_ok solve solve' hs hs' n hn x f tol h0 h1 bin (by omega) base
  rw [hr] at q1
  rw [hm] at q2
  injection q1 with q1
  injection q2 with q2
  subst q1 q2
  obtain ⟨_, idx, hidx, _, _, _, _, _, _, _, _, _, _, hcnt, hmean, hrms, _⟩ := phase_ok solve n x (some f) bin base 0 tol r hr
  rw [Int.toNat_natCast] at hidx
  have hS : ((range n).filter fun t => mlHpPhaseBin bin (m.errxx t) = b) = (range n).filter fun t => idx t = b := by
    apply filter_congr
    intro t _
    obtain ⟨g1, g2, k, hk⟩ := hp t
    rw [hidx]
    exact hp_slot bin b hb _ _ g1 g2 k hk
  have hst := hp_stats n (fun t => mlHpPhaseBin bin (m.errxx t)) m.err b
  have hnn := hpSq_nonneg n (fun t => mlHpPhaseBin bin (m.errxx t)) m.err b
  simp only [hS] at hst
  rw [hcnt, hmean, hrms, hme, hrm]
  unfold binMean binRms binSum binCount
  simp only [true_and]
  generalize (range n).filter (fun t => idx t = b) = S at hst ⊢
  constructor
  · intro hc
    rw [card_eq_zero] at hc
    obtain ⟨g1, g2⟩ := hst.1 hc
    rw [g1, g2, hc]
    simp
  · intro hc
    obtain ⟨g1, g2⟩ := hst.2 (card_pos.mp hc)
    have hc' : (0 : ℝ) < S.card := by exact_mod_cast hc
    rw [if_pos hc, if_pos hc]
    refine ⟨_, _, rfl, rfl, ?_, Real.sqrt_nonneg _, ?_⟩
    · rw [eq_neg_iff_add_eq_zero]
      have : ∑ t ∈ S, m.err t = -∑ t ∈ S, r.err t := by rw [← sum_neg_distrib]; exact sum_congr rfl fun t _ => he t
      rw [this] at g1
      field_simp
      linarith
    · rw [Real.sq_sqrt (div_nonneg (sum_nonneg fun t _ => sq_nonneg _) hc'.le), Real.sq_sqrt hnn]
      have e1 : ∑ t ∈ S, m.err t = -∑ t ∈ S, r.err t := by rw [← sum_neg_distrib]; exact sum_congr rfl fun t _ => he t
      have e2 : ∑ t ∈ S, m.err t ^ 2 = ∑ t ∈ S, r.err t ^ 2 := sum_congr rfl fun t _ => by rw [he, neg_sq]
      rw [e1] at g1
      rw [e2] at g2
      have e3 : (∑ t ∈ S, r.err t) / S.card = -mlHpMean n (fun t => mlHpPhaseBin bin (m.errxx t)) m.err b := by
        rw [div_eq_iff hc'.ne']
        linarith
      rw [← g2, e3, mul_div_assoc, div_self hc'.ne', mul_one, neg_sq]

/-! ### Noise -/

/-- **C136 (same noise without a base).** With the frequency given, `max_iterations = 0` and `include_base_noise=False`, when the samples see two different values of the cosine of twice the
phase: the amplitude noise of `errsin_hp.m` is that of Python, and its phase noise that of Python in radians, unless the amplitude is at most `1e-10`, where Python has zero. -/
theorem C136_noise (solve solve' : Lstsq) (hs : IsLstsq solve) (hs' : IsLstsq solve') (n : ℕ) (hn : 3 ≤ n) (x : ℕ → ℝ) (f tol : ℝ) (h0 : 0 < f) (h1 : f < 1 / 2)
    (bin : ℕ) (hb : 0 < bin) (r : PhaseBins) (m : MlErrHp) (hr : rearrangeByPhase solve n x (some f) bin false 0 tol = .ok r) (hm : mlErrsinHpPhase solve' n x bin f = some m)
    (i j : ℕ) (hi : i < n) (hj : j < n) (hij : Real.cos (2 * r.phase i) ≠ Real.cos (2 * r.phase j)) :
    m.anoi = some r.amRms ∧ m.pnoi = (if r.amplitude = 0 then none else some (r.pmRms / r.amplitude)) ∧
    (1 / 10 ^ 10 < r.amplitude → m.pnoi = some r.pmRad) ∧ (r.amplitude ≤ 1 / 10 ^ 10 → r.pmRad = 0) ∧ r.baseRms = 0 := by
  have hpi := Real.pi_pos
  obtain ⟨r', m', q1, q2, he, _, _, _, _, _, c, rad, hc, hrad, ha, hp, _⟩ := hp_ok solve solve' hs hs' n hn x f tol h0 h1 bin hb false
  rw [hr] at q1
  rw [hm] at q2
  injection q1 with q1
  injection q2 with q2
  subst q1 q2
  obtain ⟨_, _, _, _, hv, hA, hP, hB, _, hpr, _⟩ := phase_ok solve n x (some f) bin false 0 tol r hr
  have hcs : ∀ t, Real.cos (pmod (r.phase t) (2 * Real.pi)) = Real.cos (rad t) ∧ Real.sin (pmod (r.phase t) (2 * Real.pi)) = Real.sin (rad t) := by
    intro t
    obtain ⟨k, hk⟩ := hrad t
    obtain ⟨l, hl⟩ := pmod_turn (r.phase t) (2 * Real.pi) (by positivity)
    obtain ⟨g1, g2⟩ := cos_turn _ _ k hk
    obtain ⟨g3, g4⟩ := cos_turn _ _ l hl
    exact ⟨by rw [g3, g1], by rw [g4, g2]⟩
  have hsame := lstsq_same solve solve' hs hs' n
    [fun t => Real.cos (pmod (r.phase t) (2 * Real.pi)) ^ 2, fun t => Real.sin (pmod (r.phase t) (2 * Real.pi)) ^ 2]
    [fun t => Real.cos (rad t) ^ 2, fun t => Real.sin (rad t) ^ 2] (fun t => r.err t ^ 2) (fun t => m.err t ^ 2) rfl
    (by
      intro l hl t _
      simp only [List.length_cons, List.length_nil] at hl
      interval_cases l
      · simp [(hcs t).1]
      · simp [(hcs t).2])
    (fun t _ => by rw [he, neg_sq])
    (by
      intro v hvz
      have := ind_sq n r.phase i j hi hj hij (v 0) (v 1) (by
        intro t ht
        have h := hvz t ht
        simp only [List.length_cons, List.length_nil, sum_range_succ, sum_range_zero, List.getD_cons_zero, List.getD_cons_succ, zero_add] at h
        obtain ⟨l, hl⟩ := pmod_turn (r.phase t) (2 * Real.pi) (by positivity)
        obtain ⟨g3, g4⟩ := cos_turn _ _ l hl
        rw [g3, g4] at h
        exact h)
      intro l hl
      simp only [List.length_cons, List.length_nil] at hl
      interval_cases l
      · exact this.1
      · exact this.2)
  have z0 := hsame 0 (by simp)
  have z1 := hsame 1 (by simp)
  rw [← hc] at z0 z1
  have hco : r.coeffs = (max 0 (c.getD 0 0), max 0 (c.getD 1 0), 0) := by
    rw [hv]
    unfold phaseVars fitErrorPhase phaseCols
    rw [if_neg (by simp), if_neg (by omega)]
    simp only [Bool.false_eq_true, if_false, List.append_nil]
    rw [z0, z1, max_eq_right (le_max_left 0 _), max_eq_right (le_max_left 0 _)]
  rw [hco] at hA hP hB
  simp only at hA hP hB
  refine ⟨by rw [ha, hA], by rw [hp, hP], fun hlt => ?_, fun hle => by rw [hpr, if_neg (not_lt.mpr hle)], by rw [hB, Real.sqrt_zero]⟩
  have : r.amplitude ≠ 0 := by
    have : (0 : ℝ) < 1 / 10 ^ 10 := by positivity
    linarith
  rw [hp, if_neg this, hpr, if_pos hlt, hP]

/-- **C136 (the default base noise).** With `include_base_noise=True`, the default, Python removes from both the smaller of the two variances of `errsin_hp.m` and reports it as base noise: where
`errsin_hp.m` finds amplitude and phase noise, Python reports only the excess of the larger over the smaller. -/
theorem C136_default (solve solve' : Lstsq) (hs : IsLstsq solve) (hs' : IsLstsq solve') (n : ℕ) (hn : 3 ≤ n) (x : ℕ → ℝ) (f tol : ℝ) (h0 : 0 < f) (h1 : f < 1 / 2)
    (bin : ℕ) (hb : 0 < bin) (r : PhaseBins) (m : MlErrHp) (hr : rearrangeByPhase solve n x (some f) bin true 0 tol = .ok r) (hm : mlErrsinHpPhase solve' n x bin f = some m)
    (i j : ℕ) (hi : i < n) (hj : j < n) (hij : Real.cos (2 * r.phase i) ≠ Real.cos (2 * r.phase j))
    (an pn : ℝ) (han : m.anoi = some an) (hpn : m.pnoi = some pn) (ha0 : 0 < an) (hp0 : 0 < pn) :
    r.amRms ^ 2 = max 0 (an ^ 2 - (pn * r.amplitude) ^ 2) ∧ r.pmRms ^ 2 = max 0 ((pn * r.amplitude) ^ 2 - an ^ 2) ∧ r.baseRms ^ 2 = min (an ^ 2) ((pn * r.amplitude) ^ 2) := by
  have hpi := Real.pi_pos
  obtain ⟨r', m', q1, q2, he, _, _, _, _, _, c, rad, hc, hrad, ha, hp, _⟩ := hp_ok solve solve' hs hs' n hn x f tol h0 h1 bin hb true
  rw [hr] at q1
  rw [hm] at q2
  injection q1 with q1
  injection q2 with q2
  subst q1 q2
  obtain ⟨_, _, _, _, hv, hA, hP, hB, _, hpr, _⟩ := phase_ok solve n x (some f) bin true 0 tol r hr
  set a := c.getD 0 0 with haD
  set p := c.getD 1 0 with hpD
  rw [han] at ha
  injection ha with ha
  rw [hpn] at hp
  by_cases hz : r.amplitude = 0
  · rw [if_pos hz] at hp
    cases hp
  rw [if_neg hz] at hp
  injection hp with hp
  have hpa : pn * r.amplitude = Real.sqrt (max 0 p) := by rw [hp, div_mul_cancel₀ _ hz]
  have hapos : 0 < a := by
    by_contra hle
    rw [max_eq_left (not_lt.mp hle), Real.sqrt_zero] at ha
    linarith
  have hppos : 0 < p := by
    by_contra hle
    rw [max_eq_left (not_lt.mp hle), Real.sqrt_zero, zero_div] at hp
    linarith
  have hcosd : ∀ t, Real.cos (2 * pmod (r.phase t) (2 * Real.pi)) = Real.cos (rad t) ^ 2 - Real.sin (rad t) ^ 2 := by
    intro t
    obtain ⟨k, hk⟩ := hrad t
    obtain ⟨l, hl⟩ := pmod_turn (r.phase t) (2 * Real.pi) (by positivity)
    obtain ⟨g1, g2⟩ := cos_turn _ _ k hk
    obtain ⟨g3, g4⟩ := cos_turn _ _ l hl
    rw [Real.cos_two_mul', g3, g4, g1, g2]
  have hmv : ∀ (z : List ℝ) (t : ℕ), matVec [fun t => Real.cos (rad t) ^ 2, fun t => Real.sin (rad t) ^ 2] z t = z.getD 0 0 * Real.cos (rad t) ^ 2 + z.getD 1 0 * Real.sin (rad t) ^ 2 := by
    intro z t
    unfold matVec
    simp [sum_range_succ]
  have hmv2 : ∀ (z : List ℝ) (t : ℕ), matVec [fun t => Real.cos (2 * pmod (r.phase t) (2 * Real.pi)), fun _ => 1] z t = z.getD 0 0 * Real.cos (2 * pmod (r.phase t) (2 * Real.pi)) + z.getD 1 0 := by
    intro z t
    unfold matVec
    simp [sum_range_succ]
  have hort : ∀ z0 z1 : ℝ, ∑ t ∈ range n, (m.err t ^ 2 - (a * Real.cos (rad t) ^ 2 + p * Real.sin (rad t) ^ 2)) * (z0 * Real.cos (rad t) ^ 2 + z1 * Real.sin (rad t) ^ 2) = 0 := by
    intro z0 z1
    have h := lstsq_orthogonal solve' hs' n [fun t => Real.cos (rad t) ^ 2, fun t => Real.sin (rad t) ^ 2] (fun t => m.err t ^ 2) [z0, z1] (by simp)
    simp only [hmv, ← hc, List.getD_cons_zero, List.getD_cons_succ] at h
    exact h
  have hproj := lstsq_projection solve hs n [fun t => Real.cos (2 * pmod (r.phase t) (2 * Real.pi)), fun _ => 1] (fun t => r.err t ^ 2)
    (fun t => m.err t ^ 2 - (a * Real.cos (rad t) ^ 2 + p * Real.sin (rad t) ^ 2)) [(a - p) / 2, (a + p) / 2] (by simp)
    (by
      intro t _
      rw [hmv2, hcosd, he, neg_sq]
      simp only [List.getD_cons_zero, List.getD_cons_succ]
      linear_combination ((a + p) / 2) * (Real.sin_sq_add_cos_sq (rad t)))
    (by
      intro l hl
      simp only [List.length_cons, List.length_nil] at hl
      interval_cases l
      · rw [← hort 1 (-1)]
        refine sum_congr rfl fun t _ => ?_
        simp only [List.getD_cons_zero]
        rw [hcosd]
        ring
      · rw [← hort 1 1]
        refine sum_congr rfl fun t _ => ?_
        simp only [List.getD_cons_zero, List.getD_cons_succ]
        linear_combination -(m.err t ^ 2 - (a * Real.cos (rad t) ^ 2 + p * Real.sin (rad t) ^ 2)) * (Real.sin_sq_add_cos_sq (rad t)))
  set w := solve n [fun t => Real.cos (2 * pmod (r.phase t) (2 * Real.pi)), fun _ => 1] (fun t => r.err t ^ 2) with hw
  have hcos2 : ∀ t, Real.cos (2 * pmod (r.phase t) (2 * Real.pi)) = Real.cos (2 * r.phase t) := by
    intro t
    obtain ⟨l, hl⟩ := pmod_turn (r.phase t) (2 * Real.pi) (by positivity)
    obtain ⟨g3, _⟩ := cos_turn (2 * pmod (r.phase t) (2 * Real.pi)) (2 * r.phase t) (2 * l) (by rw [hl]; push_cast; ring)
    exact g3
  have e : ∀ t < n, (w.getD 0 0 - (a - p) / 2) * Real.cos (2 * r.phase t) + (w.getD 1 0 - (a + p) / 2) = 0 := by
    intro t ht
    have h := hproj t ht
    rw [hmv2, hmv2, hcos2] at h
    simp only [List.getD_cons_zero, List.getD_cons_succ] at h
    linarith
  have w0 : w.getD 0 0 = (a - p) / 2 := by
    have : (w.getD 0 0 - (a - p) / 2) * (Real.cos (2 * r.phase i) - Real.cos (2 * r.phase j)) = 0 := by linarith [e i hi, e j hj]
    have := (mul_eq_zero.mp this).resolve_right (sub_ne_zero.mpr hij)
    linarith
  have w1 : w.getD 1 0 = (a + p) / 2 := by
    have := e i hi
    rw [w0] at this
    linarith
  have hco : r.coeffs = (max 0 (a - p), max 0 (p - a), min a p) := by
    rw [hv]
    unfold phaseVars
    rw [if_pos rfl]
    simp only
    rw [← hw, w0, w1]
    unfold splitVar
    rcases lt_trichotomy a p with hlt | heq | hgt
    · rw [if_neg (by linarith), if_pos (by linarith), max_eq_left (by linarith : a - p ≤ 0), min_eq_left hlt.le, show -2 * ((a - p) / 2) = p - a by ring,
        show (a + p) / 2 + (a - p) / 2 = a by ring, max_eq_right hapos.le]
    · rw [heq, if_neg (by linarith), if_neg (by linarith), sub_self, max_self, min_self, show (p + p) / 2 = p by ring, max_eq_right hppos.le]
    · rw [if_pos (by linarith), max_eq_left (by linarith : p - a ≤ 0), min_eq_right hgt.le, show 2 * ((a - p) / 2) = a - p by ring, show (a + p) / 2 - (a - p) / 2 = p by ring, max_eq_right hppos.le]
  rw [hco] at hA hP hB
  simp only at hA hP hB
  rw [hA, hP, hB, hpa, ha, Real.sq_sqrt (le_max_left _ _), Real.sq_sqrt (le_max_left _ _), Real.sq_sqrt (le_max_left _ _), Real.sq_sqrt (le_max_left _ _),
    Real.sq_sqrt (le_min hapos.le hppos.le), max_eq_right hapos.le, max_eq_right hppos.le]
  exact ⟨rfl, rfl, rfl⟩

/-! ### Goodness of fit -/

/-- **C136 (refuted: `R2` measures the trend).** When no bin holds more than one sample – a record no longer than the number of bins, coherently sampled, for instance – every spread is zero and
`errsin_hp.m` reports a perfect `R2` of one, whatever the errors and the fitted noise. -/
theorem C136_r2_one (solve : Lstsq) (n : ℕ) (hn : 0 < n) (x : ℕ → ℝ) (bin : ℕ) (f : ℝ) (m : MlErrHp) (h : mlErrsinHpPhase solve n x bin f = some m)
    (hone : ∀ s < n, ∀ t < n, ⌊m.errxx s / 360 * bin⌋ = ⌊m.errxx t / 360 * bin⌋ → s = t) : m.r2 = some 1 ∧ ∀ b, m.erms b = 0 := by
  have hbin : 0 < bin := by
    by_contra hb
    have hb : bin = 0 := by omega
    subst hb
    simp [mlErrsinHpPhase, mlErrFit] at h
  unfold mlErrsinHpPhase at h
  rw [Option.map_eq_some_iff] at h
  obtain ⟨p, _, rfl⟩ := h
  simp only at hone ⊢
  set deg := fun t : ℕ => pmod ((2 * Real.pi * p.2 * t + p.1.phi) * 180 / Real.pi) 360 with hdeg
  set idx := fun t => mlHpPhaseBin bin (deg t) with hidx
  have hnb : (0 : ℝ) < bin := by exact_mod_cast hbin
  have hinj : ∀ s < n, ∀ t < n, idx s = idx t → s = t := by
    intro s hs t ht hst
    apply hone s hs t ht
    have hr : ∀ t, 0 ≤ ⌊deg t / 360 * bin⌋ ∧ ⌊deg t / 360 * bin⌋ < (bin : ℤ) := by
      intro t
      have g0 : 0 ≤ deg t := pmod_nonneg _ (by norm_num)
      have g1 : deg t < 360 := pmod_lt _ (by norm_num)
      refine ⟨Int.floor_nonneg.mpr (by positivity), ?_⟩
      rw [Int.floor_lt]
      push_cast
      have : deg t / 360 < 1 := by linarith
      nlinarith
    obtain ⟨s0, s1⟩ := hr s
    obtain ⟨t0, t1⟩ := hr t
    simp only [hidx, mlHpPhaseBin] at hst
    rw [min_eq_left (by omega), min_eq_left (by omega)] at hst
    show ⌊deg s / 360 * bin⌋ = ⌊deg t / 360 * bin⌋
    omega
  have hzero : ∀ (e : ℕ → ℝ) (b : ℕ), mlHpSq n idx e b = 0 := by
    intro e b
    unfold mlHpSq
    rw [sum_eq_zero, zero_div]
    intro t ht
    obtain ⟨ht, htb⟩ := mem_filter.mp ht
    have hS : (range n).filter (fun s => idx s = idx t) = {t} := by
      ext s
      rw [mem_filter, mem_range, mem_singleton]
      constructor
      · rintro ⟨hs, he⟩
        exact hinj s hs t (mem_range.mp ht) he
      · rintro rfl
        exact ⟨mem_range.mp ht, rfl⟩
    unfold mlHpMean
    rw [hS]
    simp
  refine ⟨?_, fun b => by rw [hzero, Real.sqrt_zero]⟩
  unfold mlHpR2
  simp only [hzero]
  have hidx0 : idx 0 < bin := by
    simp only [hidx, mlHpPhaseBin]
    omega
  rw [if_neg, if_pos]
  · simp
  · intro hem
    have : idx 0 ∈ (range bin).filter fun b => 0 < ((range n).filter fun t => idx t = b).card :=
      mem_filter.mpr ⟨mem_range.mpr hidx0, card_pos.mpr ⟨0, mem_filter.mpr ⟨mem_range.mpr hn, rfl⟩⟩⟩
    rw [hem] at this
    simp at this

/-- **C136 (refuted: `R2` measures the trend, a record).** One period of a cosine with eight samples, `c` added to the even ones and subtracted from the odd ones: with eight bins
`errsin_hp.m` finds amplitude and phase noise `c` and an `R2` of one against binned values that are all zero. -/
theorem C136_r2_record (solve : Lstsq) (hs : IsLstsq solve) (c : ℝ) (hc : 0 ≤ c) (x : ℕ → ℝ)
    (hx : ∀ t < 8, x t = Real.cos (2 * Real.pi * (1 / 8) * t) + c * (-1) ^ t) :
    ∃ m, mlErrsinHpPhase solve 8 x 8 (1 / 8) = some m ∧ m.r2 = some 1 ∧ (∀ b, m.erms b = 0) ∧ (∀ t < 8, |m.err t| = c) ∧ m.anoi = some c ∧ m.pnoi = some c := by
  have hpi := Real.pi_pos
  obtain ⟨r, m, h1, h2, h3, h4, _⟩ := C136_error solve solve hs hs 8 (by norm_num) x (1 / 8) 0 (by norm_num) (by norm_num) 8 (by norm_num) false
  have hsplit : ∀ g : ℕ → ℝ, (∀ t, g (4 + t) = -g t) → ∑ t ∈ range 8, c * (-1) ^ t * g t = 0 := by
    intro g hg
    rw [show (8 : ℕ) = 4 + 4 from rfl, sum_range_add, ← sum_add_distrib]
    apply sum_eq_zero
    intro t ht
    rw [hg, pow_add]
    ring
  have hper : ∀ t : ℕ, 2 * Real.pi * (1 / 8) * ((4 + t : ℕ) : ℝ) = 2 * Real.pi * (1 / 8) * t + Real.pi := fun t => by push_cast; ring
  obtain ⟨fit, f1, f2, f3, f4, f5, f6, _⟩ := C58_sine_plus_error solve hs 8 (by norm_num) 1 (1 / 8) 0 0 one_pos (by norm_num) (by norm_num) (by linarith) hpi.le 0 0 x
    (fun t => c * (-1) ^ t) (fun t ht => by rw [hx t ht]; unfold sineAt; ring_nf)
    (by simp [sum_range_succ]; try ring)
    (hsplit (fun t => Real.cos (2 * Real.pi * (1 / 8) * t)) (fun t => by rw [hper, Real.cos_add_pi]))
    (hsplit (fun t => Real.sin (2 * Real.pi * (1 / 8) * t)) (fun t => by rw [hper, Real.sin_add_pi])) (fun h => absurd h (by norm_num))
  have hrp : r.phase = (fun (t : ℕ) => 2 * Real.pi * (1 / 8) * t) ∧ r.amplitude = 1 ∧ ∀ t < 8, r.err t = c * (-1) ^ t := by
    have f1' : fitCore solve 8 x (some (1 / 8)) 0 0 = .ok fit := f1
    have h := h1
    unfold rearrangeByPhase at h
    rw [f1'] at h
    simp only at h
    rw [if_neg (by norm_num), if_neg (by norm_num)] at h
    injection h with h
    subst h
    simp only
    rw [f2, f4]
    refine ⟨by funext t; ring, f3, fun t ht => ?_⟩
    rw [(f6 t ht).1, hx t ht]
    unfold sineAt
    ring_nf
  obtain ⟨hph, hamp, herr⟩ := hrp
  have hxx : ∀ t < 8, m.errxx t = 45 * t := by
    intro t ht
    obtain ⟨g1, g2, k, hk⟩ := h4 t
    rw [hph] at hk
    have e : m.errxx t = 45 * t + 360 * k := by
      have : (m.errxx t - (45 * t + 360 * k)) * Real.pi = 0 := by linear_combination 180 * hk
      rcases mul_eq_zero.mp this with h | h
      · linarith
      · exact absurd h hpi.ne'
    have ht' : (t : ℝ) < 8 := by exact_mod_cast ht
    have k0 : (-1 : ℝ) < k := by linarith
    have k1 : (k : ℝ) < 1 := by have : (0 : ℝ) ≤ t := Nat.cast_nonneg t; linarith
    have : k = 0 := by
      have a1 : -1 < k := by exact_mod_cast k0
      have a2 : k < 1 := by exact_mod_cast k1
      omega
    rw [e, this]
    simp
  have hij : Real.cos (2 * r.phase 0) ≠ Real.cos (2 * r.phase 1) := by
    rw [hph]
    simp only
    rw [show 2 * (2 * Real.pi * (1 / 8) * ((0 : ℕ) : ℝ)) = 0 by push_cast; ring, show 2 * (2 * Real.pi * (1 / 8) * ((1 : ℕ) : ℝ)) = Real.pi / 2 by push_cast; ring, Real.cos_zero, Real.cos_pi_div_two]
    norm_num
  have hco := C50_recovery_no_base solve hs 8 x (some (1 / 8)) (8 : ℕ) 0 0 r h1 (c ^ 2) (c ^ 2) (sq_nonneg c) (sq_nonneg c) (fun t ht => by
    rw [herr t ht, mul_pow, ← pow_mul, mul_comm t 2, pow_mul]
    unfold noiseCurve
    have := Real.sin_sq_add_cos_sq (r.phase t)
    rw [show ((-1 : ℝ) ^ 2) ^ t = 1 by norm_num]
    linear_combination -c ^ 2 * this) 0 1 (by norm_num) (by norm_num) hij
  obtain ⟨_, _, _, _, _, hA, hP, _⟩ := phase_ok solve 8 x (some (1 / 8)) (8 : ℕ) false 0 0 r h1
  rw [hco] at hA hP
  simp only [Real.sqrt_sq hc] at hA hP
  obtain ⟨n1, n2, _⟩ := C136_noise solve solve hs hs 8 (by norm_num) x (1 / 8) 0 (by norm_num) (by norm_num) 8 (by norm_num) r m h1 h2 0 1 (by norm_num) (by norm_num) hij
  rw [hA] at n1
  rw [hP, hamp, if_neg one_ne_zero, div_one] at n2
  obtain ⟨o1, o2⟩ := C136_r2_one solve 8 (by norm_num) x 8 (1 / 8) m h2 (by
    intro s hs' t ht h
    rw [hxx s hs', hxx t ht, show 45 * (s : ℝ) / 360 * (8 : ℕ) = s by push_cast; ring, show 45 * (t : ℝ) / 360 * (8 : ℕ) = t by push_cast; ring, Int.floor_natCast, Int.floor_natCast] at h
    exact_mod_cast h)
  refine ⟨m, h2, o1, o2, fun t ht => ?_, n1, n2⟩
  rw [h3, abs_neg, herr t ht, abs_mul, abs_of_nonneg hc]
  simp

/-! ### By value -/

private theorem rec_mem (n : ℕ) (x : ℕ → ℝ) (t : ℕ) (ht : t < n) : recMin n x ≤ x t ∧ x t ≤ recMax n x :=
  ⟨minOf_le _ _ _ (List.mem_cons_of_mem _ (List.mem_map_of_mem (List.mem_range.mpr ht))), le_maxOf _ _ _ (List.mem_cons_of_mem _ (List.mem_map_of_mem (List.mem_range.mpr ht)))⟩

/-- **C136 (by value).** By value `errsin_hp.m` is `errsin.m`, with zeros for NaN in empty bins. -/
theorem C136_value (solve : Lstsq) (n : ℕ) (x : ℕ → ℝ) (bin : ℕ) (f : ℝ) :
    (mlErrsinHpValue solve n x bin f = none ↔ mlErrsinValue solve n x bin f = none) ∧
    ∀ m m', mlErrsinHpValue solve n x bin f = some m → mlErrsinValue solve n x bin f = some m' →
      m.err = m'.err ∧ m.errxx = m'.errxx ∧ m.xx = m'.xx ∧ ∀ b, m.emean b = (m'.emean b).getD 0 ∧ m.erms b = (m'.erms b).getD 0 := by
  unfold mlErrsinHpValue mlErrsinValue
  cases mlErrFit solve n x bin f with
  | none => simp
  | some p =>
    simp only [Option.bind_some]
    by_cases hlo : recMax n x = recMin n x
    · simp [hlo]
    rw [if_neg hlo, if_neg hlo]
    refine ⟨by simp, ?_⟩
    rintro m m' hm hm'
    injection hm with hm
    injection hm' with hm'
    subst hm hm'
    refine ⟨rfl, rfl, rfl, fun b => ?_⟩
    simp only
    have hidx : ∀ t < n, mlHpValueBin bin (recMin n x) (recMax n x) (x t) = mlErrValueBin bin (recMin n x) (recMax n x) (x t) := by
      intro t ht
      obtain ⟨g1, g2⟩ := rec_mem n x t ht
      unfold mlHpValueBin mlErrValueBin
      rw [max_eq_left (Int.floor_nonneg.mpr (div_nonneg (by linarith) (div_nonneg (by linarith) (Nat.cast_nonneg _))))]
    have hS : ∀ c, ((range n).filter fun t => mlHpValueBin bin (recMin n x) (recMax n x) (x t) = c) = (range n).filter fun t => mlErrValueBin bin (recMin n x) (recMax n x) (x t) = c :=
      fun c => filter_congr fun t ht => by rw [hidx t (mem_range.mp ht)]
    unfold mlHpSq mlHpMean mlBinRms mlBinMean
    simp only [hS]
    by_cases he : (range n).filter (fun t => mlErrValueBin bin (recMin n x) (recMax n x) (x t) = b) = ∅
    · rw [if_pos he, he]
      simp
    · rw [if_neg he]
      have hc1 : (1 : ℝ) ≤ ((range n).filter fun t => mlErrValueBin bin (recMin n x) (recMax n x) (x t) = b).card := by exact_mod_cast card_pos.mpr (nonempty_iff_ne_empty.mpr he)
      rw [max_eq_right hc1]
      refine ⟨rfl, ?_⟩
      simp only [Option.map_some, Option.getD_some]
      congr 2
      refine sum_congr rfl fun t ht => ?_
      obtain ⟨ht, htb⟩ := mem_filter.mp ht
      rw [hidx t (mem_range.mp ht), htb, max_eq_right hc1]

/-! ### Examples -/

/-- The conditions on phases in `C136_noise` and `C136_default` hold for eight samples of a period. -/
example : Real.cos (2 * (2 * Real.pi * (1 / 8) * ((0 : ℕ) : ℝ))) ≠ Real.cos (2 * (2 * Real.pi * (1 / 8) * ((1 : ℕ) : ℝ))) := by
  rw [show 2 * (2 * Real.pi * (1 / 8) * ((0 : ℕ) : ℝ)) = 0 by push_cast; ring, show 2 * (2 * Real.pi * (1 / 8) * ((1 : ℕ) : ℝ)) = Real.pi / 2 by push_cast; ring, Real.cos_zero, Real.cos_pi_div_two]
  norm_num

/-- The record of `C136_r2_record` with errors of a tenth. -/
example (solve : Lstsq) (hs : IsLstsq solve) : ∃ m, mlErrsinHpPhase solve 8 (fun t => Real.cos (2 * Real.pi * (1 / 8) * t) + 1 / 10 * (-1) ^ t) 8 (1 / 8) = some m ∧ m.r2 = some 1 ∧ m.anoi = some (1 / 10) := by
  obtain ⟨m, h1, h2, _, _, h3, _⟩ := C136_r2_record solve hs (1 / 10) (by norm_num) _ fun t _ => rfl
  exact ⟨m, h1, h2, h3⟩

/-- For the same record Python, with its base noise, has neither amplitude nor phase noise: the hypotheses of `C136_default` are met with equal figures. -/
example (solve : Lstsq) (hs : IsLstsq solve) (tol : ℝ) : ∃ r, rearrangeByPhase solve 8 (fun t => Real.cos (2 * Real.pi * (1 / 8) * t) + 1 / 10 * (-1) ^ t) (some (1 / 8)) (8 : ℕ) true 0 tol = .ok r ∧
    (r.amplitude = 1 → r.phase = (fun (t : ℕ) => 2 * Real.pi * (1 / 8) * t) → r.amRms = 0 ∧ r.pmRms = 0) := by
  obtain ⟨m, h1, _, _, _, h3, h4⟩ := C136_r2_record solve hs (1 / 10) (by norm_num) (fun t => Real.cos (2 * Real.pi * (1 / 8) * t) + 1 / 10 * (-1) ^ t) fun t _ => rfl
  obtain ⟨r, m', g1, g2, _⟩ := C136_error solve solve hs hs 8 (by norm_num) (fun t => Real.cos (2 * Real.pi * (1 / 8) * t) + 1 / 10 * (-1) ^ t) (1 / 8) tol (by norm_num) (by norm_num) 8 (by norm_num) true
  refine ⟨r, g1, fun hA hP => ?_⟩
  obtain ⟨k1, k2, _⟩ := C136_default solve solve hs hs 8 (by norm_num) _ (1 / 8) tol (by norm_num) (by norm_num) 8 (by norm_num) r m g1 h1 0 1 (by norm_num) (by norm_num) (by
    rw [hP]
    simp only
    rw [show 2 * (2 * Real.pi * (1 / 8) * ((0 : ℕ) : ℝ)) = 0 by push_cast; ring, show 2 * (2 * Real.pi * (1 / 8) * ((1 : ℕ) : ℝ)) = Real.pi / 2 by push_cast; ring, Real.cos_zero, Real.cos_pi_div_two]
    norm_num) _ _ h3 h4 (by norm_num) (by norm_num)
  rw [hA] at k1 k2
  constructor
  · have : r.amRms ^ 2 = 0 := by rw [k1]; norm_num
    exact pow_eq_zero_iff (two_ne_zero) |>.mp this
  · have : r.pmRms ^ 2 = 0 := by rw [k2]; norm_num
    exact pow_eq_zero_iff (two_ne_zero) |>.mp this

end Verif
