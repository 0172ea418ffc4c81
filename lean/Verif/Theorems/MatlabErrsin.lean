import Verif.Model.MatlabErrsin
import Verif.Theorems.MatlabFit
import Verif.Theorems.ErrorByPhase
import Verif.Theorems.ErrorByValue

/-!
# C132: error binning against `errsin.m`

`errsin.m` takes the error as fit minus signal, bins phases around multiples of the bin width and reports the spread about the mean of each bin.
-/

namespace Verif

open Model Finset

/-- Value `v` lies in slot `b` of `nb` equal slots from `lo` to `hi`, the last of which includes `hi` (specification). -/
def InValueSlot (nb : ℕ) (lo hi : ℝ) (b : ℕ) (v : ℝ) : Prop :=
  lo + b * ((hi - lo) / nb) ≤ v ∧ (v < lo + ((b : ℝ) + 1) * ((hi - lo) / nb) ∨ (b + 1 = nb ∧ v = hi))

/-- Mean and spread of the values `e` over the samples of `S`, absent when there are none (specification). -/
def SpreadOf (S : Finset ℕ) (e : ℕ → ℝ) (mean spread : Option ℝ) : Prop :=
  (S.Nonempty → ∃ m, mean = some m ∧ m * S.card = ∑ t ∈ S, e t ∧ ∃ s, spread = some s ∧ 0 ≤ s ∧ s ^ 2 * S.card = ∑ t ∈ S, (e t - m) ^ 2) ∧
  (S = ∅ → mean = none ∧ spread = none)

/-- A mean and raw RMS (Python) and a mean and spread (MATLAB) of errors of opposite sign over the same samples (specification). -/
def OppositeStats (mean rms emean erms : Option ℝ) : Prop :=
  (mean = none ∧ rms = none ∧ emean = none ∧ erms = none) ∨
  ∃ μ ρ σ, mean = some μ ∧ rms = some ρ ∧ emean = some (-μ) ∧ erms = some σ ∧ ρ ^ 2 = σ ^ 2 + μ ^ 2

private theorem spread_ml (n : ℕ) (idx : ℕ → ℕ) (e : ℕ → ℝ) (b : ℕ) :
    SpreadOf ((range n).filter fun t => idx t = b) e (mlBinMean n idx e b) (mlBinRms n idx e b) := by
  unfold mlBinRms mlBinMean
  generalize (range n).filter (fun t => idx t = b) = S
  refine ⟨fun hne => ?_, fun he => by simp [he]⟩
  have hc : (0 : ℝ) < S.card := by exact_mod_cast card_pos.mpr hne
  rw [if_neg hne.ne_empty]
  refine ⟨_, rfl, by field_simp, _, rfl, Real.sqrt_nonneg _, ?_⟩
  rw [Real.sq_sqrt (div_nonneg (sum_nonneg fun t _ => sq_nonneg _) hc.le), div_mul_cancel₀ _ hc.ne']

private theorem spread_py (n : ℕ) (idx : ℕ → ℕ) (mask : ℕ → Bool) (e e' : ℕ → ℝ) (b : ℕ) (S : Finset ℕ) (hS : ((range n).filter fun t => mask t = true ∧ idx t = b) = S)
    (he : ∀ t ∈ S, e' t = -e t) (em er : Option ℝ) (h : SpreadOf S e' em er) : OppositeStats (binMean n idx mask e b) (binRms n idx mask e b) em er := by
  unfold binMean binRms binSum binCount
  rw [hS]
  rcases S.eq_empty_or_nonempty with h0 | hne
  · obtain ⟨h1, h2⟩ := h.2 h0
    left
    subst h0
    simp [h1, h2]
  · right
    obtain ⟨m, h1, h2, s, h3, h4, h5⟩ := h.1 hne
    have hc : (0 : ℝ) < S.card := by exact_mod_cast card_pos.mpr hne
    rw [if_pos (card_pos.mpr hne), if_pos (card_pos.mpr hne)]
    have hsum : ∑ t ∈ S, e' t = -∑ t ∈ S, e t := by rw [← sum_neg_distrib]; exact sum_congr rfl he
    have hm : m = -((∑ t ∈ S, e t) / S.card) := by
      rw [hsum] at h2
      field_simp
      linarith
    refine ⟨_, _, s, rfl, rfl, by rw [h1, hm], h3, ?_⟩
    rw [Real.sq_sqrt (div_nonneg (sum_nonneg fun t _ => sq_nonneg _) hc.le)]
    have hexp : ∑ t ∈ S, (e' t - m) ^ 2 = ∑ t ∈ S, e t ^ 2 - S.card * m ^ 2 := by
      have : ∀ t ∈ S, (e' t - m) ^ 2 = e t ^ 2 - 2 * m * e' t + m ^ 2 := fun t ht => by rw [he t ht]; ring
      rw [sum_congr rfl this, sum_add_distrib, sum_sub_distrib, ← mul_sum, ← h2, sum_const, nsmul_eq_mul]
      ring
    have hs2 : s ^ 2 = ((∑ t ∈ S, e t ^ 2) - S.card * m ^ 2) / S.card := by rw [eq_div_iff hc.ne', h5, hexp]
    rw [hs2, hm]
    field_simp
    ring

/-! ### Slots of the circle -/

private theorem slot_floor (nb b : ℕ) (hb : b < nb) (u : ℝ) : InSlot nb b (u * (2 * Real.pi / nb)) ↔ (⌊u⌋ % (nb : ℤ)).toNat = b := by
  have hnb : (0 : ℝ) < nb := by exact_mod_cast (by omega : 0 < nb)
  have hw0 : 0 < 2 * Real.pi / (nb : ℝ) := by have := Real.pi_pos; positivity
  have hwn : ∀ k : ℤ, (k : ℝ) * (2 * Real.pi) = (k * nb) * (2 * Real.pi / nb) := fun k => by field_simp
  have hz : (⌊u⌋ % (nb : ℤ)).toNat = b ↔ ⌊u⌋ % (nb : ℤ) = b := by
    have := Int.emod_nonneg ⌊u⌋ (by omega : (nb : ℤ) ≠ 0)
    omega
  rw [hz]
  unfold InSlot
  constructor
  · rintro ⟨k, h1, h2⟩
    rw [hwn, ← sub_mul, mul_le_mul_iff_of_pos_right hw0] at h1
    rw [hwn, ← sub_mul, mul_lt_mul_iff_of_pos_right hw0] at h2
    have hf : ⌊u⌋ = b + k * nb := by
      rw [Int.floor_eq_iff]
      push_cast
      constructor <;> linarith
    rw [hf, Int.add_mul_emod_self_right, Int.emod_eq_of_lt (by omega) (by omega)]
  · intro h
    refine ⟨⌊u⌋ / nb, ?_⟩
    have hdm : ((⌊u⌋ / (nb : ℤ) : ℤ) : ℝ) * nb + b = ⌊u⌋ := by
      have := Int.ediv_mul_add_emod ⌊u⌋ nb
      rw [h] at this
      exact_mod_cast this
    rw [hwn, ← sub_mul, mul_le_mul_iff_of_pos_right hw0, mul_lt_mul_iff_of_pos_right hw0]
    have h1 := Int.floor_le u
    have h2 := Int.lt_floor_add_one u
    constructor <;> linarith

private theorem slot_turn (nb b : ℕ) (φ : ℝ) (k : ℤ) : InSlot nb b (φ + k * (2 * Real.pi)) ↔ InSlot nb b φ := by
  constructor
  · rintro ⟨j, h1, h2⟩
    exact ⟨j - k, by push_cast; linarith, by push_cast; linarith⟩
  · rintro ⟨j, h1, h2⟩
    exact ⟨j + k, by push_cast; linarith, by push_cast; linarith⟩

private theorem mlPhase_range (phi fin : ℝ) (t : ℕ) : 0 ≤ mlErrPhase phi fin t ∧ mlErrPhase phi fin t < 360 :=
  ⟨pmod_nonneg _ (by norm_num), pmod_lt _ (by norm_num)⟩

private theorem mlPhase_slot (nb b : ℕ) (hb : b < nb) (φ : ℝ) (h0 : 0 ≤ φ) : mlErrPhaseBin nb φ = b ↔ InSlot nb b (φ / 180 * Real.pi + Real.pi / nb) := by
  have hnb : (0 : ℝ) < nb := by exact_mod_cast (by omega : 0 < nb)
  rw [show φ / 180 * Real.pi + Real.pi / nb = (φ / 360 * nb + 1 / 2) * (2 * Real.pi / nb) by field_simp; ring, slot_floor nb b hb]
  unfold mlErrPhaseBin mlRound
  rw [if_pos (by positivity)]

/-! ### The fit -/

private theorem fit_given (solve solve' : Lstsq) (hs : IsLstsq solve) (hs' : IsLstsq solve') (n : ℕ) (hn : 3 ≤ n) (x : ℕ → ℝ) (f tol : ℝ) (h0 : 0 < f) (h1 : f < 1 / 2)
    (bin : ℕ) (hb : 0 < bin) : ∃ r m, fitCore solve n x (some f) 0 tol = .ok r ∧ mlErrFit solve' n x bin f = some (m, f) ∧ r.frequency = f ∧
      (∀ t, m.fitted t = r.fitted t) ∧ ∃ k : ℤ, m.phi = r.phase + k * (2 * Real.pi) := by
  obtain ⟨r, m, h2, h3, _, _, h4, _, _, h5, h6⟩ := C124_given_frequency solve solve' hs hs' n hn x f tol h0 h1
  refine ⟨r, m, h2, ?_, h4, h5, ?_⟩
  · unfold mlErrFit
    rw [if_neg (by rintro (h | h | h) <;> linarith [show (0 : ℝ) < bin from by exact_mod_cast hb]), h3]
    simp [h0.ne']
  · by_cases hp : r.phase = Real.pi
    · rw [if_pos hp] at h6
      exact ⟨-1, by rw [h6, hp]; push_cast; ring⟩
    · rw [if_neg hp] at h6
      exact ⟨0, by rw [h6]; simp⟩

/-- **C132 (errors and phases).** With the frequency given and `max_iterations = 0`, both functions answer; `errsin.m` returns the errors of Python with the opposite sign, and the
same phases in degrees, reduced to one turn. The bin centres of Python lie half a bin above those of MATLAB. -/
theorem C132_error (solve solve' : Lstsq) (hs : IsLstsq solve) (hs' : IsLstsq solve') (n : ℕ) (hn : 3 ≤ n) (x : ℕ → ℝ) (f tol : ℝ) (h0 : 0 < f) (h1 : f < 1 / 2)
    (bin : ℕ) (hb : 0 < bin) (base : Bool) :
    ∃ r m, rearrangeByPhase solve n x (some f) bin base 0 tol = .ok r ∧ mlErrsinPhase solve' n x bin f = some m ∧ (∀ t, m.err t = -r.err t) ∧
      (∀ t, 0 ≤ m.errxx t ∧ m.errxx t < 360 ∧ ∃ k : ℤ, m.errxx t / 180 * Real.pi = r.phase t + k * (2 * Real.pi)) ∧
      ∀ b, r.centers b = m.xx b / 180 * Real.pi + Real.pi / bin := by
  obtain ⟨fit, m, e1, e2, e3, e4, k, e5⟩ := fit_given solve solve' hs hs' n hn x f tol h0 h1 bin hb
  have hbr : (bin : ℝ) ≠ 0 := by exact_mod_cast hb.ne'
  have hr : ∃ r, rearrangeByPhase solve n x (some f) bin base 0 tol = .ok r ∧ r.err = (fun t => x t - fit.fitted t) ∧
      r.phase = (fun (t : ℕ) => 2 * Real.pi * fit.frequency * t + fit.phase) ∧ r.centers = phaseCenter bin := by
    unfold rearrangeByPhase
    rw [e1]
    simp only
    rw [if_neg (by omega), if_neg (by omega)]
    exact ⟨_, rfl, rfl, rfl, by simp⟩
  obtain ⟨r, hr, he, hp, hc⟩ := hr
  have hm : ∃ q, mlErrsinPhase solve' n x bin f = some q ∧ q.err = (fun t => m.fitted t - x t) ∧ q.errxx = mlErrPhase m.phi f ∧ q.xx = fun (b : ℕ) => (b : ℝ) / bin * 360 := by
    unfold mlErrsinPhase
    rw [e2]
    exact ⟨_, rfl, rfl, rfl, rfl⟩
  obtain ⟨q, hq, he', hp', hx⟩ := hm
  refine ⟨r, q, hr, hq, fun t => by rw [he, he']; simp only; rw [e4]; ring, fun t => ?_, fun b => ?_⟩
  · rw [hp', hp]
    obtain ⟨g1, g2⟩ := mlPhase_range m.phi f t
    refine ⟨g1, g2, k - ⌊(m.phi / Real.pi * 180 + t * f * 360) / 360⌋, ?_⟩
    unfold mlErrPhase pmod
    rw [e3, e5]
    have := Real.pi_pos
    push_cast
    field_simp
    ring
  · rw [hc, hx]
    unfold phaseCenter
    field_simp
    ring

open Classical in
/-- **C132 (phase bins).** Bin `b` of `errsin.m` holds the samples whose phase is within half a bin of the `b`-th centre, the lower edge included; its two numbers are the mean of their
errors and the spread about that mean, NaN for an empty bin. -/
theorem C132_phase_bins (solve : Lstsq) (n : ℕ) (x : ℕ → ℝ) (bin : ℕ) (f : ℝ) (m : MlErrBins) (h : mlErrsinPhase solve n x bin f = some m) (b : ℕ) (hb : b < bin) :
    SpreadOf ((range n).filter fun t => InSlot bin b (m.errxx t / 180 * Real.pi + Real.pi / bin)) m.err (m.emean b) (m.erms b) ∧ m.xx b = 360 * b / bin := by
  unfold mlErrsinPhase at h
  rw [Option.map_eq_some_iff] at h
  obtain ⟨p, _, rfl⟩ := h
  simp only
  refine ⟨?_, by ring⟩
  have hS : ((range n).filter fun t => mlErrPhaseBin bin (mlErrPhase p.1.phi p.2 t) = b) =
      (range n).filter fun t => InSlot bin b (mlErrPhase p.1.phi p.2 t / 180 * Real.pi + Real.pi / bin) := by
    apply filter_congr
    intro t _
    exact mlPhase_slot bin b hb _ (mlPhase_range _ _ _).1
  rw [← hS]
  exact spread_ml n _ _ b

open Classical in
/-- Phase bins that hold the same samples, whatever their numbers. -/
private theorem same_slots (solve solve' : Lstsq) (n : ℕ) (x : ℕ → ℝ) (freq : Option ℝ) (maxIter : ℤ) (tol f : ℝ)
    (bin : ℕ) (base : Bool) (r : PhaseBins) (m : MlErrBins) (hr : rearrangeByPhase solve n x freq bin base maxIter tol = .ok r) (hm : mlErrsinPhase solve' n x bin f = some m)
    (he : ∀ t, m.err t = -r.err t) (hp : ∀ t, ∃ k : ℤ, m.errxx t / 180 * Real.pi = r.phase t + k * (2 * Real.pi)) (b c : ℕ) (hb : b < bin) (hc : c < bin)
    (hbc : ∀ t < n, InSlot bin b (r.phase t) ↔ InSlot bin c (r.phase t + Real.pi / bin)) : OppositeStats (r.mean b) (r.rms b) (m.emean c) (m.erms c) := by
  obtain ⟨_, idx, hidx, _, _, _, _, _, _, _, _, _, _, _, hmean, hrms, _⟩ := phase_ok solve n x freq bin base maxIter tol r hr
  rw [Int.toNat_natCast] at hidx
  rw [hmean, hrms]
  refine spread_py n idx _ r.err m.err b _ ?_ (fun t _ => he t) _ _ (C132_phase_bins solve' n x bin f m hm c hc).1
  apply filter_congr
  intro t ht
  obtain ⟨k, hk⟩ := hp t
  rw [hk, show r.phase t + k * (2 * Real.pi) + Real.pi / bin = r.phase t + Real.pi / bin + k * (2 * Real.pi) by ring, slot_turn, ← hbc t (mem_range.mp ht), hidx, slot_iff bin b hb]
  simp

/-- **C132 (same phase bins).** With the frequency given and `max_iterations = 0`: when every sample lies in the lower half of its Python bin, each bin of `errsin.m` holds the samples of the Python
bin of the same number; when every sample lies in the upper half, those of the Python bin before it, round the circle. The means are then opposite and the squared Python RMS is the squared MATLAB one plus the squared mean. -/
theorem C132_phase_same (solve solve' : Lstsq) (hs : IsLstsq solve) (hs' : IsLstsq solve') (n : ℕ) (hn : 3 ≤ n) (x : ℕ → ℝ) (f tol : ℝ) (h0 : 0 < f) (h1 : f < 1 / 2)
    (bin : ℕ) (base : Bool) (r : PhaseBins) (m : MlErrBins) (hr : rearrangeByPhase solve n x (some f) bin base 0 tol = .ok r) (hm : mlErrsinPhase solve' n x bin f = some m)
    (b : ℕ) (hb : b < bin) :
    ((∀ t < n, ∃ j : ℤ, j * (2 * Real.pi / bin) ≤ r.phase t ∧ r.phase t < (j + 1 / 2) * (2 * Real.pi / bin)) →
      OppositeStats (r.mean b) (r.rms b) (m.emean b) (m.erms b)) ∧
    ((∀ t < n, ∃ j : ℤ, (j + 1 / 2) * (2 * Real.pi / bin) ≤ r.phase t ∧ r.phase t < (j + 1) * (2 * Real.pi / bin)) →
      OppositeStats (r.mean b) (r.rms b) (m.emean ((b + 1) % bin)) (m.erms ((b + 1) % bin))) := by
  have hbin : 0 < bin := by omega
  have hnb : (0 : ℝ) < bin := by exact_mod_cast hbin
  have hw0 : 0 < 2 * Real.pi / (bin : ℝ) := by have := Real.pi_pos; positivity
  obtain ⟨r', m', q1, q2, he, hp, _⟩ := C132_error solve solve' hs hs' n hn x f tol h0 h1 bin hbin base
  rw [hr] at q1
  rw [hm] at q2
  injection q1 with q1
  injection q2 with q2
  subst q1 q2
  have key : ∀ (φ : ℝ) (c : ℕ), c < bin → (InSlot bin c φ ↔ ⌊φ / (2 * Real.pi / bin)⌋ % (bin : ℤ) = c) := by
    intro φ c hc
    have h := slot_floor bin c hc (φ / (2 * Real.pi / bin))
    rw [div_mul_cancel₀ _ hw0.ne'] at h
    rw [h]
    have := Int.emod_nonneg ⌊φ / (2 * Real.pi / bin)⌋ (by omega : (bin : ℤ) ≠ 0)
    omega
  have hhalf : ∀ φ : ℝ, (φ + Real.pi / bin) / (2 * Real.pi / bin) = φ / (2 * Real.pi / bin) + 1 / 2 := by
    intro φ
    have := Real.pi_pos
    field_simp
  constructor
  · intro h
    refine same_slots solve solve' n x (some f) 0 tol f bin base r m hr hm he (fun t => (hp t).2.2) b b hb hb fun t ht => ?_
    obtain ⟨j, j1, j2⟩ := h t ht
    rw [← le_div_iff₀ hw0] at j1
    rw [← div_lt_iff₀ hw0] at j2
    rw [key _ b hb, key _ b hb, hhalf, show ⌊r.phase t / (2 * Real.pi / bin)⌋ = j from Int.floor_eq_iff.mpr ⟨j1, by linarith⟩,
      show ⌊r.phase t / (2 * Real.pi / bin) + 1 / 2⌋ = j from Int.floor_eq_iff.mpr ⟨by linarith, by linarith⟩]
  · intro h
    refine same_slots solve solve' n x (some f) 0 tol f bin base r m hr hm he (fun t => (hp t).2.2) b _ hb (Nat.mod_lt _ hbin) fun t ht => ?_
    obtain ⟨j, j1, j2⟩ := h t ht
    rw [← le_div_iff₀ hw0] at j1
    rw [← div_lt_iff₀ hw0] at j2
    rw [key _ b hb, key _ _ (Nat.mod_lt _ hbin), hhalf, show ⌊r.phase t / (2 * Real.pi / bin)⌋ = j from Int.floor_eq_iff.mpr ⟨by linarith, by linarith⟩,
      show ⌊r.phase t / (2 * Real.pi / bin) + 1 / 2⌋ = j + 1 from Int.floor_eq_iff.mpr ⟨by push_cast; linarith, by push_cast; linarith⟩]
    push_cast
    constructor
    · intro h
      rw [Int.add_emod, h]
      conv_rhs => rw [Int.add_emod, Int.emod_eq_of_lt (by omega : (0 : ℤ) ≤ b) (by omega)]
    · intro h
      have h2 : j % (bin : ℤ) = (b : ℤ) % bin := by
        have := Int.ModEq.add_right_cancel' 1 h
        exact this
      rw [h2, Int.emod_eq_of_lt (by omega) (by omega)]

/-! ### Noise -/

private theorem noise_of (solve : Lstsq) (n : ℕ) (x : ℕ → ℝ) (bin : ℕ) (f : ℝ) (m : MlErrBins) (h : mlErrsinPhase solve n x bin f = some m) :
    m.anoi = some (mlErrNoise solve bin m.xx m.erms).1 ∧ m.pnoi = some (mlErrNoise solve bin m.xx m.erms).2 ∧ m.xx = fun (b : ℕ) => (b : ℝ) / bin * 360 := by
  unfold mlErrsinPhase at h
  rw [Option.map_eq_some_iff] at h
  obtain ⟨p, _, rfl⟩ := h
  exact ⟨rfl, rfl, rfl⟩

/-- **C132 (amplitude and phase noise).** With three bins or more, none empty, whose squared spreads follow `a cos² + p sin²` at the bin centres, `errsin.m` reports the roots of `a` and `p`. -/
theorem C132_noise (solve : Lstsq) (hs : IsLstsq solve) (n : ℕ) (x : ℕ → ℝ) (bin : ℕ) (hb : 3 ≤ bin) (f : ℝ) (m : MlErrBins) (h : mlErrsinPhase solve n x bin f = some m)
    (a p : ℝ) (ha : 0 ≤ a) (hp : 0 ≤ p)
    (hv : ∀ b < bin, ∃ σ, m.erms b = some σ ∧ σ ^ 2 = noiseCurve a p 0 (m.xx b / 180 * Real.pi)) : m.anoi = some (Real.sqrt a) ∧ m.pnoi = some (Real.sqrt p) := by
  obtain ⟨h1, h2, hx⟩ := noise_of solve n x bin f m h
  have hbr : (0 : ℝ) < bin := by exact_mod_cast (by omega : 0 < bin)
  set cols : List (ℕ → ℝ) := [fun b => Real.cos (m.xx b / 360 * 2 * Real.pi) ^ 2, fun b => Real.sin (m.xx b / 360 * 2 * Real.pi) ^ 2] with hcols
  have hno : ¬ ∃ b < bin, m.erms b = none := by
    rintro ⟨b, hb', he⟩
    obtain ⟨σ, hσ, _⟩ := hv b hb'
    rw [he] at hσ
    cases hσ
  have huniq := lstsq_unique solve hs bin cols (fun b => ((m.erms b).getD 0) ^ 2) [a, p]
    (by
      intro b hb'
      obtain ⟨σ, hσ, hσ2⟩ := hv b hb'
      rw [hσ, hcols]
      unfold matVec
      unfold noiseCurve at hσ2
      rw [← show m.xx b / 360 * 2 * Real.pi = m.xx b / 180 * Real.pi by ring] at hσ2
      simp [sum_range_succ, hσ2])
    (by
      intro v hv0 j hj
      have e0 := hv0 0 (by omega)
      have e1 := hv0 1 (by omega)
      rw [hcols, hx] at e0 e1
      simp [sum_range_succ] at e0 e1
      rw [e0] at e1
      have hsin : Real.sin ((bin : ℝ)⁻¹ * 360 / 360 * 2 * Real.pi) ≠ 0 := by
        apply ne_of_gt
        have hpi := Real.pi_pos
        apply Real.sin_pos_of_pos_of_lt_pi (by positivity)
        rw [show (bin : ℝ)⁻¹ * 360 / 360 * 2 * Real.pi = 2 * Real.pi / bin by field_simp, div_lt_iff₀ hbr]
        have : (3 : ℝ) ≤ bin := by exact_mod_cast hb
        nlinarith
      have e2 : v 1 = 0 := by
        rw [show (bin : ℝ)⁻¹ * 360 / 360 * 2 * Real.pi = (bin : ℝ)⁻¹ * 2 * Real.pi by ring] at hsin
        simp at e1
        exact e1.resolve_right hsin
      have : j = 0 ∨ j = 1 := by simp [hcols] at hj; omega
      rcases this with rfl | rfl
      · exact e0
      · exact e2)
  have q0 := huniq 0 (by simp [hcols])
  have q1 := huniq 1 (by simp [hcols])
  have hn : mlErrNoise solve bin m.xx m.erms = (Real.sqrt a, Real.sqrt p) := by
    unfold mlErrNoise
    rw [if_neg hno]
    simp only
    rw [← hcols, q0, q1]
    simp [ha, hp]
  rw [h1, h2, hn]
  exact ⟨rfl, rfl⟩

/-- **C132 (empty bins).** With fewer samples than bins – the default is one hundred – `errsin.m` reports zero amplitude noise and zero phase noise, whatever the record. -/
theorem C132_empty (solve : Lstsq) (n : ℕ) (x : ℕ → ℝ) (bin : ℕ) (f : ℝ) (m : MlErrBins) (h : mlErrsinPhase solve n x bin f = some m) (hlt : n < bin) :
    m.anoi = some 0 ∧ m.pnoi = some 0 := by
  obtain ⟨h1, h2, _⟩ := noise_of solve n x bin f m h
  have hex : ∃ b < bin, m.erms b = none := by
    unfold mlErrsinPhase at h
    rw [Option.map_eq_some_iff] at h
    obtain ⟨p, _, rfl⟩ := h
    simp only
    set idx := fun t => mlErrPhaseBin bin (mlErrPhase p.1.phi p.2 t)
    have hcard : ((range n).image idx).card < (range bin).card := lt_of_le_of_lt card_image_le (by simpa using hlt)
    obtain ⟨b, hb, hnot⟩ := exists_mem_notMem_of_card_lt_card hcard
    refine ⟨b, mem_range.mp hb, ((spread_ml n idx _ b).2 ?_).2⟩
    rw [filter_eq_empty_iff]
    intro t ht he
    exact hnot (mem_image.mpr ⟨t, ht, he⟩)
  have hn : mlErrNoise solve bin m.xx m.erms = (0, 0) := by
    unfold mlErrNoise
    rw [if_pos hex]
  rw [h1, h2, hn]
  exact ⟨rfl, rfl⟩

/-- **C132 (refuted: same noise figures).** For errors of constant magnitude `c` whose mean is zero in every bin of `errsin.m`, MATLAB reports `c` both as amplitude and as phase noise;
`rearrange_error_by_phase`, with its default base noise term, reports none of either and a base noise of `c`. -/
theorem C132_noise_floor (solve solve' : Lstsq) (hs : IsLstsq solve) (hs' : IsLstsq solve') (n : ℕ) (hn : 3 ≤ n) (x : ℕ → ℝ) (f tol : ℝ) (h0 : 0 < f) (h1 : f < 1 / 2)
    (bin : ℕ) (hb : 3 ≤ bin) (r : PhaseBins) (m : MlErrBins) (hr : rearrangeByPhase solve n x (some f) bin true 0 tol = .ok r) (hm : mlErrsinPhase solve' n x bin f = some m)
    (c : ℝ) (hc : 0 ≤ c) (he : ∀ t < n, |r.err t| = c) (hz : ∀ b < bin, m.emean b = some 0) (i j : ℕ) (hi : i < n) (hj : j < n)
    (hij : Real.cos (2 * r.phase i) ≠ Real.cos (2 * r.phase j)) :
    m.anoi = some c ∧ m.pnoi = some c ∧ r.amRms = 0 ∧ r.pmRms = 0 ∧ r.baseRms = c := by
  classical
  have hsq : ∀ t < n, r.err t ^ 2 = c ^ 2 := fun t ht => by rw [← sq_abs, he t ht]
  have hco := C50_recovery solve hs n x (some f) bin 0 tol r hr 0 0 (c ^ 2) le_rfl le_rfl (sq_nonneg c) (fun t ht => by rw [hsq t ht]; unfold noiseCurve; ring) i j hi hj hij
  obtain ⟨_, _, _, _, _, ha, hp, hbs, _⟩ := phase_ok solve n x (some f) bin true 0 tol r hr
  rw [hco] at ha hp hbs
  obtain ⟨r', m', q1, q2, hneg, _, _⟩ := C132_error solve solve' hs hs' n hn x f tol h0 h1 bin (by omega) true
  rw [hr] at q1
  rw [hm] at q2
  injection q1 with q1
  injection q2 with q2
  subst q1 q2
  have hnoise := C132_noise solve' hs' n x bin hb f m hm (c ^ 2) (c ^ 2) (sq_nonneg c) (sq_nonneg c) (by
    intro b hb'
    have hsp := (C132_phase_bins solve' n x bin f m hm b hb').1
    rcases Finset.eq_empty_or_nonempty ((range n).filter fun t => InSlot bin b (m.errxx t / 180 * Real.pi + Real.pi / bin)) with h' | h'
    · have := (hsp.2 h').1
      rw [hz b hb'] at this
      cases this
    · obtain ⟨μ, hμ, _, s, hs1, _, hs2⟩ := hsp.1 h'
      rw [hz b hb'] at hμ
      injection hμ with hμ
      refine ⟨s, hs1, ?_⟩
      rw [← hμ, sum_congr rfl (g := fun _ => c ^ 2) (fun t ht => by
        rw [sub_zero, hneg, neg_sq]
        exact hsq t (mem_range.mp (mem_filter.mp ht).1)), sum_const, nsmul_eq_mul, mul_comm] at hs2
      have hcard : ((((range n).filter fun t => InSlot bin b (m.errxx t / 180 * Real.pi + Real.pi / bin)).card : ℕ) : ℝ) ≠ 0 := by
        exact_mod_cast (card_pos.mpr h').ne'
      rw [mul_left_cancel₀ hcard hs2]
      unfold noiseCurve
      have := Real.sin_sq_add_cos_sq (m.xx b / 180 * Real.pi)
      linear_combination -c ^ 2 * this)
  rw [Real.sqrt_sq hc] at hnoise
  refine ⟨hnoise.1, hnoise.2, by rw [ha]; simp, by rw [hp]; simp, by rw [hbs]; simp [Real.sqrt_sq hc]⟩

/-- **C132 (refuted: same noise figures, a record).** Two periods of a cosine with eight samples each, `c` added to the first and subtracted from the second: with eight bins `errsin.m` finds
amplitude and phase noise `c`, Python neither. -/
theorem C132_noise_differs (solve solve' : Lstsq) (hs : IsLstsq solve) (hs' : IsLstsq solve') (tol c : ℝ) (hc : 0 ≤ c) (x : ℕ → ℝ)
    (hx : ∀ t < 16, x t = Real.cos (2 * Real.pi * (1 / 8) * t) + if t < 8 then c else -c) :
    ∃ r m, rearrangeByPhase solve 16 x (some (1 / 8)) (8 : ℕ) true 0 tol = .ok r ∧ mlErrsinPhase solve' 16 x 8 (1 / 8) = some m ∧
      m.anoi = some c ∧ m.pnoi = some c ∧ r.amRms = 0 ∧ r.pmRms = 0 ∧ r.baseRms = c := by
  classical
  have hpi := Real.pi_pos
  obtain ⟨r, m, h1, h2, h3, h4, _⟩ := C132_error solve solve' hs hs' 16 (by norm_num) x (1 / 8) tol (by norm_num) (by norm_num) 8 (by norm_num) true
  have hper : ∀ t : ℕ, 2 * Real.pi * (1 / 8) * ((8 + t : ℕ) : ℝ) = 2 * Real.pi * (1 / 8) * t + 2 * Real.pi := fun t => by push_cast; ring
  have hsplit : ∀ g : ℕ → ℝ, (∀ t, g (8 + t) = g t) → ∑ t ∈ range 16, (if t < 8 then c else -c) * g t = 0 := by
    intro g hg
    rw [show (16 : ℕ) = 8 + 8 from rfl, sum_range_add, ← sum_add_distrib]
    apply sum_eq_zero
    intro t ht
    rw [if_pos (mem_range.mp ht), if_neg (by omega), hg]
    ring
  obtain ⟨fit, f1, f2, f3, f4, f5, f6, _⟩ := C58_sine_plus_error solve hs 16 (by norm_num) 1 (1 / 8) 0 0 one_pos (by norm_num) (by norm_num) (by linarith) hpi.le 0 tol x
    (fun t => if t < 8 then c else -c) (fun t ht => by rw [hx t ht]; unfold sineAt; ring_nf)
    (by simpa using hsplit (fun _ => 1) (fun _ => rfl))
    (hsplit (fun t => Real.cos (2 * Real.pi * (1 / 8) * t)) (fun t => by rw [hper, Real.cos_add_two_pi]))
    (hsplit (fun t => Real.sin (2 * Real.pi * (1 / 8) * t)) (fun t => by rw [hper, Real.sin_add_two_pi])) (fun h => absurd h (by norm_num))
  have hrp : r.phase = (fun (t : ℕ) => 2 * Real.pi * (1 / 8) * t) ∧ ∀ t < 16, r.err t = if t < 8 then c else -c := by
    have f1' : fitCore solve 16 x (some (1 / 8)) 0 tol = .ok fit := f1
    have h := h1
    unfold rearrangeByPhase at h
    rw [f1'] at h
    simp only at h
    rw [if_neg (by norm_num), if_neg (by norm_num)] at h
    injection h with h
    subst h
    simp only
    rw [f2, f4]
    refine ⟨by funext t; ring, fun t ht => ?_⟩
    rw [(f6 t ht).1, hx t ht]
    unfold sineAt
    ring_nf
  obtain ⟨hph, herr⟩ := hrp
  refine ⟨r, m, h1, h2, C132_noise_floor solve solve' hs hs' 16 (by norm_num) x (1 / 8) tol (by norm_num) (by norm_num) 8 (by norm_num) r m h1 h2 c hc ?_ ?_ 0 1 (by norm_num) (by norm_num) ?_⟩
  · intro t ht
    rw [herr t ht]
    split_ifs
    · exact abs_of_nonneg hc
    · rw [abs_neg, abs_of_nonneg hc]
  · intro b hb
    have hsp := (C132_phase_bins solve' 16 x 8 (1 / 8) m h2 b hb).1
    have hS : ((range 16).filter fun t => InSlot 8 b (m.errxx t / 180 * Real.pi + Real.pi / (8 : ℕ))) = {b, b + 8} := by
      ext t
      rw [mem_filter, mem_range, mem_insert, mem_singleton]
      obtain ⟨_, _, k, hk⟩ := h4 t
      rw [hk, hph, show 2 * Real.pi * (1 / 8) * (t : ℝ) + k * (2 * Real.pi) + Real.pi / (8 : ℕ) = ((t : ℝ) + 1 / 2) * (2 * Real.pi / (8 : ℕ)) + k * (2 * Real.pi) by push_cast; ring,
        slot_turn, slot_floor 8 b hb, show ⌊(t : ℝ) + 1 / 2⌋ = (t : ℤ) from Int.floor_eq_iff.mpr ⟨by push_cast; linarith, by push_cast; linarith⟩]
      omega
    rw [hS] at hsp
    obtain ⟨μ, hμ, hμ2, _⟩ := hsp.1 ⟨b, by simp⟩
    rw [sum_pair (by omega), h3, h3, herr b (by omega), herr (b + 8) (by omega), if_pos hb, if_neg (by omega), card_pair (by omega)] at hμ2
    rw [hμ]
    congr 1
    push_cast at hμ2
    linarith
  · rw [hph]
    simp only
    rw [show 2 * (2 * Real.pi * (1 / 8) * ((0 : ℕ) : ℝ)) = 0 by push_cast; ring, show 2 * (2 * Real.pi * (1 / 8) * ((1 : ℕ) : ℝ)) = Real.pi / 2 by push_cast; ring, Real.cos_zero, Real.cos_pi_div_two]
    norm_num

/-! ### By value -/

private theorem value_slot (bin b : ℕ) (hb : b < bin) (lo hi v : ℝ) (hlt : lo < hi) (h0 : lo ≤ v) (h1 : v ≤ hi) : mlErrValueBin bin lo hi v = b ↔ InValueSlot bin lo hi b v := by
  have hbr : (0 : ℝ) < bin := by exact_mod_cast (by omega : 0 < bin)
  have hw : 0 < (hi - lo) / bin := div_pos (by linarith) hbr
  have hwn : (bin : ℝ) * ((hi - lo) / bin) = hi - lo := by field_simp
  have hf0 : 0 ≤ ⌊(v - lo) / ((hi - lo) / bin)⌋ := Int.floor_nonneg.mpr (div_nonneg (by linarith) hw.le)
  have hle : ⌊(v - lo) / ((hi - lo) / bin)⌋ ≤ bin := by
    have : (v - lo) / ((hi - lo) / bin) ≤ bin := by rw [div_le_iff₀ hw, hwn]; linarith
    exact_mod_cast le_trans (Int.floor_le _) this
  have hiff : mlErrValueBin bin lo hi v = b ↔ ⌊(v - lo) / ((hi - lo) / bin)⌋ = b ∨ (b + 1 = bin ∧ ⌊(v - lo) / ((hi - lo) / bin)⌋ = bin) := by
    unfold mlErrValueBin
    omega
  rw [hiff, Int.floor_eq_iff, Int.floor_eq_iff, le_div_iff₀ hw, div_lt_iff₀ hw, le_div_iff₀ hw, div_lt_iff₀ hw]
  unfold InValueSlot
  push_cast
  rw [hwn]
  constructor
  · rintro (⟨a, b'⟩ | ⟨a, b', _⟩)
    · exact ⟨by linarith, Or.inl (by linarith)⟩
    · refine ⟨?_, Or.inr ⟨a, by linarith⟩⟩
      have : (b : ℝ) ≤ bin := by exact_mod_cast hb.le
      nlinarith
  · rintro ⟨a, b' | ⟨b', rfl⟩⟩
    · exact Or.inl ⟨by linarith, by linarith⟩
    · exact Or.inr ⟨b', by linarith, by nlinarith⟩

private theorem rec_range (n : ℕ) (x : ℕ → ℝ) (t : ℕ) (ht : t < n) : recMin n x ≤ x t ∧ x t ≤ recMax n x :=
  ⟨minOf_le _ _ _ (List.mem_cons_of_mem _ (List.mem_map_of_mem (List.mem_range.mpr ht))), le_maxOf _ _ _ (List.mem_cons_of_mem _ (List.mem_map_of_mem (List.mem_range.mpr ht)))⟩

private theorem rec_le (n : ℕ) (x : ℕ → ℝ) : recMin n x ≤ recMax n x := le_trans (minOf_le _ _ _ (List.mem_cons_self ..)) (le_maxOf _ _ (x 0) (List.mem_cons_self ..))

open Classical in
/-- **C132 (value bins).** `errsin.m` cuts the range from the smallest to the largest sample into equal slots, reports their centres, and for each the mean and spread of the errors of the
samples in it. A constant record is an error. -/
theorem C132_value_bins (solve : Lstsq) (n : ℕ) (x : ℕ → ℝ) (bin : ℕ) (f : ℝ) (m : MlErrBins) (h : mlErrsinValue solve n x bin f = some m) (b : ℕ) (hb : b < bin) :
    recMin n x < recMax n x ∧ SpreadOf ((range n).filter fun t => InValueSlot bin (recMin n x) (recMax n x) b (x t)) m.err (m.emean b) (m.erms b) ∧
      m.xx b = recMin n x + (b + 1 / 2) * ((recMax n x - recMin n x) / bin) ∧ m.errxx = x := by
  unfold mlErrsinValue at h
  rw [Option.bind_eq_some_iff] at h
  obtain ⟨p, _, h⟩ := h
  simp only at h
  by_cases he : recMax n x = recMin n x
  · rw [if_pos he] at h
    cases h
  rw [if_neg he] at h
  injection h with h
  subst h
  have hlt : recMin n x < recMax n x := lt_of_le_of_ne (rec_le n x) (Ne.symm he)
  simp only
  refine ⟨hlt, ?_, by ring, trivial⟩
  have hS : ((range n).filter fun t => mlErrValueBin bin (recMin n x) (recMax n x) (x t) = b) =
      (range n).filter fun t => InValueSlot bin (recMin n x) (recMax n x) b (x t) := by
    apply filter_congr
    intro t ht
    obtain ⟨g1, g2⟩ := rec_range n x t (mem_range.mp ht)
    exact value_slot bin b hb _ _ _ hlt g1 g2
  rw [← hS]
  exact spread_ml n _ _ b

/-- **C132 (neighbouring value bins).** When Python bins from the smallest to the largest sample too – told to, or because some sample exceeds two in magnitude – every sample falls into the bin of
the same number as in `errsin.m` or one next to it; the smallest sample falls into the first and the largest into the last in both. -/
theorem C132_value_neighbour (solve : Lstsq) (n : ℕ) (x : ℕ → ℝ) (freq : Option ℝ) (bin : ℕ) (clipPercent : ℝ) (given : Option (ℝ × ℝ)) (maxIter : ℤ) (tol : ℝ) (r : ValueBins)
    (hr : rearrangeByValue solve n x freq bin clipPercent given maxIter tol = .ok r)
    (hg : given = some (recMin n x, recMax n x) ∨ (given = none ∧ ∃ t < n, 2 < |x t|)) (t : ℕ) (ht : t < n) (b : ℕ) (hb : b < bin)
    (hslot : InValueSlot bin (recMin n x) (recMax n x) b (x t)) :
    (r.index t = b ∨ r.index t = b + 1 ∨ r.index t + 1 = b) ∧ (x t = recMin n x → r.index t = 0 ∧ b = 0) ∧ (x t = recMax n x → r.index t = bin - 1 ∧ b = bin - 1) := by
  obtain ⟨lo, hi, fit, _, h2, _, h4, h5, _, _, _, rfl⟩ := value_ok solve n x freq bin clipPercent given maxIter tol r hr
  obtain ⟨g1, g2⟩ := rec_range n x t ht
  have hrange : lo = recMin n x ∧ hi = recMax n x := by
    unfold inferRange at h4
    rcases hg with rfl | ⟨rfl, s, hs, hs2⟩
    · simp only at h4
      split_ifs at h4
      injection h4 with h4
      simpa [Prod.ext_iff, eq_comm] using h4
    · simp only at h4
      rw [if_pos (by
        obtain ⟨k1, k2⟩ := rec_range n x s hs
        rcases lt_abs.mp hs2 with h | h
        · exact lt_max_of_lt_right (lt_of_lt_of_le (lt_of_lt_of_le h k2) (le_abs_self _))
        · exact lt_max_of_lt_left (lt_of_lt_of_le (by linarith : 2 < -recMin n x) (neg_le_abs _)))] at h4
      injection h4 with h4
      simpa [Prod.ext_iff, eq_comm] using h4
  obtain ⟨rfl, rfl⟩ := hrange
  simp only [Int.toNat_natCast]
  generalize recMin n x = lo at *
  generalize recMax n x = hi at *
  generalize x t = v at *
  have hbr : (0 : ℝ) < bin := by exact_mod_cast (by omega : 0 < bin)
  have hb1 : (1 : ℝ) ≤ bin := by exact_mod_cast (by omega : 1 ≤ bin)
  have hd : 0 < hi - lo := by linarith
  set u := (v - lo) / (hi - lo) with hu
  have hu0 : 0 ≤ u := div_nonneg (by linarith) hd.le
  have hu1 : u ≤ 1 := by rw [hu, div_le_one hd]; linarith
  have hv : v = lo + u * (hi - lo) := by rw [hu]; field_simp; ring
  have hpy : (v - lo) * (((bin : ℝ) - 1) / (hi - lo)) = u * (bin - 1) := by rw [hu]; ring
  have hx0 : 0 ≤ u * ((bin : ℝ) - 1) := mul_nonneg hu0 (by linarith)
  have hx1 : u * ((bin : ℝ) - 1) ≤ ((bin : ℤ) - 1 : ℤ) := by push_cast; nlinarith
  have hr0 : 0 ≤ rint (u * ((bin : ℝ) - 1)) := by
    have := rint_mono hx0
    rwa [show (0 : ℝ) = ((0 : ℤ) : ℝ) by simp, rint_intCast] at this
  have hr1 : rint (u * ((bin : ℝ) - 1)) ≤ (bin : ℤ) - 1 := by
    have := rint_mono hx1
    rwa [rint_intCast] at this
  have hidx : ((valueIndex bin lo hi v : ℕ) : ℤ) = rint (u * ((bin : ℝ) - 1)) := by
    unfold valueIndex
    rw [hpy, clip_of_mem hr0 hr1]
    omega
  have habs := abs_le.mp (abs_sub_rint_le (u * ((bin : ℝ) - 1)))
  have hb0 : (b : ℝ) ≤ u * bin := by
    have h := hslot.1
    have : (b : ℝ) * (hi - lo) ≤ u * bin * (hi - lo) := by
      have e : (b : ℝ) * ((hi - lo) / bin) ≤ u * (hi - lo) := by linarith
      rw [mul_div_assoc', div_le_iff₀ hbr] at e
      linarith
    exact le_of_mul_le_mul_right this hd
  have hb2 : u * bin < b + 1 ∨ (b + 1 = bin ∧ v = hi) := by
    rcases hslot.2 with h | h
    · left
      have e : u * (hi - lo) < ((b : ℝ) + 1) * ((hi - lo) / bin) := by linarith
      rw [mul_div_assoc', lt_div_iff₀ hbr] at e
      exact lt_of_mul_lt_mul_right (by linarith : u * bin * (hi - lo) < (b + 1) * (hi - lo)) hd.le
    · exact Or.inr h
  have hbin : ((b : ℝ) + 1) ≤ bin := by exact_mod_cast hb
  refine ⟨?_, ?_, ?_⟩
  · rcases hb2 with h | ⟨h, rfl⟩
    · have e1 : ((rint (u * ((bin : ℝ) - 1)) : ℤ) : ℝ) < (b : ℝ) + 2 := by nlinarith
      have e2 : (b : ℝ) - 2 < ((rint (u * ((bin : ℝ) - 1)) : ℤ) : ℝ) := by nlinarith
      have e1' : rint (u * ((bin : ℝ) - 1)) < (b : ℤ) + 2 := by exact_mod_cast e1
      have e2' : (b : ℤ) - 2 < rint (u * ((bin : ℝ) - 1)) := by exact_mod_cast e2
      omega
    · have : u = 1 := by rw [hu]; exact div_self hd.ne'
      rw [this, one_mul, show (bin : ℝ) - 1 = (((bin : ℤ) - 1 : ℤ) : ℝ) by push_cast; ring, rint_intCast] at hidx
      left
      omega
  · intro hv0
    have : u = 0 := by rw [hu, hv0]; simp
    rw [this] at hidx hb0
    rw [zero_mul, show (0 : ℝ) = ((0 : ℤ) : ℝ) by simp, rint_intCast] at hidx
    rw [zero_mul] at hb0
    have : b = 0 := by
      have : (b : ℝ) = 0 := le_antisymm hb0 (by positivity)
      exact_mod_cast this
    omega
  · intro hv1
    have hu' : u = 1 := by rw [hu, hv1]; exact div_self hd.ne'
    rw [hu', one_mul, show (bin : ℝ) - 1 = (((bin : ℤ) - 1 : ℤ) : ℝ) by push_cast; ring, rint_intCast] at hidx
    refine ⟨by omega, ?_⟩
    rcases hb2 with h | ⟨h, _⟩
    · rw [hu', one_mul] at h
      have : bin < b + 1 := by exact_mod_cast h
      omega
    · omega

/-- **C132 (same value bins).** With the frequency given and `max_iterations = 0` the errors are opposite here too. Where a Python bin that is not clipped holds the samples of the slot of
`errsin.m` of the same number, the means are opposite and the squared Python RMS is the squared MATLAB one plus the squared mean. -/
theorem C132_value_same (solve solve' : Lstsq) (hs : IsLstsq solve) (hs' : IsLstsq solve') (n : ℕ) (hn : 3 ≤ n) (x : ℕ → ℝ) (f tol : ℝ) (h0 : 0 < f) (h1 : f < 1 / 2)
    (bin : ℕ) (clipPercent : ℝ) (given : Option (ℝ × ℝ)) (r : ValueBins) (m : MlErrBins) (hr : rearrangeByValue solve n x (some f) bin clipPercent given 0 tol = .ok r)
    (hm : mlErrsinValue solve' n x bin f = some m) :
    (∀ t, m.err t = -r.err t) ∧ ∀ b < bin, KeptBin r.nBins clipPercent b → (∀ t < n, r.index t = b ↔ InValueSlot bin (recMin n x) (recMax n x) b (x t)) →
      OppositeStats (r.mean b) (r.rms b) (m.emean b) (m.erms b) := by
  classical
  obtain ⟨lo, hi, fit, _, h2, h3, _, _, h6, _, _, hr'⟩ := value_ok solve n x (some f) bin clipPercent given 0 tol r hr
  obtain ⟨fit', q, e1, e2, _, e4, _⟩ := fit_given solve solve' hs hs' n hn x f tol h0 h1 bin (by omega)
  rw [h6] at e1
  injection e1 with e1
  subst e1
  have herr : ∀ t, m.err t = -r.err t := by
    intro t
    unfold mlErrsinValue at hm
    rw [e2, Option.bind_some] at hm
    simp only at hm
    split_ifs at hm
    injection hm with hm
    subst hm
    rw [hr']
    simp only
    rw [e4]
    ring
  refine ⟨herr, fun b hb hk hsame => ?_⟩
  have hnb : r.nBins = bin := by rw [hr']; simp
  rw [hnb, ← mask_iff _ _ h3] at hk
  subst hr'
  simp only [Int.toNat_natCast] at hsame hk herr ⊢
  refine spread_py n _ _ _ m.err b _ ?_ (fun t _ => herr t) _ _ (C132_value_bins solve' n x bin f m hm b hb).2.1
  apply filter_congr
  intro t ht
  rw [← hsame t (mem_range.mp ht)]
  constructor
  · exact fun h => h.2
  · intro h
    exact ⟨by rw [h]; exact hk, h⟩

/-! ### Concrete cases -/

/-- Eight samples of one period, a quarter of a bin above the bin edges, lie in the lower half of their bins. -/
example : ∀ t : ℕ, ∃ j : ℤ, j * (2 * Real.pi / (8 : ℕ)) ≤ 2 * Real.pi * (1 / 8) * t + Real.pi / 16 ∧ 2 * Real.pi * (1 / 8) * t + Real.pi / 16 < (j + 1 / 2) * (2 * Real.pi / (8 : ℕ)) := by
  intro t
  have := Real.pi_pos
  refine ⟨t, ?_, ?_⟩ <;> push_cast <;> nlinarith

/-- Four slots from zero to eight: 5 lies in the third; 8 in the last. -/
example : InValueSlot 4 0 8 2 5 ∧ InValueSlot 4 0 8 3 8 := by
  unfold InValueSlot
  norm_num

end Verif
