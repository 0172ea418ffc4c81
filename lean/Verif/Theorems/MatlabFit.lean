import Verif.Model.MatlabFit
import Verif.Theorems.SineFitConverge
import Verif.Proofs.SineFitAffine

/-!
# C124: the sine fit and MATLAB's `sinfit.m`
-/

namespace Verif

open Model Finset

/-! ## Start frequency -/

private theorem argmax_peak (m : ℕ) (g : ℕ → ℝ) (k : ℕ) (hk : k < m) (hmax : ∀ j < m, g j ≤ g k) (hfirst : ∀ j < k, g j < g k) :
    argmax ((List.range m).map g) = k := by
  obtain ⟨h1, h2⟩ := argmax_range m (by omega) g
  rcases lt_trichotomy (argmax ((List.range m).map g)) k with h | h | h
  · exact absurd (h2 k hk) (not_le.mpr (hfirst _ h))
  · exact h
  · exfalso
    have := argmax_first ((List.range m).map g) (g (argmax ((List.range m).map g))) (by simp [h1]) k (g k) h (by simp [hk])
    exact absurd (hmax _ h1) (not_le.mpr this)

/-- **C124 (automatic start).** Let `k` be the first strongest bin among `1 .. n/2 - 1`. If it is not the last of them, both programs start their fit from the same
frequency; if it is the last one, Python starts from the bin itself and MATLAB half a bin above. -/
theorem C124_start (n : ℕ) (y : ℕ → ℝ) (k : ℕ) (hk0 : 0 < k) (hk : k < n / 2)
    (hmax : ∀ j, 0 < j → j < n / 2 → ‖dft n (fun t => (y t : ℂ)) j‖ ≤ ‖dft n (fun t => (y t : ℂ)) k‖)
    (hfirst : ∀ j, 0 < j → j < k → ‖dft n (fun t => (y t : ℂ)) j‖ < ‖dft n (fun t => (y t : ℂ)) k‖) (hpos : 0 < ‖dft n (fun t => (y t : ℂ)) k‖) :
    (k + 1 < n / 2 → ∃ f, estimateFreq n y = .ok f ∧ mlStart n y = some f) ∧
    (k + 1 = n / 2 → estimateFreq n y = .ok ((k : ℝ) / n) ∧ mlStart n y = some (((k : ℝ) + 1 / 2) / n)) := by
  have hsk : fitSpec n y k = ‖dft n (fun t => (y t : ℂ)) k‖ := by unfold fitSpec; rw [if_neg (by omega)]
  have hs : ∀ j, 0 < j → fitSpec n y j = ‖dft n (fun t => (y t : ℂ)) j‖ := fun j hj => by unfold fitSpec; rw [if_neg (by omega)]
  have hs0 : fitSpec n y 0 = 0 := by unfold fitSpec; rw [if_pos rfl]
  have hnn : ∀ j, 0 ≤ fitSpec n y j := fun j => by unfold fitSpec; split_ifs <;> positivity
  have hfst : ∀ j < k, fitSpec n y j < fitSpec n y k := by
    intro j hj
    rcases Nat.eq_zero_or_pos j with h | h
    · rw [h, hs0, hsk]; exact hpos
    · rw [hs j h, hsk]; exact hfirst j h hj
  have ha : argmax ((List.range (n / 2)).map (fitSpec n y)) = k := by
    apply argmax_peak _ _ _ hk _ hfst
    intro j hj
    rcases Nat.eq_zero_or_pos j with h | h
    · rw [h, hs0]; exact hnn k
    · rw [hs j h, hsk]; exact hmax j h hj
  have hpk : 0 < fitSpec n y k := by rw [hsk]; exact hpos
  constructor
  · intro hin
    unfold estimateFreq mlStart
    rw [if_neg (show ¬ n < 2 by omega), if_neg (show ¬ n / 2 = 0 by omega)]
    simp only
    rw [ha, if_pos ⟨hk0, hin⟩, show min (k + 1) (n / 2 - 1) = k + 1 by omega]
    by_cases hlt : fitSpec n y (k - 1) < fitSpec n y (k + 1)
    · rw [if_pos hlt, if_pos hlt, if_pos hlt, if_neg (by have := hnn (k + 1); positivity)]
      exact ⟨_, rfl, by rw [one_mul]⟩
    · rw [if_neg hlt, if_neg hlt, if_neg hlt, if_neg (by have := hnn (k - 1); positivity)]
      exact ⟨_, rfl, by rw [neg_one_mul, neg_div]⟩
  · intro hlast
    unfold estimateFreq mlStart
    rw [if_neg (show ¬ n < 2 by omega), if_neg (show ¬ n / 2 = 0 by omega)]
    simp only
    rw [ha, if_neg (by omega), show min (k + 1) (n / 2 - 1) = k by omega]
    have hlt : fitSpec n y (k - 1) < fitSpec n y k := hfst _ (by omega)
    rw [if_pos hlt, if_pos hlt, if_neg (by positivity)]
    refine ⟨rfl, ?_⟩
    congr 2
    field_simp
    ring

/-- **C124 (no tone).** On a record whose spectrum is empty outside DC (for instance a constant) Python starts from frequency 0 and MATLAB from NaN. -/
theorem C124_start_constant (n : ℕ) (hn : 2 ≤ n) (y : ℕ → ℝ) (hz : ∀ j, 0 < j → j < n / 2 → ‖dft n (fun t => (y t : ℂ)) j‖ = 0) :
    estimateFreq n y = .ok 0 ∧ mlStart n y = none := by
  have hz' : ∀ j < n / 2, fitSpec n y j = 0 := by
    intro j hj
    unfold fitSpec
    split_ifs with h
    · rfl
    · exact hz j (by omega) hj
  have ha : argmax ((List.range (n / 2)).map (fitSpec n y)) = 0 := by
    apply argmax_peak _ _ _ (by omega)
    · intro j hj; rw [hz' j hj, hz' 0 (by omega)]
    · intro j hj; omega
  unfold estimateFreq mlStart
  rw [if_neg (show ¬ n < 2 by omega), if_neg (show ¬ n / 2 = 0 by omega)]
  simp only
  rw [ha, if_neg (by omega)]
  refine ⟨by simp, ?_⟩
  rw [show 0 - 1 = 0 from rfl, hz' 0 (by omega), hz' (min (0 + 1) (n / 2 - 1)) (by omega), if_neg (lt_irrefl _), if_neg (lt_irrefl _), hz' 0 (by omega), if_pos (by norm_num)]

/-! ## One pass -/

/-- The loop variables of Python from which the same pass would be made. -/
noncomputable def asPython (s : MlFit) : FitState :=
  { freq := s.freq + s.delta, a := s.a, b := s.b, c := s.c, converged := false, nIterations := s.iters, lastDelta := 0 }

/-- **C124 (one pass).** From the same frequency and coefficients, whatever least-squares routines the two programs use, a MATLAB pass finds Python's coefficients, and its
frequency step is `rate` times Python's; so unless Python's clamp acts, MATLAB's next frequency is the weighted mean of the old one and Python's next one. The quantity
compared with `tol` (times the amplitude) is the RMS change of the sine, to first order, under the `n`-th part of Python's full step: the division by `N` is made twice. -/
theorem C124_pass (solve solve' : Lstsq) (hs : IsLstsq solve) (hs' : IsLstsq solve') (n : ℕ) (hn : 5 ≤ n) (y : ℕ → ℝ) (rate : ℝ) (s : MlFit)
    (h0 : 0 < s.freq + s.delta) (h1 : s.freq + s.delta < 1 / 2) (hab : s.a ≠ 0 ∨ s.b ≠ 0) :
    let p := fitRefine solve n y (asPython s)
    let q := mlFitPass solve' n y rate s
    q.freq = s.freq + s.delta ∧ q.a = p.a ∧ q.b = p.b ∧ q.c = p.c ∧ q.delta = rate * p.lastDelta ∧
    (1 / 10 ^ 10 ≤ s.freq + s.delta + p.lastDelta → s.freq + s.delta + p.lastDelta ≤ 1 / 2 - 1 / 10 ^ 10 →
      q.freq + q.delta = (1 - rate) * (s.freq + s.delta) + rate * p.freq) ∧
    q.rms = Real.sqrt ((∑ t ∈ range n, (p.lastDelta / n * (2 * Real.pi * t *
      (s.b * Real.cos (2 * Real.pi * (s.freq + s.delta) * t) - s.a * Real.sin (2 * Real.pi * (s.freq + s.delta) * t)))) ^ 2) / n) := by
  intro p q
  have hpi := Real.pi_pos
  have hnR : (0 : ℝ) < n := by exact_mod_cast (by omega : 0 < n)
  set f := s.freq + s.delta with hf
  set g := fun (t : ℕ) => (t : ℝ) * (-s.a * fitSin f t + s.b * fitCos f t) with hg
  set g' := fun (t : ℕ) => (-s.a * 2 * Real.pi * t * Real.sin (2 * Real.pi * f * t) + s.b * 2 * Real.pi * t * Real.cos (2 * Real.pi * f * t)) / n with hg'
  have hgg : ∀ t, g' t = 2 * Real.pi / n * g t := by
    intro t
    simp only [hg, hg']
    unfold fitSin fitCos
    ring
  set x := solve n [fitCos f, fitSin f, fun _ => 1, g] y with hx
  set x' := solve' n [fitCos f, fitSin f, fun _ => 1, g'] y with hx'
  have horth : ∀ j < 4, ∑ t ∈ range n, (y t - matVec [fitCos f, fitSin f, fun _ => 1, g] x t) * (([fitCos f, fitSin f, fun _ => 1, g'] : List (ℕ → ℝ)).getD j 0) t = 0 := by
    intro j hj
    have := lstsq_col solve hs n [fitCos f, fitSin f, fun _ => 1, g] y j (by simpa using hj)
    interval_cases j
    · exact this
    · exact this
    · exact this
    · have e : ∀ t ∈ range n, (y t - matVec [fitCos f, fitSin f, fun _ => 1, g] x t) * (([fitCos f, fitSin f, fun _ => 1, g'] : List (ℕ → ℝ)).getD 3 0) t =
          2 * Real.pi / n * ((y t - matVec [fitCos f, fitSin f, fun _ => 1, g] x t) * (([fitCos f, fitSin f, fun _ => 1, g] : List (ℕ → ℝ)).getD 3 0) t) := by
        intro t _
        simp only [List.getD_cons_zero, List.getD_cons_succ]
        rw [hgg]
        ring
      rw [sum_congr rfl e, ← mul_sum, this, mul_zero]
  have hex := lstsq_projection solve' hs' n [fitCos f, fitSin f, fun _ => 1, g'] y (fun t => y t - matVec [fitCos f, fitSin f, fun _ => 1, g] x t)
    [x.getD 0 0, x.getD 1 0, x.getD 2 0, x.getD 3 0 * n / (2 * Real.pi)] rfl
    (by
      intro t ht
      rw [fit_cols4, fit_cols4, hgg]
      simp only [List.getD_cons_zero, List.getD_cons_succ]
      field_simp
      ring)
    (by
      intro j hj
      exact horth j (by simpa using hj))
  obtain ⟨z1, z2, z3, z4⟩ := sine_indep4 f h0 h1 s.a s.b (x'.getD 0 0 - x.getD 0 0) (x'.getD 1 0 - x.getD 1 0) (x'.getD 2 0 - x.getD 2 0)
    (2 * Real.pi / n * x'.getD 3 0 - x.getD 3 0) hab (by
      intro t ht
      have := hex t (by omega)
      rw [fit_cols4, fit_cols4, hgg] at this
      simp only [List.getD_cons_zero, List.getD_cons_succ] at this
      have e : x.getD 3 0 * n / (2 * Real.pi) * (2 * Real.pi / n * g t) = x.getD 3 0 * g t := by field_simp
      rw [e] at this
      show _ + (2 * Real.pi / n * x'.getD 3 0 - x.getD 3 0) * g t = 0
      linear_combination this)
  have e3 : x'.getD 3 0 = x.getD 3 0 * n / (2 * Real.pi) := by
    have := sub_eq_zero.mp z4
    rw [← this]
    field_simp
  have pd : p.lastDelta = x.getD 3 0 / (2 * Real.pi) := rfl
  have qd : q.delta = x'.getD 3 0 * rate / n := rfl
  have hdel : q.delta = rate * p.lastDelta := by
    rw [pd, qd, e3]
    field_simp
  refine ⟨rfl, sub_eq_zero.mp z1, sub_eq_zero.mp z2, sub_eq_zero.mp z3, hdel, ?_, ?_⟩
  · intro l1 l2
    have pf : p.freq = f + p.lastDelta := by
      show clip (f + p.lastDelta) _ _ = _
      unfold clip
      rw [max_eq_left l1, min_eq_left l2]
    rw [hdel, pf]
    show f + _ = _
    ring
  · show Real.sqrt ((∑ t ∈ range n, (x'.getD 3 0 / n * g' t) ^ 2) / n) = _
    congr 2
    apply sum_congr rfl
    intro t _
    congr 1
    rw [e3, pd, hgg]
    simp only [hg]
    unfold fitSin fitCos
    field_simp
    ring

/-! ## Given frequency -/

private theorem first_same (solve solve' : Lstsq) (hs : IsLstsq solve) (hs' : IsLstsq solve') (n : ℕ) (hn : 3 ≤ n) (y : ℕ → ℝ) (f : ℝ) (h0 : 0 < f) (h1 : f < 1 / 2)
    (s : FitState) (hf : s.freq = f) :
    (mlFitFirst solve' n y f).a = (fitFirst solve n y s).a ∧ (mlFitFirst solve' n y f).b = (fitFirst solve n y s).b ∧ (mlFitFirst solve' n y f).c = (fitFirst solve n y s).c := by
  set x := solve n [fitCos f, fitSin f, fun _ => 1] y with hx
  set x' := solve' n [fitCos f, fitSin f, fun _ => 1] y with hx'
  have hex := lstsq_projection solve' hs' n [fitCos f, fitSin f, fun _ => 1] y (fun t => y t - matVec [fitCos f, fitSin f, fun _ => 1] x t) x (hs.len _ _ _)
    (fun t _ => by ring) (fun j hj => lstsq_col solve hs n _ y j hj)
  obtain ⟨z1, z2, z3⟩ := sine_indep3 f h0 h1 (x'.getD 0 0 - x.getD 0 0) (x'.getD 1 0 - x.getD 1 0) (x'.getD 2 0 - x.getD 2 0) 0 (by
    intro t ht
    have := hex t (by omega)
    rw [fit_cols3, fit_cols3] at this
    rw [zero_add]
    linear_combination this)
  have e : fitFirst solve n y s = { s with a := x.getD 0 0, b := x.getD 1 0, c := x.getD 2 0 } := by
    unfold fitFirst
    rw [hf]
  rw [e]
  exact ⟨sub_eq_zero.mp z1, sub_eq_zero.mp z2, sub_eq_zero.mp z3⟩

private theorem arg_flip (a b : ℝ) : (Complex.arg ⟨a, -b⟩ ≠ Real.pi → -Complex.arg ⟨a, b⟩ = Complex.arg ⟨a, -b⟩) ∧
    (Complex.arg ⟨a, -b⟩ = Real.pi → -Complex.arg ⟨a, b⟩ = -Real.pi) := by
  have h : (⟨a, -b⟩ : ℂ) = (starRingEnd ℂ) ⟨a, b⟩ := rfl
  rw [h, Complex.arg_conj]
  by_cases hp : Complex.arg ⟨a, b⟩ = Real.pi
  · rw [if_pos hp]
    exact ⟨fun h => absurd rfl h, fun _ => by rw [hp]⟩
  · rw [if_neg hp]
    refine ⟨fun _ => rfl, fun h => ?_⟩
    have := Complex.neg_pi_lt_arg ⟨a, b⟩
    linarith

/-- **C124 (given frequency).** With a frequency argument MATLAB does not refine it: `sinfit(sig, f0)` is the Python fit with `max_iterations=0`, and reports `f0` back. The
Python default makes one refinement. The phases agree except at half a turn, where MATLAB has `-π`. -/
theorem C124_given_frequency (solve solve' : Lstsq) (hs : IsLstsq solve) (hs' : IsLstsq solve') (n : ℕ) (hn : 3 ≤ n) (y : ℕ → ℝ) (f0 tol : ℝ) (h0 : 0 < f0) (h1 : f0 < 1 / 2) :
    ∃ r m, fitCore solve n y (some f0) 0 tol = .ok r ∧ mlSinfitDefault solve' n y f0 = some m ∧ m.iters = 0 ∧ m.freq = f0 ∧ r.frequency = f0 ∧ m.mag = r.amplitude ∧
      m.dc = r.dcOffset ∧ (∀ t, m.fitted t = r.fitted t) ∧ m.phi = if r.phase = Real.pi then -Real.pi else r.phase := by
  have hm : mlSinfitDefault solve' n y f0 = some (mlFitResult (mlFitFirst solve' n y f0)) := by
    unfold mlSinfitDefault mlSinfit
    rw [if_neg (by omega), if_neg (by norm_num; exact ⟨h0.le, h1.le⟩), if_neg h0.ne']
    simp [h0.ne']
  refine ⟨_, _, rfl, hm, rfl, rfl, rfl, ?_⟩
  set s0 : FitState := { freq := f0, a := 0, b := 0, c := 0, converged := decide ((0 : ℤ) = 0), nIterations := 0, lastDelta := 0 } with hs0
  obtain ⟨e1, e2, e3⟩ := first_same solve solve' hs hs' n hn y f0 h0 h1 s0 rfl
  have hst : (if (0 : ℤ) < 0 then s0 else fitLoop solve n y tol (0 : ℤ).toNat (fitFirst solve n y s0)) = fitFirst solve n y s0 := by
    rw [if_neg (by norm_num)]
    rfl
  rw [hst]
  refine ⟨?_, e3, ?_, ?_⟩
  · show Real.sqrt ((mlFitFirst solve' n y f0).a ^ 2 + (mlFitFirst solve' n y f0).b ^ 2) = Real.sqrt _
    rw [e1, e2]
  · intro t
    show (mlFitFirst solve' n y f0).a * fitCos f0 t + (mlFitFirst solve' n y f0).b * fitSin f0 t + (mlFitFirst solve' n y f0).c =
      (fitFirst solve n y s0).a * fitCos f0 t + (fitFirst solve n y s0).b * fitSin f0 t + (fitFirst solve n y s0).c
    rw [e1, e2, e3]
  · show -Complex.arg ⟨(mlFitFirst solve' n y f0).a, (mlFitFirst solve' n y f0).b⟩ =
      if Complex.arg ⟨(fitFirst solve n y s0).a, -(fitFirst solve n y s0).b⟩ = Real.pi then -Real.pi else Complex.arg ⟨(fitFirst solve n y s0).a, -(fitFirst solve n y s0).b⟩
    rw [e1, e2]
    obtain ⟨k1, k2⟩ := arg_flip (fitFirst solve n y s0).a (fitFirst solve n y s0).b
    split_ifs with hc
    · exact k2 hc
    · exact k1 hc

/-! ## Exact sines -/

private theorem loop_exact_ml (solve : Lstsq) (hs : IsLstsq solve) (n : ℕ) (hn : 5 ≤ n) (A f θ C : ℝ) (hA : 0 < A) (h0 : 1 / 10 ^ 10 ≤ f) (h1 : f ≤ 1 / 2 - 1 / 10 ^ 10)
    (y : ℕ → ℝ) (hy : ∀ t < n, y t = sineAt A f θ C t) (tol rate : ℝ) (htol : 0 < tol) (k : ℕ) :
    mlFitLoop solve n y tol rate (k + 1) (mlFitFirst solve n y f) =
      { freq := f, a := A * Real.cos θ, b := -(A * Real.sin θ), c := C, delta := 0, rms := 0, iters := 1 } := by
  have h0' : 0 < f := lt_of_lt_of_le (by norm_num) h0
  have h1' : f < 1 / 2 := lt_of_le_of_lt h1 (by norm_num)
  have hfirst : mlFitFirst solve n y f = { freq := f, a := A * Real.cos θ, b := -(A * Real.sin θ), c := C, delta := 0, rms := 0, iters := 0 } := by
    have := first_exact solve hs n (by omega) A f θ C h0' h1' y hy { freq := f, a := 0, b := 0, c := 0, converged := false, nIterations := 0, lastDelta := 0 } rfl
    unfold fitFirst at this
    injection this with _ ea eb ec
    unfold mlFitFirst
    rw [MlFit.mk.injEq]
    exact ⟨rfl, ea, eb, ec, rfl, rfl, rfl⟩
  set s := mlFitFirst solve n y f with hsdef
  have hf : s.freq + s.delta = f := by rw [hfirst]; simp
  have hab : s.a ≠ 0 ∨ s.b ≠ 0 := by
    rw [hfirst]
    by_contra hcon
    push Not at hcon
    have e1 : Real.cos θ = 0 := (mul_eq_zero.mp hcon.1).resolve_left hA.ne'
    have e2 : Real.sin θ = 0 := (mul_eq_zero.mp (neg_eq_zero.mp hcon.2)).resolve_left hA.ne'
    have := Real.sin_sq_add_cos_sq θ
    rw [e1, e2] at this
    norm_num at this
  obtain ⟨q1, q2, q3, q4, q5, _, q7⟩ := C124_pass solve solve hs hs n hn y rate s (by rw [hf]; exact h0') (by rw [hf]; exact h1') hab
  have hp := refine_exact solve hs n hn A f θ C hA h0 h1 y hy (asPython s) hf (by rw [hfirst]; rfl) (by rw [hfirst]; rfl)
  rw [hp] at q2 q3 q4 q5 q7
  simp only [asPython] at q2 q3 q4 q5 q7
  have hq : mlFitPass solve n y rate s = { freq := f, a := A * Real.cos θ, b := -(A * Real.sin θ), c := C, delta := 0, rms := 0, iters := 1 } := by
    rw [hf] at q1
    have ea : s.a = A * Real.cos θ := by rw [hfirst]
    have eb : s.b = -(A * Real.sin θ) := by rw [hfirst]
    rw [ea] at q2
    rw [eb] at q3
    rw [mul_zero] at q5
    have q7' : (mlFitPass solve n y rate s).rms = 0 := by rw [q7]; simp
    have q8 : (mlFitPass solve n y rate s).iters = 1 := by
      show s.iters + 1 = 1
      rw [hfirst]
    generalize mlFitPass solve n y rate s = q at *
    cases q
    simp only at q1 q2 q3 q4 q5 q7' q8
    rw [q1, q2, q3, q4, q5, q7', q8]
  unfold mlFitLoop
  simp only
  rw [hq]
  have hamp : Real.sqrt ((A * Real.cos θ) ^ 2 + (-(A * Real.sin θ)) ^ 2) = A := by
    rw [show (A * Real.cos θ) ^ 2 + (-(A * Real.sin θ)) ^ 2 = A ^ 2 * (Real.sin θ ^ 2 + Real.cos θ ^ 2) by ring, Real.sin_sq_add_cos_sq, mul_one, Real.sqrt_sq hA.le]
  rw [if_pos]
  simp only
  rw [hamp]
  exact ⟨hA, by rw [zero_div]; exact htol⟩

/-- **C124 (exact sine).** On a coherent sine whose bin is not the last one, MATLAB's `sinfit(sig)` and the Python fit return the same frequency, amplitude, offset, phase
(short of half a turn) and fitted record, namely the true ones; MATLAB stops after one pass. -/
theorem C124_coherent (solve solve' : Lstsq) (hs : IsLstsq solve) (hs' : IsLstsq solve') (n k : ℕ) (hn : 5 ≤ n) (hbig : n ≤ 10 ^ 9) (hk : 0 < k) (hlast : k + 1 < n / 2) (A θ C : ℝ) (hA : 0 < A)
    (ht0 : -Real.pi < θ) (ht1 : θ < Real.pi) (maxIter : ℕ) (tol : ℝ) (y : ℕ → ℝ) (hy : ∀ t < n, y t = A * Real.cos (2 * Real.pi * (k / n) * t + θ) + C) :
    ∃ r m, fitCore solve n y none maxIter tol = .ok r ∧ mlSinfitDefault solve' n y 0 = some m ∧ m.iters = 1 ∧
      m.freq = (k : ℝ) / n ∧ r.frequency = (k : ℝ) / n ∧ m.mag = A ∧ r.amplitude = A ∧ m.dc = C ∧ r.dcOffset = C ∧ m.phi = θ ∧ r.phase = θ ∧
      (∀ t < n, m.fitted t = y t ∧ r.fitted t = y t) := by
  have hnR : (0 : ℝ) < n := by exact_mod_cast (by omega : 0 < n)
  have hb : (n : ℝ) ≤ 10 ^ 9 := by exact_mod_cast hbig
  have hkR : (1 : ℝ) ≤ k := by exact_mod_cast hk
  have hk2 : 2 * ((k : ℝ) + 1) ≤ n := by exact_mod_cast (by omega : 2 * (k + 1) ≤ n)
  obtain ⟨r, hr, r1, r2, r3, r4, r5, _⟩ := C58_coherent_recovery solve hs n k hn hbig hk (by omega) A θ C hA ht0 ht1.le maxIter tol y hy
  have hsp := spec_sine n k hk (by omega) A θ C hA y hy
  have hd : ∀ j, 0 < j → j < n / 2 → ‖dft n (fun t => (y t : ℂ)) j‖ = if j = k then A * n / 2 else 0 := by
    intro j hj hj2
    rw [← hsp j hj2]
    unfold fitSpec
    rw [if_neg (by omega)]
  have hpos : 0 < A * n / 2 := by positivity
  have hdk := hd k hk (by omega)
  rw [if_pos rfl] at hdk
  obtain ⟨f, e1, e2⟩ := (C124_start n y k hk (by omega)
    (by intro j hj hj2; rw [hdk, hd j hj hj2]; split_ifs; exacts [le_refl _, hpos.le])
    (by intro j hj hj2; rw [hdk, hd j hj (by omega), if_neg (by omega)]; exact hpos) (by rw [hdk]; exact hpos)).1 hlast
  have e3 := estimate_exact n k hk (by omega) A θ C hA y hy (by omega)
  rw [e3] at e1
  injection e1 with e1
  rw [← e1] at e2
  have hf0 : (1 : ℝ) / 10 ^ 10 ≤ (k : ℝ) / n := by
    rw [div_le_div_iff₀ (by positivity) hnR]
    nlinarith
  have hf1 : (k : ℝ) / n ≤ 1 / 2 - 1 / 10 ^ 10 := by
    rw [div_le_iff₀ hnR]
    nlinarith
  have hl := loop_exact_ml solve' hs' n hn A ((k : ℝ) / n) θ C hA hf0 hf1 y hy (1 / 10 ^ 12) (1 / 2) (by norm_num) 99
  have hm : mlSinfitDefault solve' n y 0 =
      some (mlFitResult { freq := (k : ℝ) / n, a := A * Real.cos θ, b := -(A * Real.sin θ), c := C, delta := 0, rms := 0, iters := 1 }) := by
    unfold mlSinfitDefault mlSinfit
    rw [if_neg (by omega), if_neg (by norm_num), if_pos rfl, e2]
    simp only
    rw [if_pos (Or.inr trivial), ← hl]
  obtain ⟨a1, a2⟩ := arg_exact A θ hA ht0 ht1.le
  refine ⟨r, _, hr, hm, rfl, rfl, r1, a1, r2, rfl, r4, ?_, r3, ?_⟩
  · show -Complex.arg ⟨A * Real.cos θ, -(A * Real.sin θ)⟩ = θ
    rw [(arg_flip _ _).1 (by rw [a2]; exact ht1.ne), a2]
  · intro t ht
    refine ⟨?_, (r5 t ht).1⟩
    rw [hy t ht]
    exact (sine_split A ((k : ℝ) / n) θ C t).symm

/-- **C124 (`findfreq`).** On such a sine `findfreq(sig, fs)` and `estimate_frequency(sig, fs=fs)` both return the true frequency. -/
theorem C124_findfreq (solve solve' : Lstsq) (hs : IsLstsq solve) (hs' : IsLstsq solve') (n k : ℕ) (hn : 5 ≤ n) (hbig : n ≤ 10 ^ 9) (hk : 0 < k) (hlast : k + 1 < n / 2) (A θ C fs : ℝ) (hA : 0 < A)
    (ht0 : -Real.pi < θ) (ht1 : θ < Real.pi) (hfs : 0 < fs) (y : ℕ → ℝ) (hy : ∀ t < n, y t = A * Real.cos (2 * Real.pi * (k / n) * t + θ) + C) :
    mlFindfreq solve' n y fs = some ((k : ℝ) / n * fs) ∧ estimateFrequency solve n y none fs = .ok ((k : ℝ) / n * fs) := by
  obtain ⟨r, m, _, e1, _, e2, _⟩ := C124_coherent solve solve' hs hs' n k hn hbig hk hlast A θ C hA ht0 ht1 1 (1 / 10 ^ 9) y hy
  refine ⟨?_, C58_estimate_frequency solve hs n k hn hbig hk (by omega) A θ C hA ht0 ht1.le fs y hy⟩
  unfold mlFindfreq
  rw [if_neg (not_le.mpr hfs), e1, Option.map_some, e2]

/-- A 9-sample record with two periods: both fits return amplitude 3 and offset 7. -/
example (solve solve' : Lstsq) (hs : IsLstsq solve) (hs' : IsLstsq solve') : ∃ r m, fitCore solve 9 (sineAt 3 ((2 : ℕ) / (9 : ℕ)) 1 7) none (1 : ℕ) (1 / 10 ^ 9) = .ok r ∧
    mlSinfitDefault solve' 9 (sineAt 3 ((2 : ℕ) / (9 : ℕ)) 1 7) 0 = some m ∧ m.mag = 3 ∧ r.amplitude = 3 ∧ m.dc = 7 ∧ m.phi = 1 ∧ m.iters = 1 := by
  obtain ⟨r, m, h1, h2, h3, _, _, h4, h5, h6, _, h7, _⟩ := C124_coherent solve solve' hs hs' 9 2 (by norm_num) (by norm_num) (by norm_num) (by norm_num) 3 1 7 (by norm_num)
    (by have := Real.pi_gt_three; linarith) (by have := Real.pi_gt_three; linarith) 1 (1 / 10 ^ 9) _ (fun t _ => rfl)
  exact ⟨r, m, h1, h2, h4, h5, h6, h7, h3⟩

/-- Three periods in eight samples, the last bin below Nyquist: Python starts at `3/8`, MATLAB at `7/16`. -/
example : estimateFreq 8 (sineAt 3 ((3 : ℕ) / (8 : ℕ)) 1 7) = .ok (((3 : ℕ) : ℝ) / (8 : ℕ)) ∧ mlStart 8 (sineAt 3 ((3 : ℕ) / (8 : ℕ)) 1 7) = some ((((3 : ℕ) : ℝ) + 1 / 2) / (8 : ℕ)) := by
  have hsp := spec_sine 8 3 (by norm_num) (by norm_num) 3 1 7 (by norm_num) (sineAt 3 ((3 : ℕ) / (8 : ℕ)) 1 7) (fun t _ => rfl)
  have hd : ∀ j : ℕ, 0 < j → j < 8 / 2 → ‖dft 8 (fun t => (sineAt 3 ((3 : ℕ) / (8 : ℕ)) 1 7 t : ℂ)) (j : ℤ)‖ = if j = 3 then 3 * ((8 : ℕ) : ℝ) / 2 else 0 := by
    intro j hj hj2
    rw [← hsp j hj2]
    unfold fitSpec
    rw [if_neg (by omega)]
  refine (C124_start 8 _ 3 (by norm_num) (by norm_num) ?_ ?_ ?_).2 (by norm_num)
  · intro j hj hj2
    rw [hd j hj hj2, hd 3 (by norm_num) (by norm_num), if_pos rfl]
    split_ifs <;> norm_num
  · intro j hj hj2
    rw [hd j hj (by omega), hd 3 (by norm_num) (by norm_num), if_neg (by omega), if_pos rfl]
    norm_num
  · rw [hd 3 (by norm_num) (by norm_num), if_pos rfl]
    norm_num

/-! ## Convergence -/

private theorem one_le_abs_add (θ : ℝ) : 1 ≤ |Real.cos θ| + |Real.sin θ| := by
  have h := Real.sin_sq_add_cos_sq θ
  have c1 := sq_abs (Real.cos θ)
  have c2 := sq_abs (Real.sin θ)
  have c3 := Real.abs_cos_le_one θ
  have c4 := Real.abs_sin_le_one θ
  have p1 := mul_nonneg (abs_nonneg (Real.cos θ)) (sub_nonneg.mpr c3)
  have p2 := mul_nonneg (abs_nonneg (Real.sin θ)) (sub_nonneg.mpr c4)
  linarith only [h, c1, c2, p1, p2, (by ring : |Real.cos θ| * (1 - |Real.cos θ|) = |Real.cos θ| - |Real.cos θ| ^ 2),
    (by ring : |Real.sin θ| * (1 - |Real.sin θ|) = |Real.sin θ| - |Real.sin θ| ^ 2)]

private theorem loop_half (solve : Lstsq) (n : ℕ) (y : ℕ → ℝ) (tol A f θ C ρ P B : ℝ) (hP : 0 < P) (hB : 3 ≤ B) (hρ : P * B * ρ ≤ 1 / 2)
    (hstep : ∀ s : MlFit, fitErr A f θ C (asPython s) ≤ ρ → let q := mlFitPass solve n y (1 / 2) s
      q.freq = s.freq + s.delta ∧ |q.a - A * Real.cos θ| + |q.b - -(A * Real.sin θ)| + |q.c - C| ≤ P * fitErr A f θ C (asPython s) ^ 2 ∧
      |2 * (q.freq + q.delta - f) - (s.freq + s.delta - f)| ≤ P * fitErr A f θ C (asPython s) ^ 2) :
    ∀ (k : ℕ) (s : MlFit), fitErr A f θ C (asPython s) ≤ ρ → fitErr A f θ C (asPython s) ≤ B * |s.freq + s.delta - f| →
      ∃ m, (mlFitLoop solve n y tol (1 / 2) (k + 1) s).iters = s.iters + m + 1 ∧ m ≤ k ∧
        |s.freq + s.delta - f| / 4 ^ m ≤ |(mlFitLoop solve n y tol (1 / 2) (k + 1) s).freq - f| ∧
        fitErr A f θ C { asPython (mlFitLoop solve n y tol (1 / 2) (k + 1) s) with freq := (mlFitLoop solve n y tol (1 / 2) (k + 1) s).freq } ≤
          2 * fitErr A f θ C (asPython s) * (3 / 4) ^ m := by
  have hnn : ∀ s, 0 ≤ fitErr A f θ C s := fun s => by unfold fitErr; positivity
  intro k
  induction k with
  | zero =>
    intro s hs hB'
    obtain ⟨q1, q2, q3⟩ := hstep s hs
    have hl : mlFitLoop solve n y tol (1 / 2) (0 + 1) s = mlFitPass solve n y (1 / 2) s := by
      unfold mlFitLoop
      simp only
      split_ifs
      · rfl
      · rfl
    rw [hl]
    set E := fitErr A f θ C (asPython s) with hE
    have hE0 : 0 ≤ E := hnn _
    have hPE : P * E ≤ 1 := by
      have : P * E ≤ P * ρ := mul_le_mul_of_nonneg_left hs hP.le
      have : P * ρ * 3 ≤ P * ρ * B := mul_le_mul_of_nonneg_left hB (mul_nonneg hP.le (hE0.trans hs))
      linarith
    refine ⟨0, rfl, le_refl _, by rw [q1]; simp, ?_⟩
    have hg : |s.freq + s.delta - f| ≤ E := by
      rw [hE]; unfold fitErr asPython
      have := abs_nonneg (s.a - A * Real.cos θ); have := abs_nonneg (s.b - -(A * Real.sin θ)); have := abs_nonneg (s.c - C)
      simp only; linarith
    have : fitErr A f θ C { asPython (mlFitPass solve n y (1 / 2) s) with freq := (mlFitPass solve n y (1 / 2) s).freq } =
        |s.freq + s.delta - f| + (|(mlFitPass solve n y (1 / 2) s).a - A * Real.cos θ| + |(mlFitPass solve n y (1 / 2) s).b - -(A * Real.sin θ)| +
          |(mlFitPass solve n y (1 / 2) s).c - C|) := by
      unfold fitErr asPython
      simp only
      rw [q1]
      ring
    rw [this]
    nlinarith
  | succ k ih =>
    intro s hs hB'
    obtain ⟨q1, q2, q3⟩ := hstep s hs
    set q := mlFitPass solve n y (1 / 2) s with hq
    set E := fitErr A f θ C (asPython s) with hE
    have hE0 : 0 ≤ E := hnn _
    have hPB : P * B * E ≤ 1 / 2 := le_trans (mul_le_mul_of_nonneg_left hs (by positivity)) hρ
    have hPE : P * E ≤ 1 / 6 := by
      have : P * E * 3 ≤ P * E * B := mul_le_mul_of_nonneg_left hB (mul_nonneg hP.le hE0)
      nlinarith
    set g := |s.freq + s.delta - f| with hg
    set g' := |q.freq + q.delta - f| with hg'
    have hgE : g ≤ E := by
      rw [hE, hg]; unfold fitErr asPython
      have := abs_nonneg (s.a - A * Real.cos θ); have := abs_nonneg (s.b - -(A * Real.sin θ)); have := abs_nonneg (s.c - C)
      simp only; linarith
    have hown : fitErr A f θ C { asPython q with freq := q.freq } = g + (|q.a - A * Real.cos θ| + |q.b - -(A * Real.sin θ)| + |q.c - C|) := by
      unfold fitErr asPython
      simp only
      rw [q1, hg]
      ring
    have hnext : fitErr A f θ C (asPython q) = g' + (|q.a - A * Real.cos θ| + |q.b - -(A * Real.sin θ)| + |q.c - C|) := by
      unfold fitErr asPython
      simp only
      rw [hg']
      ring
    have hup : 2 * g' ≤ g + P * E ^ 2 := by
      have := abs_sub_abs_le_abs_sub (2 * (q.freq + q.delta - f)) (s.freq + s.delta - f)
      rw [abs_mul, abs_of_pos (by norm_num : (0 : ℝ) < 2)] at this
      linarith
    have hlow : g ≤ 2 * g' + P * E ^ 2 := by
      have := abs_sub_abs_le_abs_sub (s.freq + s.delta - f) (2 * (q.freq + q.delta - f))
      rw [abs_mul, abs_of_pos (by norm_num : (0 : ℝ) < 2), abs_sub_comm (s.freq + s.delta - f)] at this
      linarith
    have hPE2 : P * E ^ 2 ≤ E / 6 := by nlinarith
    have hPE2g : P * E ^ 2 ≤ g / 2 := by
      calc P * E ^ 2 = P * E * E := by ring
        _ ≤ P * E * (B * g) := mul_le_mul_of_nonneg_left hB' (by positivity)
        _ = P * B * E * g := by ring
        _ ≤ 1 / 2 * g := mul_le_mul_of_nonneg_right hPB (abs_nonneg _)
        _ = g / 2 := by ring
    have hstep1 : mlFitLoop solve n y tol (1 / 2) (k + 1 + 1) s =
        if 0 < Real.sqrt (q.a ^ 2 + q.b ^ 2) ∧ q.rms / Real.sqrt (q.a ^ 2 + q.b ^ 2) < tol then q else mlFitLoop solve n y tol (1 / 2) (k + 1) q := by
      rw [mlFitLoop]
    rw [hstep1]
    split_ifs with hbr
    · refine ⟨0, rfl, by omega, by rw [q1]; simp [hg], ?_⟩
      rw [hown]
      linarith
    · obtain ⟨m, m1, m2, m3, m4⟩ := ih q (by rw [hnext]; linarith) (by
        rw [hnext]
        have : 3 * g' ≤ B * g' := mul_le_mul_of_nonneg_right hB (abs_nonneg _)
        linarith)
      refine ⟨m + 1, ?_, by omega, ?_, ?_⟩
      · rw [m1]
        show s.iters + 1 + m + 1 = _
        omega
      · refine le_trans ?_ m3
        rw [pow_succ', ← div_div]
        apply div_le_div_of_nonneg_right _ (by positivity)
        linarith
      · refine le_trans m4 ?_
        rw [pow_succ']
        have h34 : fitErr A f θ C (asPython q) ≤ 3 / 4 * E := by rw [hnext]; linarith
        calc 2 * fitErr A f θ C (asPython q) * (3 / 4) ^ m ≤ 2 * (3 / 4 * E) * (3 / 4) ^ m :=
              mul_le_mul_of_nonneg_right (by linarith) (by positivity)
          _ = _ := by ring

/-- **C124 (speed).** On an exact sine, from a starting frequency near the true one, the default rate `0.5` leaves after `k` passes a frequency error between
`|f₀ - f| / 4^(k-1)` and a constant times `|f₀ - f| (3/4)^(k-1)`: the error shrinks by a roughly constant factor per pass, whereas a single Python pass squares it
(`C100_quadratic`). Amplitude, offset and fitted record obey the upper bound too. -/
theorem C124_speed (solve : Lstsq) (hs : IsLstsq solve) (n : ℕ) (hn : 5 ≤ n) (A f θ C : ℝ) (hA : 0 < A) (h0 : 1 / 10 ^ 10 < f) (h1 : f < 1 / 2 - 1 / 10 ^ 10) :
    ∃ ε B : ℝ, 0 < ε ∧ 0 < B ∧ ∀ (y : ℕ → ℝ) (f0 tol : ℝ) (niter : ℕ), (∀ t < n, y t = A * Real.cos (2 * Real.pi * f * t + θ) + C) → |f0 - f| ≤ ε → 0 < tol → 0 < niter →
      ∃ m, mlSinfit solve n y f0 tol (1 / 2) true niter = some m ∧ 1 ≤ m.iters ∧ m.iters ≤ niter ∧
        |f0 - f| / 4 ^ (m.iters - 1) ≤ |m.freq - f| ∧ |m.freq - f| ≤ B * |f0 - f| * (3 / 4) ^ (m.iters - 1) ∧
        |m.mag - A| ≤ B * |f0 - f| * (3 / 4) ^ (m.iters - 1) ∧ |m.dc - C| ≤ B * |f0 - f| * (3 / 4) ^ (m.iters - 1) ∧
        ∀ t < n, |m.fitted t - y t| ≤ B * |f0 - f| * (3 / 4) ^ (m.iters - 1) := by
  have h0' : 0 < f := lt_trans (by norm_num) h0
  have h1' : f < 1 / 2 := lt_trans h1 (by norm_num)
  have hpi := Real.pi_pos
  obtain ⟨r1, B1, S1, hr1, hB1, hS1, first⟩ := first_near solve hs n hn A f θ C h0' h1'
  obtain ⟨r2, P, S2, hr2, hP, hS2, step⟩ := refine_near solve hs n hn A f θ C hA h0.le h1.le
  set B := max B1 3 with hBdef
  have hB3 : 3 ≤ B := le_max_right _ _
  have hB0 : 0 < B := by linarith
  set μ := min (f - 1 / 10 ^ 10) (1 / 2 - 1 / 10 ^ 10 - f) with hμ
  have hμ0 : 0 < μ := lt_min (by linarith) (by linarith)
  set ρ := min (min r2 (A / 2)) (min (μ / 3) (1 / (2 * (P * B)))) with hρdef
  have hρ0 : 0 < ρ := lt_min (lt_min hr2 (by linarith)) (lt_min (by linarith) (by positivity))
  have l1 : ρ ≤ r2 := le_trans (min_le_left _ _) (min_le_left _ _)
  have l2 : ρ ≤ A / 2 := le_trans (min_le_left _ _) (min_le_right _ _)
  have l3 : ρ ≤ μ / 3 := le_trans (min_le_right _ _) (min_le_left _ _)
  have l4 : ρ ≤ 1 / (2 * (P * B)) := le_trans (min_le_right _ _) (min_le_right _ _)
  have hPBρ : P * B * ρ ≤ 1 / 2 := by
    calc P * B * ρ ≤ P * B * (1 / (2 * (P * B))) := mul_le_mul_of_nonneg_left l4 (by positivity)
      _ = 1 / 2 := by field_simp
  have hPρ : P * ρ ≤ 1 := by
    have : P * ρ * 3 ≤ P * ρ * B := mul_le_mul_of_nonneg_left hB3 (by positivity)
    linarith
  set G := 1 + (|A * Real.cos θ| + |A * Real.sin θ|) * (2 * Real.pi * n) with hG
  have hG1 : 1 ≤ G := by
    have : 0 ≤ (|A * Real.cos θ| + |A * Real.sin θ|) * (2 * Real.pi * n) := by positivity
    linarith
  refine ⟨min r1 (ρ / B), G * 2 * B, lt_min hr1 (by positivity), by positivity, ?_⟩
  intro y f0 tol niter hy hf htol hniter
  have hy' : ∀ t < n, |y t - sineAt A f θ C t| ≤ 0 := by
    intro t ht
    rw [hy t ht]
    unfold sineAt
    simp
  have hnn : ∀ s, 0 ≤ fitErr A f θ C s := fun s => by unfold fitErr; positivity
  have hstep : ∀ s : MlFit, fitErr A f θ C (asPython s) ≤ ρ → let q := mlFitPass solve n y (1 / 2) s
      q.freq = s.freq + s.delta ∧ |q.a - A * Real.cos θ| + |q.b - -(A * Real.sin θ)| + |q.c - C| ≤ P * fitErr A f θ C (asPython s) ^ 2 ∧
      |2 * (q.freq + q.delta - f) - (s.freq + s.delta - f)| ≤ P * fitErr A f θ C (asPython s) ^ 2 := by
    intro s hsρ q
    have hE := hnn (asPython s)
    have hEdef : fitErr A f θ C (asPython s) = |s.freq + s.delta - f| + |s.a - A * Real.cos θ| + |s.b - -(A * Real.sin θ)| + |s.c - C| := rfl
    have n1 := abs_nonneg (s.freq + s.delta - f)
    have n2 := abs_nonneg (s.a - A * Real.cos θ)
    have n3 := abs_nonneg (s.b - -(A * Real.sin θ))
    have n4 := abs_nonneg (s.c - C)
    have hμ1 : μ ≤ f - 1 / 10 ^ 10 := min_le_left _ _
    have hμ2 : μ ≤ 1 / 2 - 1 / 10 ^ 10 - f := min_le_right _ _
    have hgf : |s.freq + s.delta - f| ≤ μ / 3 := by linarith
    obtain ⟨g1, g2⟩ := abs_le.mp hgf
    have hten : (0 : ℝ) < 1 / 10 ^ 10 := by norm_num
    have hab : s.a ≠ 0 ∨ s.b ≠ 0 := by
      by_contra hcon
      push Not at hcon
      rw [hcon.1, hcon.2, zero_sub, zero_sub, neg_neg, abs_neg] at hEdef
      have e1 := Real.sin_sq_add_cos_sq θ
      have e2 : 1 ≤ |Real.cos θ| + |Real.sin θ| := by
        exact one_le_abs_add θ
      rw [abs_mul, abs_mul, abs_of_pos hA] at hEdef
      have e3 := mul_le_mul_of_nonneg_left e2 hA.le
      linarith only [hEdef, e3, n1, n4, hsρ, l2, hA]
    obtain ⟨q1, q2, q3, q4, q5, q6, _⟩ := C124_pass solve solve hs hs n hn y (1 / 2) s (by linarith) (by linarith) hab
    obtain ⟨p1, p2⟩ := step y 0 hy' (asPython s) (hsρ.trans l1)
    rw [mul_zero, add_zero] at p1 p2
    set p := fitRefine solve n y (asPython s) with hp
    have hPE : P * fitErr A f θ C (asPython s) ^ 2 ≤ fitErr A f θ C (asPython s) := by
      calc P * fitErr A f θ C (asPython s) ^ 2 = P * fitErr A f θ C (asPython s) * fitErr A f θ C (asPython s) := by ring
        _ ≤ 1 * fitErr A f θ C (asPython s) := mul_le_mul_of_nonneg_right (le_trans (mul_le_mul_of_nonneg_left hsρ hP.le) hPρ) hE
        _ = _ := one_mul _
    have hd : |p.lastDelta| ≤ 2 * (μ / 3) := by linarith
    obtain ⟨d1, d2⟩ := abs_le.mp hd
    have hnextf := q6 (by linarith) (by linarith)
    have hpdef : fitErr A f θ C p = |p.freq - f| + |p.a - A * Real.cos θ| + |p.b - -(A * Real.sin θ)| + |p.c - C| := rfl
    have k1 := abs_nonneg (p.freq - f)
    have k2 := abs_nonneg (p.a - A * Real.cos θ)
    have k3 := abs_nonneg (p.b - -(A * Real.sin θ))
    have k4 := abs_nonneg (p.c - C)
    refine ⟨q1, ?_, ?_⟩
    · show |(mlFitPass solve n y (1 / 2) s).a - _| + |(mlFitPass solve n y (1 / 2) s).b - _| + |(mlFitPass solve n y (1 / 2) s).c - C| ≤ _
      rw [q2, q3, q4]
      linarith
    · show |2 * ((mlFitPass solve n y (1 / 2) s).freq + (mlFitPass solve n y (1 / 2) s).delta - f) - (s.freq + s.delta - f)| ≤ _
      rw [hnextf, show 2 * ((1 - 1 / 2) * (s.freq + s.delta) + 1 / 2 * p.freq - f) - (s.freq + s.delta - f) = p.freq - f by ring]
      linarith
  have hfB : |f0 - f| ≤ ρ / B := le_trans hf (min_le_right _ _)
  have hfirst := first y 0 hy' { freq := f0, a := 0, b := 0, c := 0, converged := false, nIterations := 0, lastDelta := 0 } (le_trans hf (min_le_left _ _))
  set s := mlFitFirst solve n y f0 with hsdef
  have hEs : fitErr A f θ C (asPython s) = fitErr A f θ C (fitFirst solve n y { freq := f0, a := 0, b := 0, c := 0, converged := false, nIterations := 0, lastDelta := 0 }) := by
    show |f0 + 0 - f| + _ + _ + _ = |f0 - f| + _ + _ + _
    rw [add_zero]
    rfl
  have hsf : s.freq + s.delta = f0 := by show f0 + 0 = f0; rw [add_zero]
  have hEB : fitErr A f θ C (asPython s) ≤ B * |s.freq + s.delta - f| := by
    rw [hEs, hsf]
    simp only [mul_zero, add_zero] at hfirst
    exact le_trans hfirst (mul_le_mul_of_nonneg_right (le_max_left _ _) (abs_nonneg _))
  have hEρ : fitErr A f θ C (asPython s) ≤ ρ := by
    refine le_trans hEB ?_
    rw [hsf]
    calc B * |f0 - f| ≤ B * (ρ / B) := mul_le_mul_of_nonneg_left hfB hB0.le
      _ = ρ := by field_simp
  obtain ⟨k, rfl⟩ : ∃ k, niter = k + 1 := ⟨niter - 1, by omega⟩
  obtain ⟨m, m1, m2, m3, m4⟩ := loop_half solve n y tol A f θ C ρ P B hP hB3 hPBρ hstep k s hEρ hEB
  set w := mlFitLoop solve n y tol (1 / 2) (k + 1) s with hw
  have hf0 : 0 < f0 ∧ f0 ≤ 1 / 2 := by
    have hμ1 : μ ≤ f - 1 / 10 ^ 10 := min_le_left _ _
    have hμ2 : μ ≤ 1 / 2 - 1 / 10 ^ 10 - f := min_le_right _ _
    have hten : (0 : ℝ) < 1 / 10 ^ 10 := by norm_num
    have : |f0 - f| ≤ μ / 3 := by
      refine le_trans hfB (le_trans ?_ l3)
      rw [div_le_iff₀ hB0]
      exact le_mul_of_one_le_right hρ0.le (by linarith only [hB3])
    obtain ⟨g1, g2⟩ := abs_le.mp this
    constructor <;> linarith
  have hm : mlSinfit solve n y f0 tol (1 / 2) true (k + 1) = some (mlFitResult w) := by
    unfold mlSinfit
    rw [if_neg (by omega), if_neg (by push Not; exact ⟨hf0.1.le, hf0.2, htol, by norm_num, by norm_num, by omega⟩), if_neg hf0.1.ne']
    simp only
    rw [if_pos (Or.inl trivial)]
  have hit : (mlFitResult w).iters = m + 1 := by
    show w.iters = m + 1
    rw [m1]
    show 0 + m + 1 = m + 1
    omega
  have hres := result_near n y 0 0 { asPython w with freq := w.freq } A f θ C hA
  rw [← hG] at hres
  have hbound : G * fitErr A f θ C { asPython w with freq := w.freq } ≤ G * 2 * B * |f0 - f| * (3 / 4) ^ m := by
    rw [hsf] at hEB
    calc G * fitErr A f θ C { asPython w with freq := w.freq } ≤ G * (2 * fitErr A f θ C (asPython s) * (3 / 4) ^ m) := mul_le_mul_of_nonneg_left m4 (by linarith)
      _ ≤ G * (2 * (B * |f0 - f|) * (3 / 4) ^ m) := by
          apply mul_le_mul_of_nonneg_left _ (by linarith)
          exact mul_le_mul_of_nonneg_right (by linarith) (by positivity)
      _ = _ := by ring
  have hr := hres.mono hbound
  refine ⟨_, hm, by omega, by omega, ?_⟩
  rw [hit, Nat.add_sub_cancel]
  rw [hsf] at m3
  refine ⟨m3, hr.1, hr.2, hr.5, ?_⟩
  intro t ht
  rw [hy t ht]
  exact hr.6 t ht

end Verif
