import Verif.Model.MatlabDecomp
import Verif.Theorems.HarmonicSplit

/-!
# C131: `decompose_harmonic_error` and MATLAB `tomdec.m`
-/

namespace Verif

open Model Finset

/-- `a + Σ (p cos + q sin)` over the harmonics `1 … H`. -/
private noncomputable def trig (f : ℝ) (H : ℕ) (v : ℕ → ℝ) (t : ℕ) : ℝ :=
  v 0 + ∑ h ∈ range H, (v (1 + 2 * h) * Real.cos (((h : ℝ) + 1) * (2 * Real.pi * f * t)) + v (2 + 2 * h) * Real.sin (((h : ℝ) + 1) * (2 * Real.pi * f * t)))

/-- Coefficient list of `[ones, SI, SQ]` in the order constant, cosine, sine, cosine, sine, … -/
private def inter (H : ℕ) (W : List ℝ) (j : ℕ) : ℝ := if j = 0 then W.getD 0 0 else if j % 2 = 1 then W.getD (1 + j / 2) 0 else W.getD (H + j / 2) 0

private theorem matVec_tom (f : ℝ) (H : ℕ) (W : List ℝ) (t : ℕ) : matVec (mlTomCols f H) W t = trig f H (inter H W) t := by
  have hl : (mlTomCols f H).length = 1 + (H + H) := by simp [mlTomCols]; ring
  unfold matVec
  rw [hl, sum_range_add, sum_range_add]
  have e0 : ∑ j ∈ range 1, W.getD j 0 * ((mlTomCols f H).getD j 0) t = W.getD 0 0 := by simp [mlTomCols]
  have e1 : ∀ h ∈ range H, W.getD (1 + h) 0 * ((mlTomCols f H).getD (1 + h) 0) t = W.getD (1 + h) 0 * Real.cos (((h : ℝ) + 1) * (2 * Real.pi * f * t)) := by
    intro h hh
    have hh' := mem_range.mp hh
    have : (mlTomCols f H).getD (1 + h) 0 = fun (t : ℕ) => Real.cos (t * f * ((h : ℝ) + 1) * 2 * Real.pi) := by
      unfold mlTomCols
      rw [add_comm 1 h, List.getD_cons_succ, List.getD_append _ _ _ _ (by simpa using hh'), List.getD_eq_getElem _ _ (by simpa using hh')]
      simp
    rw [this]
    simp only
    rw [show (t : ℝ) * f * ((h : ℝ) + 1) * 2 * Real.pi = ((h : ℝ) + 1) * (2 * Real.pi * f * t) by ring]
  have e2 : ∀ h ∈ range H, W.getD (1 + (H + h)) 0 * ((mlTomCols f H).getD (1 + (H + h)) 0) t = W.getD (1 + (H + h)) 0 * Real.sin (((h : ℝ) + 1) * (2 * Real.pi * f * t)) := by
    intro h hh
    have hh' := mem_range.mp hh
    have : (mlTomCols f H).getD (1 + (H + h)) 0 = fun (t : ℕ) => Real.sin (t * f * ((h : ℝ) + 1) * 2 * Real.pi) := by
      unfold mlTomCols
      rw [add_comm 1 (H + h), List.getD_cons_succ, List.getD_append_right _ _ _ _ (by simp), List.getD_eq_getElem _ _ (by simpa using hh')]
      simp
    rw [this]
    simp only
    rw [show (t : ℝ) * f * ((h : ℝ) + 1) * 2 * Real.pi = ((h : ℝ) + 1) * (2 * Real.pi * f * t) by ring]
  rw [e0, sum_congr rfl e1, sum_congr rfl e2, ← sum_add_distrib]
  unfold trig inter
  rw [if_pos rfl]
  congr 1
  refine sum_congr rfl fun h _ => ?_
  rw [if_neg (by omega), if_pos (by omega), if_neg (by omega), if_neg (by omega), show (1 + 2 * h) / 2 = h by omega, show H + (2 + 2 * h) / 2 = 1 + (H + h) by omega]

private theorem matVec_py (f : ℝ) (H : ℕ) (W : List ℝ) (t : ℕ) : matVec (harmonicCols f H) W t = trig f H (fun j => W.getD j 0) t := matVec_harmonic f H W t

private theorem trig_sub (f : ℝ) (H : ℕ) (u v : ℕ → ℝ) (t : ℕ) : trig f H u t - trig f H v t = trig f H (fun j => u j - v j) t := by
  unfold trig
  rw [show ∀ a b c d : ℝ, a + b - (c + d) = a - c + (b - d) by intros; ring, ← sum_sub_distrib]
  congr 1
  exact sum_congr rfl fun h _ => by ring

private theorem trig_indep (f : ℝ) (H n : ℕ) (hn : 2 * H + 1 ≤ n) (hf : ∀ m : ℕ, 0 < m → m ≤ 2 * H → ∀ z : ℤ, f * m ≠ z) (v : ℕ → ℝ) (h : ∀ t < n, trig f H v t = 0) :
    ∀ j < 2 * H + 1, v j = 0 := harmonic_independent f H n hn hf v h

/-- Both fits leave a residual orthogonal to the same functions, so the two fitted combinations agree on the record. -/
private theorem fits_same (solve solve' : Lstsq) (hs : IsLstsq solve) (hs' : IsLstsq solve') (n : ℕ) (f : ℝ) (H : ℕ) (y : ℕ → ℝ) (c : ℝ) :
    (∀ t < n, trig f H (fun j => inter H (solve' n (mlTomCols f H) y) j - ((solve n (harmonicCols f H) fun t => y t - c).getD j 0 + if j = 0 then c else 0)) t = 0) ∧
    ∀ t < n, (y t - c) - matVec (harmonicCols f H) (solve n (harmonicCols f H) fun t => y t - c) t = y t - matVec (mlTomCols f H) (solve' n (mlTomCols f H) y) t := by
  set V := solve n (harmonicCols f H) fun t => y t - c with hV
  set W := solve' n (mlTomCols f H) y with hW
  have o1 : ∀ v : ℕ → ℝ, ∑ t ∈ range n, ((y t - c) - matVec (harmonicCols f H) V t) * trig f H v t = 0 := by
    intro v
    have := lstsq_orthogonal solve hs n (harmonicCols f H) (fun t => y t - c) ((List.range (2 * H + 1)).map v) (by rw [harmonicCols_length]; simp)
    rw [← this]
    refine sum_congr rfl fun t _ => ?_
    rw [matVec_py f H ((List.range (2 * H + 1)).map v)]
    congr 1
    have hg : ∀ j < 2 * H + 1, ((List.range (2 * H + 1)).map v).getD j 0 = v j := by
      intro j hj
      rw [List.getD_eq_getElem _ _ (by simpa using hj)]
      simp
    unfold trig
    beta_reduce
    rw [hg 0 (by omega)]
    congr 1
    refine sum_congr rfl fun h hh => ?_
    have := mem_range.mp hh
    rw [hg _ (by omega), hg _ (by omega)]
  have o2 : ∀ v : ℕ → ℝ, ∑ t ∈ range n, (y t - matVec (mlTomCols f H) W t) * trig f H v t = 0 := by
    intro v
    have hl : (mlTomCols f H).length = 2 * H + 1 := by simp [mlTomCols]; ring
    set z := (List.range (2 * H + 1)).map fun i => if i = 0 then v 0 else if i ≤ H then v (2 * i - 1) else v (2 * (i - H)) with hz
    have := lstsq_orthogonal solve' hs' n (mlTomCols f H) y z (by rw [hl, hz]; simp)
    rw [← this]
    refine sum_congr rfl fun t _ => ?_
    rw [matVec_tom f H z]
    congr 1
    have hg : ∀ j < 2 * H + 1, z.getD j 0 = if j = 0 then v 0 else if j ≤ H then v (2 * j - 1) else v (2 * (j - H)) := by
      intro j hj
      rw [hz, List.getD_eq_getElem _ _ (by simpa using hj)]
      simp
    unfold trig inter
    rw [if_pos rfl, hg 0 (by omega), if_pos rfl]
    congr 1
    refine sum_congr rfl fun h hh => ?_
    have hh' := mem_range.mp hh
    rw [if_neg (by omega), if_pos (by omega), if_neg (by omega), if_neg (by omega), show (1 + 2 * h) / 2 = h by omega, show H + (2 + 2 * h) / 2 = 1 + H + h by omega,
      hg (1 + h) (by omega), hg (1 + H + h) (by omega), if_neg (by omega), if_pos (by omega), if_neg (by omega), if_neg (by omega),
      show 2 * (1 + h) - 1 = 1 + 2 * h by omega, show 2 * (1 + H + h - H) = 2 + 2 * h by omega]
  -- the difference is itself a combination
  set d : ℕ → ℝ := fun j => inter H W j - (V.getD j 0 + if j = 0 then c else 0) with hd
  have hdiff : ∀ t, ((y t - c) - matVec (harmonicCols f H) V t) - (y t - matVec (mlTomCols f H) W t) = trig f H d t := by
    intro t
    rw [matVec_py, matVec_tom, hd, ← trig_sub]
    have : trig f H (fun j => V.getD j 0 + if j = 0 then c else 0) t = trig f H (fun j => V.getD j 0) t + c := by
      unfold trig
      beta_reduce
      rw [if_pos rfl, sum_congr rfl fun h _ => by rw [if_neg (show ¬ 1 + 2 * h = 0 by omega), if_neg (show ¬ 2 + 2 * h = 0 by omega), add_zero, add_zero]]
      ring
    rw [this]
    ring
  have hzero : ∑ t ∈ range n, (trig f H d t) ^ 2 = 0 := by
    have h1 := o1 d
    have h2 := o2 d
    rw [← sub_eq_zero.mpr (h1.trans h2.symm), ← sum_sub_distrib]
    refine sum_congr rfl fun t _ => ?_
    rw [← hdiff t]
    ring
  have h0 : ∀ t < n, trig f H d t = 0 := by
    intro t ht
    have := (sum_eq_zero_iff_of_nonneg fun t _ => sq_nonneg (trig f H d t)).mp hzero t (mem_range.mpr ht)
    simpa using this
  refine ⟨h0, fun t ht => ?_⟩
  have := hdiff t
  rw [h0 t ht] at this
  linarith

private theorem tom_ok (solve : Lstsq) (n : ℕ) (y : ℕ → ℝ) (freq : Option ℝ) (H : ℕ) (m : MlDecomp) (h : mlTomdec solve n y freq H = some m) :
    0 < H ∧ m = mlTomSplit solve n y m.freq H := by
  unfold mlTomdec at h
  by_cases hH : (H : ℤ) < 1
  · rw [if_pos hH] at h
    cases h
  rw [if_neg hH, Int.toNat_natCast] at h
  refine ⟨by omega, ?_⟩
  have hauto : ∀ o : Option ℝ, (o.map fun f => mlTomSplit solve n y f H) = some m → m = mlTomSplit solve n y m.freq H := by
    intro o ho
    cases o with
    | none => cases ho
    | some f =>
      simp only [Option.map_some, Option.some.injEq] at ho
      rw [← ho]
      rfl
  cases freq with
  | none => exact hauto _ h
  | some f =>
    simp only at h
    split_ifs at h
    · exact hauto _ h
    · simp only [Option.some.injEq] at h
      rw [← h]
      rfl

/-- **C131 (other errors).** Whenever `tomdec.m` works at the frequency `decompose_harmonic_error` reports, with as many harmonics, its `oth` is the Python
residual, and fundamental and harmonics together agree. No condition on the frequency is needed, and the two least-squares solvers may differ. -/
theorem C131_other (solve solve' : Lstsq) (hs : IsLstsq solve) (hs' : IsLstsq solve') (runs n : ℕ) (hn : n ≠ 1) (x : ℕ → ℕ → ℝ) (H : ℕ) (freq : Option ℝ) (maxIter : ℤ) (tol : ℝ)
    (r : HarmonicSplit) (h : decomposeHarmonic solve runs n x H freq maxIter tol = .ok r) (freq' : Option ℝ) (m : MlDecomp)
    (hm : mlTomdec solve' n (averageRecord runs x) freq' H = some m) (hf : m.freq = r.fundamentalFreq) (t : ℕ) (ht : t < n) :
    m.oth t = r.noiseResidual t ∧ m.sine t + m.har t = r.fundamental t + r.harmonic t ∧ m.err t = m.har t + m.oth t := by
  obtain ⟨-, hr, -⟩ := decompose_ok solve runs n x H freq maxIter tol r h hn
  rw [Int.toNat_natCast] at hr
  obtain ⟨-, hm'⟩ := tom_ok solve' n _ freq' H m hm
  rw [hf] at hm'
  have key := (fits_same solve solve' hs hs' n r.fundamentalFreq H (averageRecord runs x) (colMean n (averageRecord runs x))).2 t ht
  have e1 : m.oth t = averageRecord runs x t - matVec (mlTomCols r.fundamentalFreq H) (solve' n (mlTomCols r.fundamentalFreq H) (averageRecord runs x)) t := by rw [hm']; rfl
  have e2 : r.noiseResidual t = (averageRecord runs x t - colMean n (averageRecord runs x)) -
      matVec (harmonicCols r.fundamentalFreq H) (solve n (harmonicCols r.fundamentalFreq H) fun t => averageRecord runs x t - colMean n (averageRecord runs x)) t := by rw [hr]; rfl
  have hsplit := (C51_split solve hs runs n hn x H freq maxIter tol r h).1 t
  have e3 : m.sine t + m.har t + m.oth t = averageRecord runs x t := by
    rw [hm']
    unfold mlTomSplit
    simp only
    ring
  have e4 : m.err t = m.har t + m.oth t := by
    rw [hm']
    unfold mlTomSplit
    simp only
    ring
  have e5 : m.oth t = r.noiseResidual t := by rw [e1, e2, key]
  exact ⟨e5, by linarith, e4⟩

/-- **C131 (same decomposition).** With at least `2H+1` samples, and a frequency no multiple of which up to `2H` is whole – so that no harmonic folds onto the constant or
another one – the four returned signals are the same: `sine`, `har`, `oth` and `err` are the Python fundamental, harmonics, residual and the sum of the last two. -/
theorem C131_same (solve solve' : Lstsq) (hs : IsLstsq solve) (hs' : IsLstsq solve') (runs n : ℕ) (hn : n ≠ 1) (x : ℕ → ℕ → ℝ) (H : ℕ) (freq : Option ℝ) (maxIter : ℤ) (tol : ℝ)
    (r : HarmonicSplit) (h : decomposeHarmonic solve runs n x H freq maxIter tol = .ok r) (freq' : Option ℝ) (m : MlDecomp)
    (hm : mlTomdec solve' n (averageRecord runs x) freq' H = some m) (hf : m.freq = r.fundamentalFreq) (hlen : 2 * H + 1 ≤ n)
    (hfreq : ∀ k : ℕ, 0 < k → k ≤ 2 * H → ∀ z : ℤ, r.fundamentalFreq * k ≠ z) (t : ℕ) (ht : t < n) :
    m.sine t = r.fundamental t ∧ m.har t = r.harmonic t ∧ m.oth t = r.noiseResidual t ∧ m.err t = r.harmonic t + r.noiseResidual t := by
  obtain ⟨o1, o2, o3⟩ := C131_other solve solve' hs hs' runs n hn x H freq maxIter tol r h freq' m hm hf t ht
  obtain ⟨hH, hr, -⟩ := decompose_ok solve runs n x H freq maxIter tol r h hn
  rw [Int.toNat_natCast] at hr
  obtain ⟨-, hm'⟩ := tom_ok solve' n _ freq' H m hm
  rw [hf] at hm'
  have key := (fits_same solve solve' hs hs' n r.fundamentalFreq H (averageRecord runs x) (colMean n (averageRecord runs x))).1
  have hz := trig_indep r.fundamentalFreq H n hlen hfreq _ key
  have z0 := hz 0 (by omega)
  have z1 := hz 1 (by omega)
  have z2 := hz 2 (by omega)
  have hs : m.sine t = r.fundamental t := by
    rw [hm', hr]
    unfold mlTomSplit harmonicSplit
    simp only
    unfold inter at z0 z1 z2
    simp only [if_true, one_ne_zero, if_false, show (2 : ℕ) ≠ 0 by norm_num, show (1 : ℕ) % 2 = 1 by rfl, show ¬ (2 : ℕ) % 2 = 1 by norm_num, show (1 : ℕ) / 2 = 0 by rfl, show (2 : ℕ) / 2 = 1 by rfl,
      add_zero] at z0 z1 z2
    rw [show (t : ℝ) * r.fundamentalFreq * 1 * 2 * Real.pi = 2 * Real.pi * r.fundamentalFreq * t by ring, add_comm 1 H, sub_eq_zero.mp z0, sub_eq_zero.mp z1, sub_eq_zero.mp z2]
    ring
  exact ⟨hs, by linarith, o1, by linarith⟩

/-- **C131 (given frequency).** `tomdec.m` uses a given frequency in `(0, 1/2]` as it is; `decompose_harmonic_error` does so with `max_iterations = 0`. -/
theorem C131_given_frequency (solve solve' : Lstsq) (runs n : ℕ) (x : ℕ → ℕ → ℝ) (H : ℕ) (hH : 0 < H) (f tol : ℝ) (h0 : 0 < f) (h1 : f ≤ 1 / 2) :
    (∃ m, mlTomdec solve' n (averageRecord runs x) (some f) H = some m ∧ m.freq = f) ∧
    ∃ r, decomposeHarmonic solve runs n x H (some f) 0 tol = .ok r ∧ r.fundamentalFreq = f := by
  constructor
  · refine ⟨mlTomSplit solve' n (averageRecord runs x) f H, ?_, rfl⟩
    unfold mlTomdec
    rw [if_neg (by omega), Int.toNat_natCast]
    simp only
    rw [if_neg (by rw [not_or]; exact ⟨not_lt.mpr h0.le, not_lt.mpr h1⟩), if_neg h0.ne']
  · obtain ⟨r, hr, hf⟩ := (C51_frequency solve runs n x H f tol 0).2.1 (by omega)
    exact ⟨r, hr, hf rfl⟩

/-- **C131 (refuted: given frequency, default call).** With any positive number of refinements, which is the default, `decompose_harmonic_error` never works at half the sampling rate;
`tomdec.m` does when told to. -/
theorem C131_refined (solve solve' : Lstsq) (runs n : ℕ) (hn : n ≠ 1) (x : ℕ → ℕ → ℝ) (H : ℕ) (hH : 0 < H) (maxIter : ℕ) (hi : 0 < maxIter) (tol : ℝ) :
    ∃ r m, decomposeHarmonic solve runs n x H (some (1 / 2)) maxIter tol = .ok r ∧ mlTomdec solve' n (averageRecord runs x) (some (1 / 2)) H = some m ∧
      r.fundamentalFreq < m.freq := by
  obtain ⟨r, hr, -⟩ := (C51_frequency solve runs n x H (1 / 2) tol maxIter).2.1 (by omega)
  obtain ⟨⟨m, hm, hmf⟩, -⟩ := C131_given_frequency solve solve' runs n x H hH (1 / 2) tol (by norm_num) le_rfl
  refine ⟨r, m, hr, hm, ?_⟩
  obtain ⟨-, -, fit, hfit, hf⟩ := decompose_ok solve runs n x H (some (1 / 2)) maxIter tol r hr hn
  rw [hf, hmf]
  exact ((C58_iteration_control solve n _ _ maxIter tol fit hfit).2.2.1 hi).2.2.1

/-- Non-vacuity of `C131_same`: two harmonics at a frequency of `1/7`, seven samples, any solver, any record. -/
example (solve : Lstsq) (x : ℕ → ℕ → ℝ) : (∃ r, decomposeHarmonic solve 1 7 x (2 : ℕ) (some (1 / 7)) 0 0 = .ok r ∧ r.fundamentalFreq = 1 / 7) ∧
    (∀ k : ℕ, 0 < k → k ≤ 2 * 2 → ∀ z : ℤ, (1 / 7 : ℝ) * k ≠ z) := by
  refine ⟨(C131_given_frequency solve solve 1 7 x 2 (by norm_num) (1 / 7) 0 (by norm_num) (by norm_num)).2, fun k h0 h1 z hz => ?_⟩
  have : (k : ℤ) = 7 * z := by
    have : (k : ℝ) = 7 * z := by linarith
    exact_mod_cast this
  omega

end Verif
