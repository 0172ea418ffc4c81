import Verif.Theorems.SineFit
import Verif.Proofs.Lstsq
import Verif.Model.MinNorm
import Mathlib.Topology.MetricSpace.HausdorffDistance
import Mathlib.Analysis.InnerProductSpace.PiL2

/-!
# The sine fit of a scaled and shifted record
-/

namespace Verif

open Model Spec Finset

/-- A column that is zero gets the coefficient zero. -/
theorem minnorm_zero (solve : Lstsq) (hs : IsMinNormLstsq solve) (n : ℕ) (A : List (ℕ → ℝ)) (b : ℕ → ℝ) (g : ℕ → ℝ) (hg : ∀ t < n, g t = 0) :
    (solve n (A ++ [g]) b).getD A.length 0 = 0 := by
  set x := solve n (A ++ [g]) b with hx
  have hl : x.length = A.length + 1 := by rw [hx, hs.len]; simp
  have hsplit : x = x.take A.length ++ [x.getD A.length 0] := by
    apply List.ext_getElem
    · simp [hl]
    · intro i h1 h2
      rw [List.getElem_append]
      split_ifs with h
      · simp
      · have : i = A.length := by simp [hl] at h; omega
        subst this
        simp [List.getElem?_eq_getElem h1]
  have hm : ∀ z : List ℝ, z.length = A.length → ∀ v t, t < n → matVec (A ++ [g]) (z ++ [v]) t = matVec A z t := by
    intro z hz v t ht
    unfold matVec
    rw [List.length_append, List.length_singleton, sum_range_succ]
    have e : (A ++ [g]).getD A.length 0 = g := by
      rw [List.getD_append_right _ _ _ _ le_rfl]
      simp
    rw [e, hg t ht, mul_zero, add_zero]
    apply sum_congr rfl
    intro j hj
    have hj := mem_range.mp hj
    rw [List.getD_append _ _ _ _ (by omega), List.getD_append _ _ _ _ hj]
  have hlt : (x.take A.length).length = A.length := by simp [hl]
  have hle := hs.least n (A ++ [g]) b (x.take A.length ++ [0]) (by simp [hl]) (by
    rw [← hx]
    apply le_of_eq
    unfold residNorm
    congr 1
    apply sum_congr rfl
    intro t ht
    have ht := mem_range.mp ht
    rw [hm _ hlt 0 t ht]
    conv_rhs => rw [hsplit]
    rw [hm _ hlt _ t ht])
  rw [← hx] at hle
  have hle' : (((x.take A.length) ++ [x.getD A.length 0]).map (· ^ 2)).sum ≤ ((x.take A.length ++ [0]).map (· ^ 2)).sum := by
    rw [← hsplit]
    exact hle
  rw [List.map_append, List.map_append, List.sum_append, List.sum_append] at hle'
  simp only [List.map_cons, List.map_nil, List.sum_cons, List.sum_nil] at hle'
  nlinarith [sq_nonneg (x.getD A.length 0)]

/-- The residual of a least-squares solution is orthogonal to each column. -/
theorem lstsq_col (solve : Lstsq) (hs : IsLstsq solve) (n : ℕ) (A : List (ℕ → ℝ)) (b : ℕ → ℝ) (j : ℕ) (hj : j < A.length) :
    ∑ t ∈ range n, (b t - matVec A (solve n A b) t) * (A.getD j 0) t = 0 := by
  have h := lstsq_orthogonal solve hs n A b ((List.range A.length).map fun i => if i = j then (1 : ℝ) else 0) (by simp)
  rw [← h]
  apply sum_congr rfl
  intro t _
  congr 1
  unfold matVec
  rw [sum_eq_single j]
  · rw [List.getD_eq_getElem ((List.range A.length).map fun i => if i = j then (1 : ℝ) else 0) _ (by simpa using hj)]
    simp
  · intro i hi hij
    rw [List.getD_eq_getElem ((List.range A.length).map fun i => if i = j then (1 : ℝ) else 0) _ (by simpa using hi)]
    simp [hij]
  · intro h
    exact absurd (mem_range.mpr hj) h

/-- Coefficients of the first pass. -/
theorem first_affine (solve : Lstsq) (hs : IsLstsq solve) (n : ℕ) (hn : 3 ≤ n) (f : ℝ) (h0 : 0 < f) (h1 : f < 1 / 2) (y y' : ℕ → ℝ) (c d : ℝ)
    (hy : ∀ t < n, y' t = c * y t + d) :
    let x := solve n [fitCos f, fitSin f, fun _ => 1] y
    let x' := solve n [fitCos f, fitSin f, fun _ => 1] y'
    x'.getD 0 0 = c * x.getD 0 0 ∧ x'.getD 1 0 = c * x.getD 1 0 ∧ x'.getD 2 0 = c * x.getD 2 0 + d := by
  intro x x'
  have hex := lstsq_projection solve hs n [fitCos f, fitSin f, fun _ => 1] y' (fun t => c * (y t - matVec [fitCos f, fitSin f, fun _ => 1] x t))
    [c * x.getD 0 0, c * x.getD 1 0, c * x.getD 2 0 + d] rfl
    (by
      intro t ht
      rw [fit_cols3, fit_cols3, hy t ht]
      simp only [List.getD_cons_zero, List.getD_cons_succ]
      ring)
    (by
      intro j hj
      simp only [mul_assoc]
      rw [← mul_sum, lstsq_col solve hs n _ y j hj, mul_zero])
  obtain ⟨z1, z2, z3⟩ := sine_indep3 f h0 h1 (x'.getD 0 0 - c * x.getD 0 0) (x'.getD 1 0 - c * x.getD 1 0) (x'.getD 2 0 - (c * x.getD 2 0 + d)) 0 (by
      intro t ht
      have := hex t (by omega)
      rw [fit_cols3, fit_cols3] at this
      simp only [List.getD_cons_zero, List.getD_cons_succ] at this
      rw [zero_add]
      linarith)
  exact ⟨sub_eq_zero.mp z1, sub_eq_zero.mp z2, sub_eq_zero.mp z3⟩

/-- Coefficients of a later pass; the frequency step is the same. -/
theorem refine_affine (solve : Lstsq) (hs : IsMinNormLstsq solve) (n : ℕ) (hn : 5 ≤ n) (f : ℝ) (h0 : 0 < f) (h1 : f < 1 / 2) (a b : ℝ) (y y' : ℕ → ℝ) (c d : ℝ) (hc : c ≠ 0)
    (hy : ∀ t < n, y' t = c * y t + d) :
    let x := solve n [fitCos f, fitSin f, fun _ => 1, fun (t : ℕ) => (t : ℝ) * (-a * fitSin f t + b * fitCos f t)] y
    let x' := solve n [fitCos f, fitSin f, fun _ => 1, fun (t : ℕ) => (t : ℝ) * (-(c * a) * fitSin f t + c * b * fitCos f t)] y'
    x'.getD 0 0 = c * x.getD 0 0 ∧ x'.getD 1 0 = c * x.getD 1 0 ∧ x'.getD 2 0 = c * x.getD 2 0 + d ∧ x'.getD 3 0 = x.getD 3 0 := by
  intro x x'
  set g := fun (t : ℕ) => (t : ℝ) * (-a * fitSin f t + b * fitCos f t) with hg
  set g' := fun (t : ℕ) => (t : ℝ) * (-(c * a) * fitSin f t + c * b * fitCos f t) with hg'
  have hgg : ∀ t, g' t = c * g t := by
    intro t
    simp only [hg, hg']
    ring
  have horth : ∀ j < 4, ∑ t ∈ range n, c * (y t - matVec [fitCos f, fitSin f, fun _ => 1, g] x t) * (([fitCos f, fitSin f, fun _ => 1, g'] : List (ℕ → ℝ)).getD j 0) t = 0 := by
    intro j hj
    have := lstsq_col solve hs.toIsLstsq n [fitCos f, fitSin f, fun _ => 1, g] y j (by simpa using hj)
    interval_cases j
    · simp only [mul_assoc]
      rw [← mul_sum]
      exact mul_eq_zero_of_right _ this
    · simp only [mul_assoc]
      rw [← mul_sum]
      exact mul_eq_zero_of_right _ this
    · simp only [mul_assoc]
      rw [← mul_sum]
      exact mul_eq_zero_of_right _ this
    · have e : ∀ t ∈ range n, c * (y t - matVec [fitCos f, fitSin f, fun _ => 1, g] x t) * (([fitCos f, fitSin f, fun _ => 1, g'] : List (ℕ → ℝ)).getD 3 0) t =
          c * c * ((y t - matVec [fitCos f, fitSin f, fun _ => 1, g] x t) * (([fitCos f, fitSin f, fun _ => 1, g] : List (ℕ → ℝ)).getD 3 0) t) := by
        intro t _
        simp only [List.getD_cons_zero, List.getD_cons_succ]
        rw [hgg]
        ring
      rw [sum_congr rfl e, ← mul_sum, this, mul_zero]
  have hex := lstsq_projection solve hs.toIsLstsq n [fitCos f, fitSin f, fun _ => 1, g'] y' (fun t => c * (y t - matVec [fitCos f, fitSin f, fun _ => 1, g] x t))
    [c * x.getD 0 0, c * x.getD 1 0, c * x.getD 2 0 + d, x.getD 3 0] rfl
    (by
      intro t ht
      rw [fit_cols4, fit_cols4, hy t ht, hgg]
      simp only [List.getD_cons_zero, List.getD_cons_succ]
      ring)
    (by
      intro j hj
      exact horth j (by simpa using hj))
  by_cases hab : a ≠ 0 ∨ b ≠ 0
  · have hab' : c * a ≠ 0 ∨ c * b ≠ 0 := hab.imp (mul_ne_zero hc) (mul_ne_zero hc)
    obtain ⟨z1, z2, z3, z4⟩ := sine_indep4 f h0 h1 (c * a) (c * b) (x'.getD 0 0 - c * x.getD 0 0) (x'.getD 1 0 - c * x.getD 1 0) (x'.getD 2 0 - (c * x.getD 2 0 + d))
      (x'.getD 3 0 - x.getD 3 0) hab' (by
        intro t ht
        have := hex t (by omega)
        rw [fit_cols4, fit_cols4, hg'] at this
        simp only [List.getD_cons_zero, List.getD_cons_succ] at this
        linarith)
    exact ⟨sub_eq_zero.mp z1, sub_eq_zero.mp z2, sub_eq_zero.mp z3, sub_eq_zero.mp z4⟩
  · push Not at hab
    have hz : ∀ t, g t = 0 := fun t => by simp [hg, hab.1, hab.2]
    have hz' : ∀ t, g' t = 0 := fun t => by rw [hgg, hz, mul_zero]
    have e3 : x.getD 3 0 = 0 := minnorm_zero solve hs n [fitCos f, fitSin f, fun _ => 1] y g fun t _ => hz t
    have e3' : x'.getD 3 0 = 0 := minnorm_zero solve hs n [fitCos f, fitSin f, fun _ => 1] y' g' fun t _ => hz' t
    obtain ⟨z1, z2, z3⟩ := sine_indep3 f h0 h1 (x'.getD 0 0 - c * x.getD 0 0) (x'.getD 1 0 - c * x.getD 1 0) (x'.getD 2 0 - (c * x.getD 2 0 + d)) 0 (by
      intro t ht
      have := hex t (by omega)
      rw [fit_cols4, fit_cols4, hz'] at this
      simp only [List.getD_cons_zero, List.getD_cons_succ] at this
      rw [zero_add]
      linarith)
    exact ⟨sub_eq_zero.mp z1, sub_eq_zero.mp z2, sub_eq_zero.mp z3, by rw [e3, e3']⟩

/-- The loop variables of the fit of `c y + d`. -/
def affineState (c d : ℝ) (s : FitState) : FitState := { s with a := c * s.a, b := c * s.b, c := c * s.c + d }

theorem fitRefine_affine (solve : Lstsq) (hs : IsMinNormLstsq solve) (n : ℕ) (hn : 5 ≤ n) (y y' : ℕ → ℝ) (c d : ℝ) (hc : c ≠ 0) (hy : ∀ t < n, y' t = c * y t + d) (s : FitState)
    (h0 : 0 < s.freq) (h1 : s.freq < 1 / 2) :
    fitRefine solve n y' (affineState c d s) = affineState c d (fitRefine solve n y s) ∧ 0 < (fitRefine solve n y s).freq ∧ (fitRefine solve n y s).freq < 1 / 2 := by
  obtain ⟨e0, e1, e2, e3⟩ := refine_affine solve hs n hn s.freq h0 h1 s.a s.b y y' c d hc hy
  refine ⟨?_, ?_, ?_⟩
  · unfold fitRefine affineState
    simp only
    rw [e0, e1, e2, e3]
  · unfold fitRefine
    simp only
    exact lt_of_lt_of_le (by norm_num) (clip_mem (by norm_num)).1
  · unfold fitRefine
    simp only
    exact lt_of_le_of_lt (clip_mem (by norm_num)).2 (by norm_num)

theorem fitLoop_affine (solve : Lstsq) (hs : IsMinNormLstsq solve) (n : ℕ) (hn : 5 ≤ n) (y y' : ℕ → ℝ) (c d : ℝ) (hc : c ≠ 0) (hy : ∀ t < n, y' t = c * y t + d) (tol : ℝ) (k : ℕ) :
    ∀ s : FitState, 0 < s.freq → s.freq < 1 / 2 → fitLoop solve n y' tol k (affineState c d s) = affineState c d (fitLoop solve n y tol k s) ∧
      0 < (fitLoop solve n y tol k s).freq ∧ (fitLoop solve n y tol k s).freq < 1 / 2 := by
  induction k with
  | zero => exact fun s h0 h1 => ⟨rfl, h0, h1⟩
  | succ k ih =>
    intro s h0 h1
    obtain ⟨e, f0, f1⟩ := fitRefine_affine solve hs n hn y y' c d hc hy s h0 h1
    simp only [fitLoop]
    rw [e, show (affineState c d (fitRefine solve n y s)).lastDelta = (fitRefine solve n y s).lastDelta from rfl]
    by_cases h : |(fitRefine solve n y s).lastDelta| < tol
    · rw [if_pos h, if_pos h]
      exact ⟨rfl, f0, f1⟩
    · rw [if_neg h, if_neg h]
      exact ih _ f0 f1

/-! ## The automatic frequency -/

theorem argmax_mono {α β : Type} [LinearOrder α] [LinearOrder β] (g : α → β) (hg : StrictMono g) (l : List α) : argmax (l.map g) = argmax l := by
  induction l with
  | nil => rfl
  | cons a l ih =>
    rw [List.map_cons]
    unfold argmax
    rw [ih, List.getElem?_map]
    cases l[argmax l]? with
    | none => rfl
    | some m => simp only [Option.map_some, hg.le_iff_le]

theorem fitSpec_affine (n : ℕ) (y y' : ℕ → ℝ) (c d : ℝ) (hy : ∀ t < n, y' t = c * y t + d) (k : ℕ) (hk : k < n) : fitSpec n y' k = |c| * fitSpec n y k := by
  unfold fitSpec
  by_cases h0 : k = 0
  · rw [if_pos h0, if_pos h0, mul_zero]
  rw [if_neg h0, if_neg h0]
  have h := sum_cis n (by omega) (-(k : ℤ))
  rw [if_neg (by
    rw [Int.dvd_neg]
    intro hd
    have := Nat.le_of_dvd (by omega) (Int.natCast_dvd_natCast.mp hd)
    omega)] at h
  have e : dft n (fun t => (y' t : ℂ)) k = c * dft n (fun t => (y t : ℂ)) k := by
    rw [dft_congr n _ (fun t => (c : ℂ) * (y t : ℂ) + (d : ℂ)) k (fun t ht => by rw [hy t ht]; push_cast; ring)]
    unfold dft
    simp only [add_mul, sum_add_distrib, ← mul_sum]
    have e : ∑ i ∈ range n, cis (-(((k : ℤ) : ℝ) * i / n)) = 0 := by
      rw [← h]
      refine sum_congr rfl fun i _ => ?_
      congr 1
      push_cast
      ring
    rw [e, mul_zero, add_zero, mul_sum]
    exact sum_congr rfl fun i _ => by ring
  rw [e, norm_mul, Complex.norm_real, Real.norm_eq_abs]

theorem estimate_affine (n : ℕ) (y y' : ℕ → ℝ) (c d : ℝ) (hc : c ≠ 0) (hy : ∀ t < n, y' t = c * y t + d) : estimateFreq n y' = estimateFreq n y := by
  unfold estimateFreq
  by_cases hn : n < 2
  · rw [if_pos hn, if_pos hn]
  rw [if_neg hn, if_neg hn]
  have hpos : 0 < |c| := abs_pos.mpr hc
  have hl : (List.range (n / 2)).map (fitSpec n y') = ((List.range (n / 2)).map (fitSpec n y)).map (|c| * ·) := by
    rw [List.map_map]
    apply List.map_congr_left
    intro k hk
    exact fitSpec_affine n y y' c d hy k (by have := List.mem_range.mp hk; omega)
  have ha : argmax ((List.range (n / 2)).map (fitSpec n y')) = argmax ((List.range (n / 2)).map (fitSpec n y)) := by
    rw [hl]
    exact argmax_mono _ (fun a b h => mul_lt_mul_of_pos_left h hpos) _
  simp only
  rw [ha]
  set k := argmax ((List.range (n / 2)).map (fitSpec n y))
  by_cases hk : 0 < k ∧ k + 1 < n / 2
  · rw [if_pos hk, if_pos hk, fitSpec_affine n y y' c d hy k (by omega), fitSpec_affine n y y' c d hy (k + 1) (by omega), fitSpec_affine n y y' c d hy (k - 1) (by omega)]
    simp only [← mul_add, mul_div_mul_left _ _ hpos.ne', mul_lt_mul_iff_right₀ hpos]
  · rw [if_neg hk, if_neg hk]

/-- The starting frequency is positive when some bin between DC and the highest one is not empty. -/
theorem estimate_pos (n : ℕ) (y : ℕ → ℝ) (j : ℕ) (hj0 : 0 < j) (hj : j < n / 2) (hne : dft n (fun t => (y t : ℂ)) j ≠ 0) :
    ∃ f, estimateFreq n y = .ok f ∧ 0 < f ∧ f < 1 / 2 := by
  obtain ⟨f, h, h0, h1, k, hk, hb, hm⟩ := (C58_estimate n y).2 (by omega)
  refine ⟨f, h, ?_, h1⟩
  rcases hm j hj0 hj with ⟨hk0, _⟩ | ⟨_, hz⟩
  · have hk1 : (1 : ℝ) ≤ k := by exact_mod_cast Nat.pos_of_ne_zero hk0
    have := abs_le.mp hb
    by_contra hcon
    have : f = 0 := le_antisymm (not_lt.mp hcon) h0
    subst this
    linarith
  · exact absurd (norm_eq_zero.mp hz) hne

/-! ## A solver of the documented kind exists -/

theorem exists_minnorm : ∃ solve : Lstsq, IsMinNormLstsq solve := by
  obtain ⟨s0, hs0⟩ := exists_lstsq
  have key : ∀ (N : ℕ) (A : List (ℕ → ℝ)) (b : ℕ → ℝ), ∃ x : List ℝ, x.length = A.length ∧ residNorm N A x b ≤ residNorm N A (s0 N A b) b ∧
      ∀ z : List ℝ, z.length = A.length → residNorm N A z b ≤ residNorm N A (s0 N A b) b → (x.map (· ^ 2)).sum ≤ (z.map (· ^ 2)).sum := by
    intro N A b
    let S : Set (EuclideanSpace ℝ (Fin A.length)) := {v | residNorm N A (List.ofFn v) b ≤ residNorm N A (s0 N A b) b}
    have hmv : ∀ (v : EuclideanSpace ℝ (Fin A.length)) t, matVec A (List.ofFn v) t = ∑ j : Fin A.length, v j * (A.getD j 0) t := by
      intro v t
      unfold matVec
      rw [← Fin.sum_univ_eq_sum_range (fun j => (List.ofFn v).getD j 0 * (A.getD j 0) t) A.length]
      apply sum_congr rfl
      intro j _
      congr 1
      rw [List.getD_eq_getElem _ _ (by simp)]
      simp
    have hcont : Continuous fun v : EuclideanSpace ℝ (Fin A.length) => residNorm N A (List.ofFn v) b := by
      unfold residNorm
      simp only [hmv]
      fun_prop
    have hclosed : IsClosed S := isClosed_le hcont continuous_const
    have hne : S.Nonempty := by
      refine ⟨WithLp.toLp 2 fun j => (s0 N A b).getD j 0, ?_⟩
      have e : List.ofFn (fun j : Fin A.length => (s0 N A b).getD j 0) = s0 N A b := by
        apply List.ext_getElem
        · simp [hs0.len]
        · intro i h1 h2
          simp [List.getElem?_eq_getElem h2]
      show residNorm N A (List.ofFn (fun j : Fin A.length => (s0 N A b).getD j 0)) b ≤ _
      rw [e]
    obtain ⟨v, hv, hmin⟩ := hclosed.exists_infDist_eq_dist hne 0
    have hnorm : ∀ w : EuclideanSpace ℝ (Fin A.length), ((List.ofFn w).map (· ^ 2)).sum = ‖w‖ ^ 2 := by
      intro w
      rw [EuclideanSpace.norm_sq_eq, List.map_ofFn, List.sum_ofFn]
      apply sum_congr rfl
      intro j _
      simp
    refine ⟨List.ofFn v, by simp, hv, ?_⟩
    intro z hz hzb
    have e : List.ofFn (fun j : Fin A.length => z.getD j 0) = z := by
      apply List.ext_getElem
      · simp [hz]
      · intro i h1 h2
        simp [List.getElem?_eq_getElem h2]
    let w : EuclideanSpace ℝ (Fin A.length) := WithLp.toLp 2 fun j => z.getD j 0
    have hw : w ∈ S := by
      show residNorm N A (List.ofFn (fun j : Fin A.length => z.getD j 0)) b ≤ _
      rw [e]
      exact hzb
    have hle : ‖v‖ ≤ ‖w‖ := by
      have h1 := Metric.infDist_le_dist_of_mem (x := (0 : EuclideanSpace ℝ (Fin A.length))) hw
      rw [hmin] at h1
      simpa [dist_zero_left] using h1
    have hwz : (z.map (· ^ 2)).sum = ‖w‖ ^ 2 := by
      rw [← hnorm w]
      congr 2
      exact e.symm
    rw [hnorm v, hwz]
    exact pow_le_pow_left₀ (norm_nonneg _) hle 2
  choose s h1 h2 h3 using key
  refine ⟨s, { len := h1, opt := fun N A b y => (h2 N A b).trans (hs0.opt N A b y), least := fun N A b x hx hr => ?_ }⟩
  exact h3 N A b x hx (hr.trans (h2 N A b))

/-! ## Uniqueness and homogeneity of the minimum-norm solution -/

private theorem sum_sq_eq (x : List ℝ) : (x.map (· ^ 2)).sum = ∑ j ∈ range x.length, x.getD j 0 ^ 2 := by
  induction x with
  | nil => simp
  | cons a l ih =>
    rw [List.map_cons, List.sum_cons, ih, List.length_cons, sum_range_succ']
    simp [add_comm]

theorem minnorm_unique (solve : Lstsq) (hs : IsMinNormLstsq solve) (n : ℕ) (A : List (ℕ → ℝ)) (b : ℕ → ℝ) (x : List ℝ) (hl : x.length = A.length)
    (hx : ∀ t < n, matVec A x t = matVec A (solve n A b) t) (hle : (x.map (· ^ 2)).sum ≤ ((solve n A b).map (· ^ 2)).sum) (j : ℕ) : x.getD j 0 = (solve n A b).getD j 0 := by
  set s := solve n A b with hsdef
  have hsl : s.length = A.length := hs.len n A b
  set m := List.zipWith (· + ·) (x.map fun v => 1 / 2 * v) (s.map fun v => 1 / 2 * v) with hm
  have hml : m.length = A.length := by simp [hm, hl, hsl]
  have hmv : ∀ t < n, matVec A m t = matVec A s t := by
    intro t ht
    rw [hm, matVec_add _ _ _ _ (by simp [hl]) (by simp [hsl]), matVec_smul, matVec_smul, hx t ht]
    ring
  have h := hs.least n A b m hml (by
    rw [← hsdef]
    apply le_of_eq
    unfold residNorm
    congr 1
    apply sum_congr rfl
    intro t ht
    rw [hmv t (mem_range.mp ht)])
  rw [← hsdef, sum_sq_eq, sum_sq_eq, hsl, hml] at h
  rw [sum_sq_eq, sum_sq_eq, hsl, hl] at hle
  have hmj : ∀ i ∈ range A.length, m.getD i 0 ^ 2 = (x.getD i 0 ^ 2 + s.getD i 0 ^ 2) / 2 - (x.getD i 0 - s.getD i 0) ^ 2 / 4 := by
    intro i hi
    have hi := mem_range.mp hi
    have e : m.getD i 0 = 1 / 2 * x.getD i 0 + 1 / 2 * s.getD i 0 := by
      rw [List.getD_eq_getElem _ _ (by omega), List.getD_eq_getElem _ _ (by omega), List.getD_eq_getElem _ _ (by omega)]
      simp [hm]
    rw [e]
    ring
  rw [sum_congr rfl hmj, sum_sub_distrib, ← sum_div, ← sum_div, sum_add_distrib] at h
  have hz : ∑ i ∈ range A.length, (x.getD i 0 - s.getD i 0) ^ 2 = 0 := by
    apply le_antisymm
    · linarith
    · exact sum_nonneg fun i _ => sq_nonneg _
  by_cases hj : j < A.length
  · have := (sum_eq_zero_iff_of_nonneg fun i _ => sq_nonneg (x.getD i 0 - s.getD i 0)).mp hz j (mem_range.mpr hj)
    exact sub_eq_zero.mp (pow_eq_zero_iff two_ne_zero |>.mp this)
  · rw [List.getD_eq_default _ _ (by omega), List.getD_eq_default _ _ (by omega)]

/-- Scaling the right-hand side scales the solution. -/
theorem minnorm_smul (solve : Lstsq) (hs : IsMinNormLstsq solve) (n : ℕ) (A : List (ℕ → ℝ)) (b b' : ℕ → ℝ) (c : ℝ) (hc : c ≠ 0) (hb : ∀ t < n, b' t = c * b t) (j : ℕ) :
    (solve n A b').getD j 0 = c * (solve n A b).getD j 0 := by
  have hget : ∀ (l : List ℝ) (a : ℝ) (i : ℕ), (l.map fun v => a * v).getD i 0 = a * l.getD i 0 := by
    intro l a i
    by_cases hi : i < l.length
    · rw [List.getD_eq_getElem _ _ (by simpa using hi), List.getD_eq_getElem _ _ hi]
      simp
    · rw [List.getD_eq_default _ _ (by simpa using hi), List.getD_eq_default _ _ (by omega), mul_zero]
  have hsum : ∀ (l : List ℝ) (a : ℝ), ((l.map fun v => a * v).map (· ^ 2)).sum = a ^ 2 * (l.map (· ^ 2)).sum := by
    intro l a
    rw [sum_sq_eq, sum_sq_eq, List.length_map, mul_sum]
    apply sum_congr rfl
    intro i _
    rw [hget]
    ring
  have hmv := lstsq_projection solve hs.toIsLstsq n A b' (fun t => c * (b t - matVec A (solve n A b) t)) ((solve n A b).map fun v => c * v) (by simp [hs.len])
    (by
      intro t ht
      rw [matVec_smul, hb t ht]
      ring)
    (by
      intro j hj
      simp only [mul_assoc]
      rw [← mul_sum, lstsq_col solve hs.toIsLstsq n A b j hj, mul_zero])
  have h := hs.least n A b ((solve n A b').map fun v => c⁻¹ * v) (by simp [hs.len]) (by
    apply le_of_eq
    unfold residNorm
    congr 1
    apply sum_congr rfl
    intro t ht
    rw [matVec_smul, hmv t (mem_range.mp ht), matVec_smul, inv_mul_cancel_left₀ hc])
  rw [hsum] at h
  have h2 : (((solve n A b).map fun v => c * v).map (· ^ 2)).sum ≤ ((solve n A b').map (· ^ 2)).sum := by
    rw [hsum]
    have hc2 : 0 < c ^ 2 := by positivity
    calc c ^ 2 * ((solve n A b).map (· ^ 2)).sum ≤ c ^ 2 * (c⁻¹ ^ 2 * ((solve n A b').map (· ^ 2)).sum) := mul_le_mul_of_nonneg_left h hc2.le
      _ = ((solve n A b').map (· ^ 2)).sum := by
        rw [← mul_assoc, ← mul_pow, mul_inv_cancel₀ hc, one_pow, one_mul]
  rw [← minnorm_unique solve hs n A b' ((solve n A b).map fun v => c * v) (by simp [hs.len]) (fun t ht => (hmv t ht).symm) h2 j, hget]

end Verif
