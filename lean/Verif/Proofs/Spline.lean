import Verif.Model.JitterChain
import Mathlib.Analysis.Convex.Deriv
import Mathlib.LinearAlgebra.FiniteDimensional.Lemmas
import Mathlib.Analysis.SpecialFunctions.Trigonometric.Bounds
import Mathlib.Analysis.SpecialFunctions.Trigonometric.Deriv

/-!
# Facts about cubic splines on evenly spaced knots
-/

namespace Verif

open Model Finset

/-! ## Second derivatives at the knots -/

/-- Second derivatives of the spline at the knots. -/
noncomputable def moment (n : ℕ) (h : ℝ) (p : ℕ → Cubic) (i : ℕ) : ℝ := if i + 1 < n then (p i).curv 0 else (p (i - 1)).curv h

/-- The cubics with given values and second derivatives at the knots. -/
noncomputable def cubicOf (h : ℝ) (y M : ℕ → ℝ) (i : ℕ) : Cubic where
  a := y i
  b := (y (i + 1) - y i) / h - h * (2 * M i + M (i + 1)) / 6
  c := M i / 2
  d := (M (i + 1) - M i) / (6 * h)

theorem moment_next {n : ℕ} {h : ℝ} {y : ℕ → ℝ} {p : ℕ → Cubic} (hs : IsCubicSpline n h y p) (i : ℕ) (hi : i + 1 < n) :
    moment n h p (i + 1) = (p i).curv h := by
  unfold moment
  by_cases h2 : i + 1 + 1 < n
  · rw [if_pos h2, hs.curv i (by omega)]
  · rw [if_neg h2, Nat.add_sub_cancel]

theorem spline_cubicOf {n : ℕ} {h : ℝ} (hh : 0 < h) {y : ℕ → ℝ} {p : ℕ → Cubic} (hs : IsCubicSpline n h y p) (i : ℕ) (hi : i + 1 < n) :
    p i = cubicOf h y (moment n h p) i := by
  have h1 := hs.left i hi
  have h2 := hs.right i hi
  have h3 : moment n h p i = (p i).curv 0 := by unfold moment; rw [if_pos hi]
  have h4 := moment_next hs i hi
  unfold Cubic.eval at h1 h2
  unfold Cubic.curv at h3 h4
  have ha : (p i).a = y i := by linarith
  have hc : (p i).c = moment n h p i / 2 := by linarith
  have hd : (p i).d = (moment n h p (i + 1) - moment n h p i) / (6 * h) := by
    field_simp
    linarith
  ext
  · exact ha
  · show (p i).b = (y (i + 1) - y i) / h - h * (2 * moment n h p i + moment n h p (i + 1)) / 6
    rw [hc, hd, ha] at h2
    field_simp at h2 ⊢
    linarith
  · exact hc
  · exact hd

theorem spline_system {n : ℕ} {h : ℝ} (hh : 0 < h) {y : ℕ → ℝ} {p : ℕ → Cubic} (hs : IsCubicSpline n h y p) (i : ℕ) (hi : i + 2 < n) :
    moment n h p i + 4 * moment n h p (i + 1) + moment n h p (i + 2) = 6 * ((y (i + 2) - 2 * y (i + 1) + y i) / h ^ 2) := by
  have h1 := hs.slope i hi
  rw [spline_cubicOf hh hs i (by omega), spline_cubicOf hh hs (i + 1) (by omega)] at h1
  unfold Cubic.slope cubicOf at h1
  simp only at h1
  rw [show i + 1 + 1 = i + 2 from rfl] at h1
  field_simp at h1 ⊢
  linarith

theorem cubic_shift_d (p q : Cubic) (h : ℝ) (hpq : ∀ v, p.eval (h + v) = q.eval v) : p.d = q.d := by
  have h0 := hpq 0
  have h1 := hpq 1
  have h2 := hpq (-1)
  have h3 := hpq 2
  unfold Cubic.eval at h0 h1 h2 h3
  linarith

theorem spline_start {n : ℕ} {h : ℝ} (hh : 0 < h) {y : ℕ → ℝ} {p : ℕ → Cubic} (hs : IsCubicSpline n h y p) (hn : 3 ≤ n) :
    moment n h p 0 - 2 * moment n h p 1 + moment n h p 2 = 0 := by
  have h1 := cubic_shift_d _ _ _ (hs.start hn)
  rw [spline_cubicOf hh hs 0 (by omega), spline_cubicOf hh hs 1 (by omega)] at h1
  unfold cubicOf at h1
  simp only at h1
  field_simp at h1
  norm_num at h1
  linarith

theorem spline_stop {n : ℕ} {h : ℝ} (hh : 0 < h) {y : ℕ → ℝ} {p : ℕ → Cubic} (hs : IsCubicSpline n h y p) (hn : 3 ≤ n) :
    moment n h p (n - 3) - 2 * moment n h p (n - 2) + moment n h p (n - 1) = 0 := by
  have h1 := cubic_shift_d _ _ _ (hs.stop hn)
  rw [spline_cubicOf hh hs (n - 3) (by omega), spline_cubicOf hh hs (n - 2) (by omega)] at h1
  unfold cubicOf at h1
  simp only at h1
  rw [show n - 3 + 1 = n - 2 by omega, show n - 2 + 1 = n - 1 by omega] at h1
  field_simp at h1
  linarith

/-- Diagonal dominance. -/
theorem dominance (n : ℕ) (E : ℕ → ℝ) (K : ℝ) (h1 : |E 1| ≤ K / 2) (h2 : |E (n - 2)| ≤ K / 2)
    (hm : ∀ i, 2 ≤ i → i + 3 ≤ n → |E (i - 1) + 4 * E i + E (i + 1)| ≤ K) (i : ℕ) (hi : 1 ≤ i) (hin : i + 2 ≤ n) : |E i| ≤ K / 2 := by
  obtain ⟨j, hj, hmax⟩ := Finset.exists_max_image (Icc 1 (n - 2)) (fun i => |E i|) ⟨i, by rw [mem_Icc]; omega⟩
  rw [mem_Icc] at hj
  refine (hmax i (by rw [mem_Icc]; omega)).trans ?_
  by_cases j1 : j = 1
  · rw [j1]; exact h1
  by_cases j2 : j = n - 2
  · rw [j2]; exact h2
  have h3 := hm j (by omega) (by omega)
  have h4 := hmax (j - 1) (by rw [mem_Icc]; omega)
  have h5 := hmax (j + 1) (by rw [mem_Icc]; omega)
  have h6 : |4 * E j| ≤ |E (j - 1) + 4 * E j + E (j + 1)| + |E (j - 1)| + |E (j + 1)| := by
    have := abs_sub (E (j - 1) + 4 * E j + E (j + 1) - E (j - 1)) (E (j + 1))
    have h8 := abs_sub (E (j - 1) + 4 * E j + E (j + 1)) (E (j - 1))
    rw [show E (j - 1) + 4 * E j + E (j + 1) - E (j - 1) - E (j + 1) = 4 * E j by ring] at this
    linarith
  rw [abs_mul, abs_of_pos (by norm_num : (0 : ℝ) < 4)] at h6
  linarith

/-! ## Existence -/

theorem cubicOf_spline {n : ℕ} {h : ℝ} (hh : 0 < h) (y M : ℕ → ℝ)
    (hsys : ∀ i, i + 2 < n → M i + 4 * M (i + 1) + M (i + 2) = 6 * ((y (i + 2) - 2 * y (i + 1) + y i) / h ^ 2))
    (hst : 3 ≤ n → M 0 - 2 * M 1 + M 2 = 0) (hsp : 3 ≤ n → M (n - 3) - 2 * M (n - 2) + M (n - 1) = 0)
    (h3 : n = 3 → M 1 = M 0) (h2 : n = 2 → M 0 = 0 ∧ M 1 = 0) : IsCubicSpline n h y (cubicOf h y M) := by
  have hshift : ∀ i, i + 2 < n → M i - 2 * M (i + 1) + M (i + 2) = 0 → ∀ v, (cubicOf h y M i).eval (h + v) = (cubicOf h y M (i + 1)).eval v := by
    intro i hi h0 v
    have h1 := hsys i hi
    have e1 : M i = 2 * M (i + 1) - M (i + 2) := by linarith
    have e2 : M (i + 1) = (y (i + 2) - 2 * y (i + 1) + y i) / h ^ 2 := by linarith
    unfold Cubic.eval cubicOf
    simp only
    rw [show i + 1 + 1 = i + 2 from rfl, e1]
    have e3 : y i = M (i + 1) * h ^ 2 - y (i + 2) + 2 * y (i + 1) := by
      rw [e2]
      field_simp
      ring
    rw [e3]
    field_simp
    ring
  constructor
  · intro i _
    unfold Cubic.eval cubicOf
    simp
  · intro i _
    unfold Cubic.eval cubicOf
    field_simp
    ring
  · intro i hi
    have h1 := hsys i hi
    unfold Cubic.slope cubicOf
    simp only
    rw [show i + 1 + 1 = i + 2 from rfl]
    field_simp at h1 ⊢
    linarith
  · intro i _
    unfold Cubic.curv cubicOf
    field_simp
    ring
  · intro hn
    exact hshift 0 (by omega) (hst hn)
  · intro hn
    have := hshift (n - 3) (by omega)
    rw [show n - 3 + 1 = n - 2 by omega, show n - 3 + 2 = n - 1 by omega] at this
    exact this (hsp hn)
  · intro hn
    unfold cubicOf
    simp only
    rw [h3 hn, sub_self, zero_div]
  · intro hn
    obtain ⟨a, b⟩ := h2 hn
    unfold cubicOf
    simp only
    rw [a, b]
    simp

/-- The equations of the second derivatives have a solution. -/
theorem moments_exist (n : ℕ) (hn : 4 ≤ n) (r : ℕ → ℝ) : ∃ M : ℕ → ℝ, (∀ i, i + 2 < n → M i + 4 * M (i + 1) + M (i + 2) = r i) ∧
    M 0 - 2 * M 1 + M 2 = 0 ∧ M (n - 3) - 2 * M (n - 2) + M (n - 1) = 0 := by
  let ext : (Fin n → ℝ) → ℕ → ℝ := fun M i => if h : i < n then M ⟨i, h⟩ else 0
  have hext : ∀ M (i : ℕ) (h : i < n), ext M i = M ⟨i, h⟩ := fun M i h => dif_pos h
  have hadd : ∀ M M' i, ext (M + M') i = ext M i + ext M' i := by
    intro M M' i
    by_cases h : i < n
    · rw [hext _ _ h, hext _ _ h, hext _ _ h]; rfl
    · simp only [ext, dif_neg h, add_zero]
  have hsmul : ∀ (c : ℝ) M i, ext (c • M) i = c * ext M i := by
    intro c M i
    by_cases h : i < n
    · rw [hext _ _ h, hext _ _ h]; rfl
    · simp only [ext, dif_neg h, mul_zero]
  let T : (Fin n → ℝ) →ₗ[ℝ] (Fin n → ℝ) :=
    { toFun := fun M j => if j.1 = 0 then ext M 0 - 2 * ext M 1 + ext M 2
        else if j.1 = n - 1 then ext M (n - 3) - 2 * ext M (n - 2) + ext M (n - 1)
        else ext M (j.1 - 1) + 4 * ext M j.1 + ext M (j.1 + 1)
      map_add' := by
        intro M M'
        funext j
        simp only [hadd, Pi.add_apply]
        split_ifs <;> ring
      map_smul' := by
        intro c M
        funext j
        simp only [hsmul, Pi.smul_apply, smul_eq_mul, RingHom.id_apply]
        split_ifs <;> ring }
  have hinj : Function.Injective T := by
    rw [injective_iff_map_eq_zero]
    intro M hM
    have h0 : ext M 0 - 2 * ext M 1 + ext M 2 = 0 := by
      have := congrFun hM ⟨0, by omega⟩
      simpa [T] using this
    have hl : ext M (n - 3) - 2 * ext M (n - 2) + ext M (n - 1) = 0 := by
      have := congrFun hM ⟨n - 1, by omega⟩
      simp only [T, LinearMap.coe_mk, AddHom.coe_mk, Pi.zero_apply] at this
      rw [if_neg (by omega)] at this
      simpa using this
    have hmid : ∀ i, 1 ≤ i → i + 1 < n → ext M (i - 1) + 4 * ext M i + ext M (i + 1) = 0 := by
      intro i h1 h2
      have := congrFun hM ⟨i, by omega⟩
      simp only [T, LinearMap.coe_mk, AddHom.coe_mk, Pi.zero_apply] at this
      rw [if_neg (by omega), if_neg (by omega)] at this
      exact this
    have z1 : ext M 1 = 0 := by
      have := hmid 1 le_rfl (by omega)
      norm_num at this
      linarith
    have z2 : ext M (n - 2) = 0 := by
      have := hmid (n - 2) (by omega) (by omega)
      rw [show n - 2 - 1 = n - 3 by omega, show n - 2 + 1 = n - 1 by omega] at this
      linarith
    have hz : ∀ i, 1 ≤ i → i + 2 ≤ n → ext M i = 0 := by
      intro i h1 h2
      have := dominance n (ext M) 0 (by rw [z1]; simp) (by rw [z2]; simp) (fun i a b => by rw [hmid i (by omega) (by omega)]; simp) i h1 h2
      rw [zero_div] at this
      exact abs_nonpos_iff.mp this
    funext j
    have : ext M j.1 = 0 := by
      by_cases a : j.1 = 0
      · rw [a]
        have := hz 2 (by omega) (by omega)
        linarith
      by_cases b : j.1 = n - 1
      · rw [b]
        have := hz (n - 3) (by omega) (by omega)
        linarith
      · exact hz _ (by omega) (by have := j.2; omega)
    rw [hext M j.1 j.2] at this
    exact this
  obtain ⟨M, hM⟩ := (LinearMap.injective_iff_surjective.mp hinj) (fun j => if j.1 = 0 then 0 else if j.1 = n - 1 then 0 else r (j.1 - 1))
  refine ⟨ext M, ?_, ?_, ?_⟩
  · intro i hi
    have := congrFun hM ⟨i + 1, by omega⟩
    simp only [T, LinearMap.coe_mk, AddHom.coe_mk] at this
    rw [if_neg (by omega), if_neg (by omega), if_neg (by omega), if_neg (by omega), Nat.add_sub_cancel] at this
    exact this
  · have := congrFun hM ⟨0, by omega⟩
    simpa [T] using this
  · have := congrFun hM ⟨n - 1, by omega⟩
    simp only [T, LinearMap.coe_mk, AddHom.coe_mk] at this
    rw [if_neg (by omega)] at this
    simpa using this

theorem exists_spline (n : ℕ) (h : ℝ) (y : ℕ → ℝ) (hn : 2 ≤ n) (hh : 0 < h) : ∃ p, IsCubicSpline n h y p := by
  by_cases h2 : n = 2
  · exact ⟨_, cubicOf_spline hh y (fun _ => 0) (by intro i hi; omega) (by omega) (by omega) (by omega) (fun _ => ⟨rfl, rfl⟩)⟩
  by_cases h3 : n = 3
  · refine ⟨_, cubicOf_spline hh y (fun _ => (y 2 - 2 * y 1 + y 0) / h ^ 2) ?_ (fun _ => by ring) (fun _ => by ring) (fun _ => rfl) (by omega)⟩
    intro i hi
    obtain rfl : i = 0 := by omega
    norm_num
    ring
  · obtain ⟨M, m1, m2, m3⟩ := moments_exist n (by omega) fun i => 6 * ((y (i + 2) - 2 * y (i + 1) + y i) / h ^ 2)
    exact ⟨_, cubicOf_spline hh y M m1 (fun _ => m2) (fun _ => m3) (by omega) (by omega)⟩

theorem exists_splineLib : ∃ L, IsSplineLib L := by
  classical
  refine ⟨fun n h y => if hc : 2 ≤ n ∧ 0 < h then (exists_spline n h y hc.1 hc.2).choose else fun _ => ⟨0, 0, 0, 0⟩, ?_⟩
  intro n h y hn hh
  simp only
  rw [dif_pos ⟨hn, hh⟩]
  exact (exists_spline n h y hn hh).choose_spec

/-! ## Uniqueness and linearity -/

theorem spline_comb {n : ℕ} {h : ℝ} {y y' : ℕ → ℝ} {p p' : ℕ → Cubic} (hs : IsCubicSpline n h y p) (hs' : IsCubicSpline n h y' p') (α β : ℝ) :
    IsCubicSpline n h (fun i => α * y i + β * y' i) fun i => ⟨α * (p i).a + β * (p' i).a, α * (p i).b + β * (p' i).b, α * (p i).c + β * (p' i).c,
      α * (p i).d + β * (p' i).d⟩ := by
  have he : ∀ i v, Cubic.eval ⟨α * (p i).a + β * (p' i).a, α * (p i).b + β * (p' i).b, α * (p i).c + β * (p' i).c, α * (p i).d + β * (p' i).d⟩ v
      = α * (p i).eval v + β * (p' i).eval v := fun i v => by unfold Cubic.eval; ring
  have hsl : ∀ i v, Cubic.slope ⟨α * (p i).a + β * (p' i).a, α * (p i).b + β * (p' i).b, α * (p i).c + β * (p' i).c, α * (p i).d + β * (p' i).d⟩ v
      = α * (p i).slope v + β * (p' i).slope v := fun i v => by unfold Cubic.slope; ring
  have hcv : ∀ i v, Cubic.curv ⟨α * (p i).a + β * (p' i).a, α * (p i).b + β * (p' i).b, α * (p i).c + β * (p' i).c, α * (p i).d + β * (p' i).d⟩ v
      = α * (p i).curv v + β * (p' i).curv v := fun i v => by unfold Cubic.curv; ring
  constructor
  · intro i hi
    rw [he, hs.left i hi, hs'.left i hi]
  · intro i hi
    rw [he, hs.right i hi, hs'.right i hi]
  · intro i hi
    rw [hsl, hsl, hs.slope i hi, hs'.slope i hi]
  · intro i hi
    rw [hcv, hcv, hs.curv i hi, hs'.curv i hi]
  · intro hn v
    rw [he, he, hs.start hn, hs'.start hn]
  · intro hn v
    rw [he, he, hs.stop hn, hs'.stop hn]
  · intro hn
    simp only
    rw [hs.three hn, hs'.three hn]
    simp
  · intro hn
    obtain ⟨a, b⟩ := hs.two hn
    obtain ⟨a', b'⟩ := hs'.two hn
    simp only
    rw [a, b, a', b']
    simp

/-- Bounds on the second derivatives at the knots from the second differences. -/
theorem moment_le {n : ℕ} {h : ℝ} (hh : 0 < h) {y : ℕ → ℝ} {p : ℕ → Cubic} (hs : IsCubicSpline n h y p) (hn : 2 ≤ n) (D : ℝ) (hD0 : 0 ≤ D)
    (hD : ∀ i, i + 2 < n → |(y (i + 2) - 2 * y (i + 1) + y i) / h ^ 2| ≤ D) (i : ℕ) (hi : i < n) : |moment n h p i| ≤ 5 * D := by
  by_cases h2 : n = 2
  · obtain ⟨a, b⟩ := hs.two h2
    have : moment n h p i = 0 := by
      unfold moment
      by_cases hc : i + 1 < n
      · obtain rfl : i = 0 := by omega
        rw [if_pos hc]
        unfold Cubic.curv
        rw [a, b]
        ring
      · obtain rfl : i = 1 := by omega
        rw [if_neg hc]
        unfold Cubic.curv
        norm_num
        rw [a, b]
        ring
    rw [this, abs_zero]
    linarith
  have q1 := spline_start hh hs (by omega)
  have q2 := spline_stop hh hs (by omega)
  have s1 := spline_system hh hs 0 (by omega)
  have s2 := spline_system hh hs (n - 3) (by omega)
  rw [show n - 3 + 1 = n - 2 by omega, show n - 3 + 2 = n - 1 by omega] at s2
  rw [show 0 + 1 = 1 from rfl, show 0 + 2 = 2 from rfl] at s1
  have d1 := hD 0 (by omega)
  have d2 := hD (n - 3) (by omega)
  rw [show n - 3 + 1 = n - 2 by omega, show n - 3 + 2 = n - 1 by omega] at d2
  rw [show 0 + 1 = 1 from rfl, show 0 + 2 = 2 from rfl] at d1
  have m1 : moment n h p 1 = (y 2 - 2 * y 1 + y 0) / h ^ 2 := by linarith
  have m2 : moment n h p (n - 2) = (y (n - 1) - 2 * y (n - 2) + y (n - 3)) / h ^ 2 := by linarith
  by_cases h3 : n = 3
  · subst h3
    have t := hs.three rfl
    have c0 := spline_cubicOf hh hs 0 (by omega)
    rw [c0] at t
    unfold cubicOf at t
    simp only at t
    have e : moment 3 h p 1 = moment 3 h p 0 := by
      rw [div_eq_zero_iff] at t
      rcases t with t | t
      · rw [show 0 + 1 = 1 from rfl] at t
        linarith
      · exfalso
        linarith
    have e2 : moment 3 h p 2 = moment 3 h p 1 := by linarith
    have : moment 3 h p i = (y 2 - 2 * y 1 + y 0) / h ^ 2 := by
      rw [← m1]
      rcases (show i = 0 ∨ i = 1 ∨ i = 2 by omega) with rfl | rfl | rfl
      · exact e.symm
      · rfl
      · exact e2
    rw [this]
    linarith
  have key := dominance n (moment n h p) (6 * D) (by rw [m1]; linarith) (by rw [m2]; linarith) (by
    intro j hj1 hj2
    have := spline_system hh hs (j - 1) (by omega)
    have hd := hD (j - 1) (by omega)
    rw [show j - 1 + 1 = j by omega, show j - 1 + 2 = j + 1 by omega] at this hd
    rw [this, abs_mul, abs_of_pos (by norm_num : (0 : ℝ) < 6)]
    linarith)
  by_cases a : i = 0
  · rw [a]
    have k2 := key 2 (by omega) (by omega)
    rw [← m1] at d1
    rw [abs_le] at d1 k2 ⊢
    constructor <;> linarith
  by_cases b : i = n - 1
  · rw [b]
    have k2 := key (n - 3) (by omega) (by omega)
    rw [← m2] at d2
    rw [abs_le] at d2 k2 ⊢
    constructor <;> linarith
  · have := key i (by omega) (by omega)
    linarith

theorem spline_unique {n : ℕ} {h : ℝ} (hh : 0 < h) {y : ℕ → ℝ} {p p' : ℕ → Cubic} (hn : 2 ≤ n) (hs : IsCubicSpline n h y p) (hs' : IsCubicSpline n h y p')
    (i : ℕ) (hi : i + 1 < n) : p i = p' i := by
  have hc := spline_comb hs hs' 1 (-1)
  have hz : ∀ j < n, moment n h (fun i => ⟨1 * (p i).a + -1 * (p' i).a, 1 * (p i).b + -1 * (p' i).b, 1 * (p i).c + -1 * (p' i).c,
      1 * (p i).d + -1 * (p' i).d⟩) j = 0 := by
    intro j hj
    have := moment_le hh hc hn 0 le_rfl (fun k _ => by
      rw [show (1 * y (k + 2) + -1 * y (k + 2) - 2 * (1 * y (k + 1) + -1 * y (k + 1)) + (1 * y k + -1 * y k)) / h ^ 2 = 0 by ring, abs_zero]) j hj
    rw [mul_zero] at this
    exact abs_nonpos_iff.mp this
  have e := spline_cubicOf hh hc i hi
  unfold cubicOf at e
  rw [hz i (by omega), hz (i + 1) (by omega)] at e
  have ea := congrArg Cubic.a e
  have eb := congrArg Cubic.b e
  have ec := congrArg Cubic.c e
  have ed := congrArg Cubic.d e
  simp only at ea eb ec ed
  norm_num at ea eb ec ed
  ext
  · linarith
  · linarith
  · linarith
  · linarith

/-! ## Interpolation error -/

/-- A function that vanishes at two points, with bounded second derivative. -/
theorem chord_bound (e e' e'' : ℝ → ℝ) (h1 : ∀ v, HasDerivAt e (e' v) v) (h2 : ∀ v, HasDerivAt e' (e'' v) v) (h lo hi B : ℝ) (hh : 0 < h) (hlo : lo ≤ 0)
    (hhi : h ≤ hi) (z0 : e 0 = 0) (zh : e h = 0) (hB : ∀ v ∈ Set.Icc lo hi, |e'' v| ≤ B) (v : ℝ) (hv : v ∈ Set.Icc lo hi) :
    |e v| ≤ B / 2 * |v * (v - h)| := by
  have main : ∀ (e e' e'' : ℝ → ℝ), (∀ v, HasDerivAt e (e' v) v) → (∀ v, HasDerivAt e' (e'' v) v) → e 0 = 0 → e h = 0 →
      (∀ v ∈ Set.Icc lo hi, |e'' v| ≤ B) → (0 ≤ v * (v - h) → 0 ≤ e v + B / 2 * (v * (v - h))) ∧ (v * (v - h) ≤ 0 → e v + B / 2 * (v * (v - h)) ≤ 0) := by
    intro e e' e'' h1 h2 z0 zh hB
    set φ : ℝ → ℝ := fun v => e v + B / 2 * (v * (v - h)) with hφ
    have d1 : ∀ v, HasDerivAt φ (e' v + B / 2 * (2 * v - h)) v := by
      intro v
      have hm : HasDerivAt (fun v : ℝ => v * (v - h)) (1 * (v - h) + v * 1) v := (hasDerivAt_id' v).mul ((hasDerivAt_id' v).sub_const h)
      exact ((h1 v).add (hm.const_mul (B / 2))).congr_deriv (by ring)
    have d2 : ∀ v, HasDerivAt (fun v => e' v + B / 2 * (2 * v - h)) (e'' v + B) v := by
      intro v
      have hm : HasDerivAt (fun v : ℝ => 2 * v - h) (2 * 1) v := ((hasDerivAt_id' v).const_mul 2).sub_const h
      exact ((h2 v).add (hm.const_mul (B / 2))).congr_deriv (by ring)
    have hconv : ConvexOn ℝ (Set.Icc lo hi) φ := by
      refine convexOn_of_hasDerivWithinAt2_nonneg (convex_Icc lo hi) (fun v _ => (d1 v).continuousAt.continuousWithinAt)
        (f' := fun v => e' v + B / 2 * (2 * v - h)) (f'' := fun v => e'' v + B) (fun v _ => (d1 v).hasDerivWithinAt) (fun v _ => (d2 v).hasDerivWithinAt) ?_
      intro v hv
      have := abs_le.mp (hB v (interior_subset hv))
      linarith [this.1]
    have p0 : φ 0 = 0 := by rw [hφ]; simp [z0]
    have ph : φ h = 0 := by rw [hφ]; simp [zh]
    have i0 : (0 : ℝ) ∈ Set.Icc lo hi := ⟨hlo, by linarith⟩
    have ih : h ∈ Set.Icc lo hi := ⟨by linarith, hhi⟩
    have cv : ∀ x ∈ Set.Icc lo hi, ∀ y ∈ Set.Icc lo hi, ∀ a b : ℝ, 0 ≤ a → 0 ≤ b → a + b = 1 → φ (a * x + b * y) ≤ a * φ x + b * φ y :=
      fun x hx y hy a b ha hb hab => hconv.2 hx hy ha hb hab
    constructor
    · intro hp
      show 0 ≤ φ v
      rcases lt_or_ge v 0 with c | c
      · -- 0 lies between v and h
        have hc := cv _ hv _ ih (h / (h - v)) (-v / (h - v)) (by apply div_nonneg <;> linarith) (by apply div_nonneg <;> linarith)
          (by rw [← add_div, div_eq_one_iff_eq (by linarith)]; ring)
        rw [ph, mul_zero, add_zero,
          show h / (h - v) * v + -v / (h - v) * h = 0 by ring, p0] at hc
        have : 0 < h / (h - v) := by apply div_pos <;> linarith
        nlinarith
      · rcases eq_or_lt_of_le c with c0 | c0
        · rw [← c0, p0]
        have hvh : h ≤ v := by
          by_contra hlt
          push Not at hlt
          nlinarith
        rcases eq_or_lt_of_le hvh with c1 | c1
        · rw [← c1, ph]
        have hc := cv _ i0 _ hv ((v - h) / v) (h / v) (by apply div_nonneg <;> linarith) (by apply div_nonneg <;> linarith)
          (by rw [← add_div, div_eq_one_iff_eq (by linarith)]; ring)
        rw [p0, mul_zero, zero_add, zero_add, div_mul_cancel₀ _ c0.ne', ph] at hc
        have : 0 < h / v := by apply div_pos <;> linarith
        nlinarith
    · intro hp
      show φ v ≤ 0
      have hv0 : 0 ≤ v := by
        by_contra hlt
        push Not at hlt
        nlinarith
      have hvh : v ≤ h := by
        by_contra hlt
        push Not at hlt
        nlinarith
      have hc := cv _ i0 _ ih ((h - v) / h) (v / h) (by apply div_nonneg <;> linarith) (by apply div_nonneg <;> linarith)
        (by rw [← add_div, div_eq_one_iff_eq (by linarith)]; ring)
      rw [p0, ph, mul_zero, mul_zero, zero_add, zero_add, div_mul_cancel₀ _ hh.ne'] at hc
      exact hc
  obtain ⟨m1, m2⟩ := main e e' e'' h1 h2 z0 zh hB
  obtain ⟨n1, n2⟩ := main (fun v => -e v) (fun v => -e' v) (fun v => -e'' v) (fun v => (h1 v).neg) (fun v => (h2 v).neg) (by simp [z0]) (by simp [zh])
    (fun v hv => by rw [abs_neg]; exact hB v hv)
  rw [abs_le]
  rcases le_total 0 (v * (v - h)) with c | c
  · rw [abs_of_nonneg c]
    constructor
    · linarith [m1 c]
    · linarith [n1 c]
  · rw [abs_of_nonpos c]
    constructor
    · linarith [n2 c]
    · linarith [m2 c]

theorem cubic_eval_deriv (p : Cubic) (v : ℝ) : HasDerivAt p.eval (p.slope v) v := by
  have h1 : HasDerivAt (fun v : ℝ => p.a + p.b * v + p.c * v ^ 2 + p.d * v ^ 3) (p.b * 1 + p.c * ((2 : ℕ) * v ^ 1) + p.d * ((3 : ℕ) * v ^ 2)) v :=
    ((((hasDerivAt_id' v).const_mul p.b).const_add p.a).add ((hasDerivAt_pow 2 v).const_mul p.c)).add ((hasDerivAt_pow 3 v).const_mul p.d)
  exact h1.congr_deriv (by unfold Cubic.slope; push_cast; ring)

theorem cubic_slope_deriv (p : Cubic) (v : ℝ) : HasDerivAt p.slope (p.curv v) v := by
  have h1 : HasDerivAt (fun v : ℝ => p.b + 2 * p.c * v + 3 * p.d * v ^ 2) (2 * p.c * 1 + 3 * p.d * ((2 : ℕ) * v ^ 1)) v :=
    (((hasDerivAt_id' v).const_mul (2 * p.c)).const_add p.b).add ((hasDerivAt_pow 2 v).const_mul (3 * p.d))
  exact h1.congr_deriv (by unfold Cubic.curv; push_cast; ring)

end Verif
