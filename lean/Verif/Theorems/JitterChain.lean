import Verif.Proofs.Spline
import Mathlib.Analysis.Real.Pi.Bounds

/-!
# C142: sampling jitter applied to a given record
-/

namespace Verif

open Model Finset

/-! ## The interval that is used -/

private theorem chain_ok (L : SplineLib) (g : Gen) (x : List ℝ) (tj : ℕ → ℝ) (hn : 2 ≤ g.n) (hfs : 0 < g.fs) (hx : x.length = g.n) :
    g.jitterChain L x tj = .ok ((List.range g.n).map fun i => splineAt g.n g.fs (L g.n (1 / g.fs) fun k => x.getD k 0) (g.t i + tj i)) := by
  unfold Gen.jitterChain
  rw [if_neg (by push Not; exact ⟨hn, hfs, hx⟩)]

private theorem interval_inside (n : ℕ) (hn : 2 ≤ n) (fs : ℝ) (hfs : 0 < fs) (p : ℕ → Cubic) (x : ℝ) (h0 : 0 ≤ x) (h1 : x ≤ (n - 1 : ℝ) / fs) :
    ∃ j v, j + 1 < n ∧ v ∈ Set.Icc (0 : ℝ) (1 / fs) ∧ x = j * (1 / fs) + v ∧ splineAt n fs p x = (p j).eval v := by
  have hxf : 0 ≤ x * fs := mul_nonneg h0 hfs.le
  have hf0 : 0 ≤ ⌊x * fs⌋ := Int.floor_nonneg.mpr hxf
  have hcast : ((⌊x * fs⌋.toNat : ℕ) : ℝ) = (⌊x * fs⌋ : ℝ) := by
    have := Int.toNat_of_nonneg hf0
    exact_mod_cast this
  have e1 := Int.floor_le (x * fs)
  have e2 := Int.lt_floor_add_one (x * fs)
  rw [le_div_iff₀ hfs] at h1
  refine ⟨min ⌊x * fs⌋.toNat (n - 2), x - (min ⌊x * fs⌋.toNat (n - 2) : ℕ) / fs, by omega, ?_, by ring, rfl⟩
  have hx : x = x * fs / fs := by field_simp
  rcases le_total ⌊x * fs⌋.toNat (n - 2) with c | c
  · rw [min_eq_left c, hcast]
    constructor
    · rw [sub_nonneg, div_le_iff₀ hfs]
      exact e1
    · rw [sub_le_iff_le_add, ← add_div, le_div_iff₀ hfs]
      linarith
  · rw [min_eq_right c]
    have hc : ((n - 2 : ℕ) : ℝ) ≤ (⌊x * fs⌋.toNat : ℕ) := by exact_mod_cast c
    rw [hcast] at hc
    have hn2 : ((n - 2 : ℕ) : ℝ) = n - 2 := by rw [Nat.cast_sub hn]; norm_num
    constructor
    · rw [sub_nonneg, div_le_iff₀ hfs]
      linarith
    · rw [sub_le_iff_le_add, ← add_div, le_div_iff₀ hfs, hn2]
      linarith

private theorem interval_before (n : ℕ) (fs : ℝ) (hfs : 0 < fs) (p : ℕ → Cubic) (x : ℝ) (h0 : x < 0) : splineAt n fs p x = (p 0).eval x := by
  unfold splineAt
  have : ⌊x * fs⌋.toNat = 0 := by
    rw [Int.toNat_eq_zero]
    have : x * fs < 0 := mul_neg_of_neg_of_pos h0 hfs
    have h2 : (⌊x * fs⌋ : ℝ) < 0 := lt_of_le_of_lt (Int.floor_le _) this
    have h3 : ⌊x * fs⌋ < 0 := by exact_mod_cast h2
    omega
  simp [this]

private theorem interval_after (n : ℕ) (hn : 2 ≤ n) (fs : ℝ) (hfs : 0 < fs) (p : ℕ → Cubic) (x : ℝ) (h0 : (n - 1 : ℝ) / fs < x) :
    splineAt n fs p x = (p (n - 2)).eval (x - ((n - 2 : ℕ) : ℝ) * (1 / fs)) := by
  unfold splineAt
  rw [div_lt_iff₀ hfs] at h0
  have h1 : ((n - 2 : ℕ) : ℝ) ≤ x * fs := by
    rw [Nat.cast_sub hn]
    push_cast
    linarith
  have h2 : ((n - 2 : ℕ) : ℤ) ≤ ⌊x * fs⌋ := by
    rw [Int.le_floor]
    exact_mod_cast h1
  have : min ⌊x * fs⌋.toNat (n - 2) = n - 2 := by omega
  simp only [this]
  congr 1
  ring

private theorem getD_map_range (n : ℕ) (f : ℕ → ℝ) (i : ℕ) (hi : i < n) : ((List.range n).map f).getD i 0 = f i := by
  rw [List.getD_eq_getElem?_getD, List.getElem?_map, List.getElem?_range hi]
  rfl

private theorem spline_congr {n : ℕ} {h : ℝ} {y y' : ℕ → ℝ} {p : ℕ → Cubic} (hy : ∀ i < n, y i = y' i) (hs : IsCubicSpline n h y p) : IsCubicSpline n h y' p :=
  { hs with
    left := fun i hi => by rw [hs.left i hi, hy i (by omega)]
    right := fun i hi => by rw [hs.right i hi, hy (i + 1) (by omega)] }

/-- The result for a record is that of any spline through it. -/
private theorem chain_of_spline (L : SplineLib) (hL : IsSplineLib L) (g : Gen) (x : List ℝ) (tj : ℕ → ℝ) (hn : 2 ≤ g.n) (hfs : 0 < g.fs)
    (hx : x.length = g.n) (p : ℕ → Cubic) (hp : IsCubicSpline g.n (1 / g.fs) (fun k => x.getD k 0) p) :
    g.jitterChain L x tj = .ok ((List.range g.n).map fun i => splineAt g.n g.fs p (g.t i + tj i)) := by
  rw [chain_ok L g x tj hn hfs hx]
  congr 2
  funext i
  unfold splineAt
  simp only
  rw [spline_unique (one_div_pos.mpr hfs) hn (hL g.n (1 / g.fs) _ hn (one_div_pos.mpr hfs)) hp _ (by omega)]

/-! ## What the routine computes -/

/-- **C142 (definedness and determinacy).** `apply_jitter` on a record succeeds exactly for at least two samples, a positive rate and a record of the length of
the generator; the result has that length and is the same for every spline routine that does as documented. -/
theorem C142_defined (L L' : SplineLib) (hL : IsSplineLib L) (hL' : IsSplineLib L') (g : Gen) (x : List ℝ) (tj : ℕ → ℝ) :
    ((∃ out, g.jitterChain L x tj = .ok out ∧ out.length = g.n) ↔ 2 ≤ g.n ∧ 0 < g.fs ∧ x.length = g.n) ∧
    g.jitterChain L x tj = g.jitterChain L' x tj := by
  by_cases hc : 2 ≤ g.n ∧ 0 < g.fs ∧ x.length = g.n
  · obtain ⟨hn, hfs, hx⟩ := id hc
    refine ⟨⟨fun _ => hc, fun _ => ⟨_, chain_ok L g x tj hn hfs hx, by simp⟩⟩, ?_⟩
    rw [chain_of_spline L hL g x tj hn hfs hx _ (hL' g.n (1 / g.fs) _ hn (one_div_pos.mpr hfs)), chain_ok L' g x tj hn hfs hx]
  · have hbad : ∀ L, g.jitterChain L x tj = .error .valueError := by
      intro L
      unfold Gen.jitterChain
      rw [if_pos]
      by_contra h
      push Not at h
      exact hc h
    refine ⟨⟨?_, fun h => absurd h hc⟩, by rw [hbad, hbad]⟩
    rintro ⟨out, h, _⟩
    rw [hbad] at h
    cases h

/-- **C142 (no jitter).** Without time errors the record comes back unchanged. -/
theorem C142_zero (L : SplineLib) (hL : IsSplineLib L) (g : Gen) (x : List ℝ) (hn : 2 ≤ g.n) (hfs : 0 < g.fs) (hx : x.length = g.n) :
    g.jitterChain L x (fun _ => 0) = .ok x := by
  have hs := hL g.n (1 / g.fs) (fun k => x.getD k 0) hn (one_div_pos.mpr hfs)
  rw [chain_ok L g x _ hn hfs hx]
  congr 1
  apply List.ext_getElem
  · simp [hx]
  · intro i h1 h2
    rw [List.getElem_map, List.getElem_range]
    have hi : i < g.n := by omega
    have hg : x.getD i 0 = x[i] := by
      rw [List.getD_eq_getElem?_getD, List.getElem?_eq_getElem h2]
      rfl
    rw [← hg]
    unfold splineAt Gen.t
    rw [add_zero, div_mul_cancel₀ _ hfs.ne', show ((i : ℕ) : ℝ) = ((i : ℤ) : ℝ) by push_cast; rfl, Int.floor_intCast, Int.toNat_natCast]
    simp only
    by_cases hl : i + 1 < g.n
    · rw [min_eq_left (by omega)]
      push_cast
      rw [sub_self]
      exact hs.left i hl
    · rw [min_eq_right (by omega)]
      have := hs.right (g.n - 2) (by omega)
      rw [show g.n - 2 + 1 = i by omega] at this
      rw [← this]
      congr 1
      rw [Nat.cast_sub hn, show i = g.n - 1 by omega]
      push_cast
      rw [Nat.cast_sub (by omega)]
      push_cast
      ring

/-- **C142 (superposition).** For the same time errors the result for a combination of records is the combination of the results: what an earlier
stage added is carried through on its own. -/
theorem C142_linear (L : SplineLib) (hL : IsSplineLib L) (g : Gen) (hn : 2 ≤ g.n) (hfs : 0 < g.fs) (x y : ℕ → ℝ) (α β : ℝ) (tj : ℕ → ℝ) :
    ∃ u v : ℕ → ℝ, g.jitterChain L ((List.range g.n).map x) tj = .ok ((List.range g.n).map u) ∧
      g.jitterChain L ((List.range g.n).map y) tj = .ok ((List.range g.n).map v) ∧
      g.jitterChain L ((List.range g.n).map fun i => α * x i + β * y i) tj = .ok ((List.range g.n).map fun i => α * u i + β * v i) := by
  have hh := one_div_pos.mpr hfs
  refine ⟨_, _, chain_ok L g _ tj hn hfs (by simp), chain_ok L g _ tj hn hfs (by simp), ?_⟩
  have hc := spline_comb (hL g.n (1 / g.fs) (fun k => ((List.range g.n).map x).getD k 0) hn hh)
    (hL g.n (1 / g.fs) (fun k => ((List.range g.n).map y).getD k 0) hn hh) α β
  rw [chain_of_spline L hL g _ tj hn hfs (by simp) _ (spline_congr (fun i hi => by
    rw [getD_map_range _ _ _ hi, getD_map_range _ _ _ hi, getD_map_range _ _ _ hi]) hc)]
  congr 2
  funext i
  unfold splineAt Cubic.eval
  simp only
  ring

/-- **C142 (cubic signals).** A record of a cubic polynomial in time is sampled exactly at the displaced instants, also outside the record. -/
theorem C142_cubic (L : SplineLib) (hL : IsSplineLib L) (g : Gen) (hn : 4 ≤ g.n) (hfs : 0 < g.fs) (q : Cubic) (tj : ℕ → ℝ) :
    g.jitterChain L ((List.range g.n).map fun i => q.eval (g.t i)) tj = .ok ((List.range g.n).map fun i => q.eval (g.t i + tj i)) := by
  set h := 1 / g.fs with hdef
  have hh : 0 < h := one_div_pos.mpr hfs
  have ht : ∀ i, g.t i = i * h := fun i => by unfold Gen.t; rw [hdef]; ring
  let p : ℕ → Cubic := fun i => ⟨q.eval (i * h), q.slope (i * h), q.curv (i * h) / 2, q.d⟩
  have hp : ∀ i v, (p i).eval v = q.eval (i * h + v) := by
    intro i v
    simp only [p]
    unfold Cubic.eval Cubic.slope Cubic.curv
    ring
  have hs : IsCubicSpline g.n h (fun k => ((List.range g.n).map fun i => q.eval (g.t i)).getD k 0) p := by
    refine spline_congr (y := fun i => q.eval (g.t i)) (fun i hi => (getD_map_range g.n (fun i => q.eval (g.t i)) i hi).symm) ⟨?_, ?_, ?_, ?_, ?_, ?_, by omega, by omega⟩
    · intro i _
      rw [hp, ht, add_zero]
    · intro i _
      rw [hp, ht]
      push_cast
      congr 1
      ring
    · intro i _
      simp only [p]
      unfold Cubic.slope Cubic.curv
      push_cast
      ring
    · intro i _
      simp only [p]
      unfold Cubic.curv
      push_cast
      ring
    · intro _ v
      rw [hp, hp]
      congr 1
      push_cast
      ring
    · intro _ v
      rw [hp, hp]
      congr 1
      rw [show g.n - 2 = g.n - 3 + 1 by omega]
      push_cast
      ring
  rw [chain_of_spline L hL g _ tj (by omega) hfs (by simp) p hs]
  congr 2
  funext i
  unfold splineAt
  simp only
  rw [hp]
  congr 1
  rw [hdef]
  ring

/-! ## Size -/

private theorem cubicOf_curv (h : ℝ) (hh : 0 < h) (y M : ℕ → ℝ) (i : ℕ) (v : ℝ) : (cubicOf h y M i).curv v = M i * (1 - v / h) + M (i + 1) * (v / h) := by
  unfold Cubic.curv cubicOf
  field_simp
  ring

private theorem mix_le (a b w B : ℝ) (ha : |a| ≤ B) (hb : |b| ≤ B) (h0 : 0 ≤ w) (h1 : w ≤ 1) : |a * (1 - w) + b * w| ≤ B := by
  have e1 := abs_add_le (a * (1 - w)) (b * w)
  rw [abs_mul, abs_mul, abs_of_nonneg h0, abs_of_nonneg (by linarith : 0 ≤ 1 - w)] at e1
  have e2 := mul_le_mul_of_nonneg_right ha (by linarith : 0 ≤ 1 - w)
  have e3 := mul_le_mul_of_nonneg_right hb h0
  linarith

private theorem parabola_le (h v : ℝ) (hv : v ∈ Set.Icc 0 h) : |v * (v - h)| ≤ h ^ 2 / 4 := by
  obtain ⟨h0, h1⟩ := hv
  rw [abs_of_nonpos (mul_nonpos_of_nonneg_of_nonpos h0 (by linarith))]
  nlinarith [sq_nonneg (v - h / 2)]

private theorem inside_bounded {n : ℕ} {h : ℝ} (hh : 0 < h) (hn : 2 ≤ n) {y : ℕ → ℝ} {p : ℕ → Cubic} (hs : IsCubicSpline n h y p) (m : ℝ)
    (hm : ∀ i < n, |y i| ≤ m) (j : ℕ) (hj : j + 1 < n) (v : ℝ) (hv : v ∈ Set.Icc 0 h) : |(p j).eval v| ≤ 7 / 2 * m := by
  have hm0 : 0 ≤ m := (abs_nonneg _).trans (hm 0 (by omega))
  have hw0 : 0 ≤ v / h := div_nonneg hv.1 hh.le
  have hw1 : v / h ≤ 1 := (div_le_one hh).mpr hv.2
  have hM := moment_le hh hs hn (4 * m / h ^ 2) (by positivity) (fun i hi => by
    rw [abs_div, abs_of_pos (by positivity : 0 < h ^ 2)]
    apply div_le_div_of_nonneg_right _ (by positivity)
    have a1 := abs_le.mp (hm i (by omega))
    have a2 := abs_le.mp (hm (i + 1) (by omega))
    have a3 := abs_le.mp (hm (i + 2) (by omega))
    rw [abs_le]
    constructor <;> linarith)
  have hc := spline_cubicOf hh hs j hj
  have key := chord_bound (fun v => (p j).eval v - (y j * (1 - v / h) + y (j + 1) * (v / h))) (fun v => (p j).slope v - (y (j + 1) - y j) / h)
    (fun v => (p j).curv v) (fun v => by
      have h1 : HasDerivAt (fun v : ℝ => y j * (1 - v / h) + y (j + 1) * (v / h)) (y j * -(1 / h) + y (j + 1) * (1 / h)) v :=
        ((((hasDerivAt_id' v).div_const h).const_sub 1).const_mul (y j)).add (((hasDerivAt_id' v).div_const h).const_mul (y (j + 1)))
      exact ((cubic_eval_deriv (p j) v).sub h1).congr_deriv (by ring))
    (fun v => (cubic_slope_deriv (p j) v).sub_const _) h 0 h (5 * (4 * m / h ^ 2)) hh le_rfl le_rfl
    (by simp [hs.left j hj]) (by simp [hs.right j hj, hh.ne']) (by
      intro v hv
      rw [hc, cubicOf_curv h hh]
      exact mix_le _ _ _ _ (hM j (by omega)) (hM (j + 1) hj) (div_nonneg hv.1 hh.le) ((div_le_one hh).mpr hv.2)) v hv
  have k2 : 5 * (4 * m / h ^ 2) / 2 * |v * (v - h)| ≤ 5 / 2 * m := by
    have := mul_le_mul_of_nonneg_left (parabola_le h v hv) (by positivity : 0 ≤ 5 * (4 * m / h ^ 2) / 2)
    refine this.trans (le_of_eq ?_)
    field_simp
  have k3 := mix_le (y j) (y (j + 1)) (v / h) m (hm j (by omega)) (hm (j + 1) hj) hw0 hw1
  have k4 := abs_add_le ((p j).eval v - (y j * (1 - v / h) + y (j + 1) * (v / h))) (y j * (1 - v / h) + y (j + 1) * (v / h))
  rw [sub_add_cancel] at k4
  linarith

/-- **C142 (size).** Inside the record no value exceeds 3.5 times the largest sample. -/
theorem C142_bounded (L : SplineLib) (hL : IsSplineLib L) (g : Gen) (hn : 2 ≤ g.n) (hfs : 0 < g.fs) (x : ℕ → ℝ) (m : ℝ) (hm : ∀ i < g.n, |x i| ≤ m)
    (tj : ℕ → ℝ) : ∃ u : ℕ → ℝ, g.jitterChain L ((List.range g.n).map x) tj = .ok ((List.range g.n).map u) ∧
      ∀ i < g.n, 0 ≤ g.t i + tj i → g.t i + tj i ≤ g.t (g.n - 1) → |u i| ≤ 7 / 2 * m := by
  have hh := one_div_pos.mpr hfs
  refine ⟨_, chain_ok L g _ tj hn hfs (by simp), ?_⟩
  intro i hi h0 h1
  have ht : g.t (g.n - 1) = ((g.n : ℝ) - 1) / g.fs := by
    unfold Gen.t
    rw [Nat.cast_sub (by omega)]
    push_cast
    rfl
  obtain ⟨j, v, hj, hv, _, he⟩ := interval_inside g.n hn g.fs hfs (L g.n (1 / g.fs) fun k => ((List.range g.n).map x).getD k 0) _ h0 (by rw [← ht]; exact h1)
  rw [he]
  exact inside_bounded hh hn (hL g.n (1 / g.fs) _ hn hh) m (fun k hk => by rw [getD_map_range _ _ _ hk]; exact hm k hk) j hj v hv

/-! ## Sines -/

private theorem cos_bounds (θ : ℝ) (h0 : 0 ≤ θ) (h1 : θ ≤ Real.pi) : 1 - θ ^ 2 / 2 ≤ Real.cos θ ∧ Real.cos θ ≤ 1 - θ ^ 2 / 2 + θ ^ 4 / 24 := by
  refine ⟨Real.one_sub_sq_div_two_le_cos, ?_⟩
  have hs := Real.sin_ge_sub_cube (x := θ / 2) (by linarith)
  have hpi := Real.pi_lt_four
  have hc := Real.cos_two_mul (θ / 2)
  have hsq := Real.sin_sq_add_cos_sq (θ / 2)
  rw [show 2 * (θ / 2) = θ by ring] at hc
  have hpos : 0 ≤ θ / 2 - (θ / 2) ^ 3 / 6 := by
    have : (θ / 2) ^ 2 ≤ 4 := by nlinarith
    nlinarith
  have h2 := pow_le_pow_left₀ hpos hs 2
  have h3 : (θ / 2 - (θ / 2) ^ 3 / 6) ^ 2 = θ ^ 2 / 4 - θ ^ 4 / 48 + θ ^ 6 / 2304 := by ring
  have h4 : 0 ≤ θ ^ 6 := by positivity
  linarith

/-- Error of the second derivatives at the knots, for a sine of amplitude `A` and angle `θ` per sample. -/
private theorem sine_moments {n : ℕ} {h : ℝ} (hh : 0 < h) (hn : 4 ≤ n) (A θ D : ℝ) (h0 : 0 ≤ θ) (h1 : θ ≤ Real.pi) {p : ℕ → Cubic}
    (hs : IsCubicSpline n h (fun i => A * Real.sin (θ * i) + D) p) (K : ℝ) (hK : K = |A| * θ ^ 4 / h ^ 2) :
    (∀ i < n, |moment n h p i + (θ / h) ^ 2 * (A * Real.sin (θ * i))| ≤ 5 / 3 * K) ∧
    |moment n h p 1 + (θ / h) ^ 2 * (A * Real.sin (θ * (1 : ℕ)))| ≤ K / 12 ∧
    |moment n h p (n - 2) + (θ / h) ^ 2 * (A * Real.sin (θ * (n - 2 : ℕ)))| ≤ K / 12 := by
  obtain ⟨c1, c2⟩ := cos_bounds θ h0 h1
  have hpi := Real.pi_lt_d2
  have hθ2 : θ ^ 2 ≤ 18 := by nlinarith
  have hθ4 : 0 ≤ θ ^ 4 := by positivity
  have hK0 : 0 ≤ K := by rw [hK]; positivity
  set E : ℕ → ℝ := fun i => moment n h p i + (θ / h) ^ 2 * (A * Real.sin (θ * i)) with hE
  have hrec : ∀ i : ℕ, Real.sin (θ * (i + 2 : ℕ)) + Real.sin (θ * i) = 2 * Real.cos θ * Real.sin (θ * (i + 1 : ℕ)) := by
    intro i
    have e1 : θ * (i + 2 : ℕ) = θ * (i + 1 : ℕ) + θ := by push_cast; ring
    have e2 : θ * (i : ℕ) = θ * (i + 1 : ℕ) - θ := by push_cast; ring
    rw [e1, e2, Real.sin_add, Real.sin_sub]
    ring
  have hdiff : ∀ i : ℕ, ((A * Real.sin (θ * (i + 2 : ℕ)) + D) - 2 * (A * Real.sin (θ * (i + 1 : ℕ)) + D) + (A * Real.sin (θ * i) + D)) / h ^ 2
      = A * Real.sin (θ * (i + 1 : ℕ)) / h ^ 2 * (2 * Real.cos θ - 2) := by
    intro i
    have := hrec i
    have e : (A * Real.sin (θ * (i + 2 : ℕ)) + D) - 2 * (A * Real.sin (θ * (i + 1 : ℕ)) + D) + (A * Real.sin (θ * i) + D)
        = A * (Real.sin (θ * (i + 2 : ℕ)) + Real.sin (θ * i)) - 2 * A * Real.sin (θ * (i + 1 : ℕ)) := by ring
    rw [e, this]
    ring
  have scale : ∀ (i : ℕ) (q c : ℝ), |q| ≤ c * θ ^ 4 → |A * Real.sin (θ * i) / h ^ 2 * q| ≤ c * K := by
    intro i q c hq
    have hc : 0 ≤ c * θ ^ 4 := (abs_nonneg _).trans hq
    rw [abs_mul, abs_div, abs_mul, abs_of_pos (by positivity : 0 < h ^ 2), hK]
    have hsn := Real.abs_sin_le_one (θ * i)
    have : |A| * |Real.sin (θ * i)| / h ^ 2 ≤ |A| / h ^ 2 := by
      apply div_le_div_of_nonneg_right _ (by positivity)
      nlinarith [abs_nonneg A]
    have := mul_le_mul this hq (abs_nonneg _) (by positivity)
    refine this.trans (le_of_eq ?_)
    ring
  have b1 : |θ ^ 2 - 2 + 2 * Real.cos θ| ≤ 1 / 12 * θ ^ 4 := by
    rw [abs_le]
    constructor <;> linarith
  have b2 : |4 * θ ^ 2 - 12 + (2 * θ ^ 2 + 12) * Real.cos θ| ≤ 1 * θ ^ 4 := by
    have m1 := mul_le_mul_of_nonneg_left c1 (by positivity : 0 ≤ 2 * θ ^ 2 + 12)
    have m2 := mul_le_mul_of_nonneg_left c2 (by positivity : 0 ≤ 2 * θ ^ 2 + 12)
    have m3 := mul_le_mul_of_nonneg_right hθ2 hθ4
    rw [abs_le]
    constructor <;> nlinarith
  have b3 : |θ ^ 2 * (2 * Real.cos θ - 2)| ≤ 1 * θ ^ 4 := by
    have := Real.cos_le_one θ
    rw [abs_le]
    constructor
    · have := mul_le_mul_of_nonneg_left c1 (sq_nonneg θ)
      nlinarith
    · have := mul_le_mul_of_nonneg_left (Real.cos_le_one θ) (sq_nonneg θ)
      nlinarith
  have q1 := spline_start hh hs (by omega)
  have q2 := spline_stop hh hs (by omega)
  have sys := fun i hi => (spline_system hh hs i hi).trans (congrArg _ (hdiff i))
  have s1 := sys 0 (by omega)
  have s2 := sys (n - 3) (by omega)
  rw [show n - 3 + 1 = n - 2 by omega, show n - 3 + 2 = n - 1 by omega] at s2
  rw [show 0 + 1 = 1 from rfl, show 0 + 2 = 2 from rfl] at s1
  have hw : ∀ i : ℕ, (θ / h) ^ 2 * (A * Real.sin (θ * i)) = A * Real.sin (θ * i) / h ^ 2 * θ ^ 2 := fun i => by ring
  have e1 : |E 1| ≤ 1 / 12 * K := by
    have : E 1 = A * Real.sin (θ * (1 : ℕ)) / h ^ 2 * (θ ^ 2 - 2 + 2 * Real.cos θ) := by
      rw [hE]
      simp only
      rw [hw, show moment n h p 1 = A * Real.sin (θ * (1 : ℕ)) / h ^ 2 * (2 * Real.cos θ - 2) by linarith]
      ring
    rw [this]
    exact scale _ _ _ b1
  have e2 : |E (n - 2)| ≤ 1 / 12 * K := by
    have : E (n - 2) = A * Real.sin (θ * (n - 2 : ℕ)) / h ^ 2 * (θ ^ 2 - 2 + 2 * Real.cos θ) := by
      rw [hE]
      simp only
      rw [hw, show moment n h p (n - 2) = A * Real.sin (θ * (n - 2 : ℕ)) / h ^ 2 * (2 * Real.cos θ - 2) by linarith]
      ring
    rw [this]
    exact scale _ _ _ b1
  have comb : ∀ i : ℕ, A * Real.sin (θ * (i + 2 : ℕ)) = 2 * Real.cos θ * (A * Real.sin (θ * (i + 1 : ℕ))) - A * Real.sin (θ * i) := by
    intro i
    have := hrec i
    have e : Real.sin (θ * (i + 2 : ℕ)) = 2 * Real.cos θ * Real.sin (θ * (i + 1 : ℕ)) - Real.sin (θ * i) := by linarith
    rw [e]
    ring
  have hmid : ∀ i, 2 ≤ i → i + 3 ≤ n → |E (i - 1) + 4 * E i + E (i + 1)| ≤ K := by
    intro i i1 i2
    have := sys (i - 1) (by omega)
    have hcb := comb (i - 1)
    rw [show i - 1 + 1 = i by omega, show i - 1 + 2 = i + 1 by omega] at this hcb
    have e : E (i - 1) + 4 * E i + E (i + 1) = A * Real.sin (θ * i) / h ^ 2 * (4 * θ ^ 2 - 12 + (2 * θ ^ 2 + 12) * Real.cos θ) := by
      rw [hE]
      simp only
      rw [hcb]
      have r : moment n h p (i - 1) + (θ / h) ^ 2 * (A * Real.sin (θ * (i - 1 : ℕ))) + 4 * (moment n h p i + (θ / h) ^ 2 * (A * Real.sin (θ * i)))
          + (moment n h p (i + 1) + (θ / h) ^ 2 * (2 * Real.cos θ * (A * Real.sin (θ * i)) - A * Real.sin (θ * (i - 1 : ℕ))))
          = (moment n h p (i - 1) + 4 * moment n h p i + moment n h p (i + 1)) + (4 + 2 * Real.cos θ) * ((θ / h) ^ 2 * (A * Real.sin (θ * i))) := by ring
      rw [r, this, hw]
      ring
    rw [e]
    have := scale i _ _ b2
    rwa [one_mul] at this
  have key := dominance n E K (by linarith) (by linarith) hmid
  refine ⟨?_, (show |E 1| ≤ K / 12 by linarith), (show |E (n - 2)| ≤ K / 12 by linarith)⟩
  intro i hi
  show |E i| ≤ _
  by_cases i0 : i = 0
  · rw [i0]
    have k2 := key 2 (by omega) (by omega)
    have hcb := comb 0
    rw [show 0 + 1 = 1 from rfl, show 0 + 2 = 2 from rfl] at hcb
    have e : E 0 = 2 * E 1 - E 2 + A * Real.sin (θ * (1 : ℕ)) / h ^ 2 * (θ ^ 2 * (2 * Real.cos θ - 2)) := by
      rw [hE]
      simp only
      rw [hcb, show moment n h p 0 = 2 * moment n h p 1 - moment n h p 2 by linarith]
      ring
    have k3 := scale 1 _ _ b3
    rw [e]
    rw [abs_le] at e1 k2 k3 ⊢
    constructor <;> linarith
  by_cases i1 : i = n - 1
  · rw [i1]
    have k2 := key (n - 3) (by omega) (by omega)
    have hcb := comb (n - 3)
    rw [show n - 3 + 1 = n - 2 by omega, show n - 3 + 2 = n - 1 by omega] at hcb
    have e : E (n - 1) = 2 * E (n - 2) - E (n - 3) + A * Real.sin (θ * (n - 2 : ℕ)) / h ^ 2 * (θ ^ 2 * (2 * Real.cos θ - 2)) := by
      rw [hE]
      simp only
      rw [hcb, show moment n h p (n - 1) = 2 * moment n h p (n - 2) - moment n h p (n - 3) by linarith]
      ring
    have k3 := scale (n - 2) _ _ b3
    rw [e]
    rw [abs_le] at e2 k2 k3 ⊢
    constructor <;> linarith
  · have := key i (by omega) (by omega)
    linarith

/-- Error on one interval and its surroundings. -/
private theorem segment_error {n : ℕ} {h : ℝ} (hh : 0 < h) (A θ D : ℝ) {p : ℕ → Cubic}
    (hs : IsCubicSpline n h (fun i => A * Real.sin (θ * i) + D) p) (j : ℕ) (hj : j + 1 < n) (lo hi B : ℝ) (hlo : lo ≤ 0) (hhi : h ≤ hi)
    (hB : ∀ v ∈ Set.Icc lo hi, |(moment n h p j + (θ / h) ^ 2 * (A * Real.sin (θ * j))) * (1 - v / h)
      + (moment n h p (j + 1) + (θ / h) ^ 2 * (A * Real.sin (θ * (j + 1 : ℕ)))) * (v / h)| + |A| * (θ / h) ^ 4 / 2 * |v * (v - h)| ≤ B)
    (v : ℝ) (hv : v ∈ Set.Icc lo hi) : |(p j).eval v - (A * Real.sin (θ / h * (j * h + v)) + D)| ≤ B / 2 * |v * (v - h)| := by
  have hat0 : θ / h * (j * h + 0) = θ * j := by field_simp; ring
  have hath : θ / h * (j * h + h) = θ * (j + 1 : ℕ) := by push_cast; field_simp
  have dlin : ∀ v, HasDerivAt (fun v : ℝ => θ / h * (j * h + v)) (θ / h) v := fun v =>
    (((hasDerivAt_id' v).const_add (j * h)).const_mul (θ / h)).congr_deriv (by ring)
  have dsin : ∀ v, HasDerivAt (fun v : ℝ => Real.sin (θ / h * (j * h + v))) (Real.cos (θ / h * (j * h + v)) * (θ / h)) v := fun v => (dlin v).sin
  have dcos : ∀ v, HasDerivAt (fun v : ℝ => Real.cos (θ / h * (j * h + v))) (-Real.sin (θ / h * (j * h + v)) * (θ / h)) v := fun v => (dlin v).cos
  have hc := spline_cubicOf hh hs j hj
  -- the second derivative of the sine against its chord
  have q := fun v hv => chord_bound (fun v => (θ / h) ^ 2 * (A * Real.sin (θ / h * (j * h + v)))
      - ((θ / h) ^ 2 * (A * Real.sin (θ * j)) * (1 - v / h) + (θ / h) ^ 2 * (A * Real.sin (θ * (j + 1 : ℕ))) * (v / h)))
    (fun v => (θ / h) ^ 2 * (A * (Real.cos (θ / h * (j * h + v)) * (θ / h)))
      - ((θ / h) ^ 2 * (A * Real.sin (θ * (j + 1 : ℕ))) - (θ / h) ^ 2 * (A * Real.sin (θ * j))) / h)
    (fun v => (θ / h) ^ 2 * (A * (-Real.sin (θ / h * (j * h + v)) * (θ / h) * (θ / h))))
    (fun v => by
      have h1 : HasDerivAt (fun v : ℝ => (θ / h) ^ 2 * (A * Real.sin (θ * j)) * (1 - v / h) + (θ / h) ^ 2 * (A * Real.sin (θ * (j + 1 : ℕ))) * (v / h))
          ((θ / h) ^ 2 * (A * Real.sin (θ * j)) * -(1 / h) + (θ / h) ^ 2 * (A * Real.sin (θ * (j + 1 : ℕ))) * (1 / h)) v :=
        ((((hasDerivAt_id' v).div_const h).const_sub 1).const_mul _).add (((hasDerivAt_id' v).div_const h).const_mul _)
      exact ((((dsin v).const_mul A).const_mul ((θ / h) ^ 2)).sub h1).congr_deriv (by ring))
    (fun v => (((((dcos v).mul_const (θ / h)).const_mul A).const_mul ((θ / h) ^ 2)).sub_const _))
    h lo hi (|A| * (θ / h) ^ 4) hh hlo hhi (by rw [hat0]; simp) (by rw [hath, div_self hh.ne']; ring) (by
      intro v _
      rw [show (θ / h) ^ 2 * (A * (-Real.sin (θ / h * (j * h + v)) * (θ / h) * (θ / h))) = A * (θ / h) ^ 4 * -Real.sin (θ / h * (j * h + v)) by ring,
        abs_mul, abs_mul, abs_neg, abs_of_nonneg (by positivity : 0 ≤ (θ / h) ^ 4)]
      have := Real.abs_sin_le_one (θ / h * (j * h + v))
      exact mul_le_of_le_one_right (by positivity) this) v hv
  refine chord_bound (fun v => (p j).eval v - (A * Real.sin (θ / h * (j * h + v)) + D)) (fun v => (p j).slope v - A * (Real.cos (θ / h * (j * h + v)) * (θ / h)))
    (fun v => (p j).curv v - A * (-Real.sin (θ / h * (j * h + v)) * (θ / h) * (θ / h)))
    (fun v => (cubic_eval_deriv (p j) v).sub (((dsin v).const_mul A).add_const D))
    (fun v => (cubic_slope_deriv (p j) v).sub (((dcos v).mul_const (θ / h)).const_mul A)) h lo hi B hh hlo hhi
    (by rw [hs.left j hj, hat0]; ring) (by rw [hs.right j hj, hath]; ring) ?_ v hv
  intro v hv
  have k1 := hB v hv
  have k2 := q v hv
  have hcv : (p j).curv v = moment n h p j * (1 - v / h) + moment n h p (j + 1) * (v / h) := by
    conv_lhs => rw [hc]
    exact cubicOf_curv h hh _ _ _ _
  rw [hcv]
  refine le_trans ?_ k1
  refine le_trans ?_ (add_le_add_right k2 _)
  refine le_trans (le_of_eq ?_) (abs_add_le _ _)
  congr 1
  ring

/-- **C142 (the two ways to jitter a sine).** A record that is within `m` of the clean sine, jittered as a record, is close to the sine evaluated at the
displaced instants: with `θ = 2π Fin / Fs` the angle per sample, the distance is at most `a θ⁴ / 4 + 3.5 m` for instants inside the record, and for the
clean record at most `5 a θ⁴` for every time error up to one sample. -/
theorem C142_paths_agree (L : SplineLib) (hL : IsSplineLib L) (g : Gen) (hn : 4 ≤ g.n) (hfs : 0 < g.fs) (hf0 : 0 ≤ g.fin) (hf1 : 2 * g.fin ≤ g.fs)
    (x : ℕ → ℝ) (m : ℝ) (hm : ∀ i < g.n, |x i - g.base i| ≤ m) (tj : ℕ → ℝ) :
    ∃ u : ℕ → ℝ, g.jitterChain L ((List.range g.n).map x) tj = .ok ((List.range g.n).map u) ∧
      (∀ i < g.n, 0 ≤ g.t i + tj i → g.t i + tj i ≤ g.t (g.n - 1) → |u i - g.jitter tj i| ≤ |g.a| * (2 * Real.pi * g.fin / g.fs) ^ 4 / 4 + 7 / 2 * m) ∧
      (m = 0 → ∀ i < g.n, |tj i| ≤ 1 / g.fs → |u i - g.jitter tj i| ≤ 5 * |g.a| * (2 * Real.pi * g.fin / g.fs) ^ 4) := by
  set θ := 2 * Real.pi * g.fin / g.fs with hθ
  set h := 1 / g.fs with hdef
  have hh : 0 < h := one_div_pos.mpr hfs
  have h0 : 0 ≤ θ := by have := Real.pi_pos; positivity
  have h1 : θ ≤ Real.pi := by
    rw [hθ, div_le_iff₀ hfs]
    have := mul_le_mul_of_nonneg_left hf1 Real.pi_pos.le
    linarith
  have hbase : ∀ i, g.base i = g.a * Real.sin (θ * i) + g.dc := by
    intro i
    unfold Gen.base Gen.t
    rw [show 2 * Real.pi * g.fin * (i / g.fs) = θ * i by rw [hθ]; ring]
  have hθh : θ / h = 2 * Real.pi * g.fin := by rw [hθ, hdef]; field_simp
  have hθ4 : 0 ≤ θ ^ 4 := by positivity
  -- the clean record
  obtain ⟨p, hp⟩ := exists_spline g.n h (fun i => g.a * Real.sin (θ * i) + g.dc) (by omega) hh
  obtain ⟨K, hK⟩ : ∃ K, K = |g.a| * θ ^ 4 / h ^ 2 := ⟨_, rfl⟩
  have hK0 : 0 ≤ K := by rw [hK]; positivity
  obtain ⟨e1, e2, e3⟩ := sine_moments hh hn g.a θ g.dc h0 h1 hp K hK
  have hAK : |g.a| * (θ / h) ^ 4 = K / h ^ 2 := by rw [hK]; field_simp
  have hKh : K * h ^ 2 = |g.a| * θ ^ 4 := by rw [hK]; field_simp
  have ht : g.t (g.n - 1) = ((g.n : ℝ) - 1) / g.fs := by
    unfold Gen.t
    rw [Nat.cast_sub (by omega)]
    push_cast
    rfl
  have inside : ∀ x, 0 ≤ x → x ≤ ((g.n : ℝ) - 1) / g.fs →
      |splineAt g.n g.fs p x - (g.a * Real.sin (2 * Real.pi * g.fin * x) + g.dc)| ≤ |g.a| * θ ^ 4 / 4 := by
    intro x hx0 hx1
    obtain ⟨j, v, hj, hv, hxe, he⟩ := interval_inside g.n (by omega) g.fs hfs p x hx0 hx1
    rw [he, hxe, ← hθh]
    refine (segment_error hh g.a θ g.dc hp j hj 0 h (2 * K) le_rfl le_rfl ?_ v hv).trans ?_
    · intro v hv
      have m1 := mix_le _ _ (v / h) _ (e1 j (by omega)) (e1 (j + 1) hj) (div_nonneg hv.1 hh.le) ((div_le_one hh).mpr hv.2)
      have m2 := mul_le_mul_of_nonneg_left (parabola_le h v hv) (by positivity : 0 ≤ K / h ^ 2 / 2)
      rw [hAK]
      have m3 : K / h ^ 2 / 2 * (h ^ 2 / 4) = K / 8 := by field_simp; ring
      linarith
    · have := mul_le_mul_of_nonneg_left (parabola_le h v hv) (by positivity : 0 ≤ 2 * K / 2)
      linarith
  have before : ∀ x, -h ≤ x → x < 0 → |splineAt g.n g.fs p x - (g.a * Real.sin (2 * Real.pi * g.fin * x) + g.dc)| ≤ 5 * |g.a| * θ ^ 4 := by
    intro x hx0 hx1
    rw [interval_before g.n g.fs hfs p x hx1, ← hθh]
    have hpar : ∀ v ∈ Set.Icc (-h) h, |v * (v - h)| ≤ 2 * h ^ 2 := by
      intro v hv
      rw [abs_le]
      constructor <;> nlinarith [hv.1, hv.2, sq_nonneg (v - h), sq_nonneg v]
    have := segment_error hh g.a θ g.dc hp 0 (by omega) (-h) h (5 * K) (by linarith) le_rfl ?_ x ⟨hx0, by linarith⟩
    · rw [Nat.cast_zero, zero_mul, zero_add] at this
      refine this.trans ?_
      have := mul_le_mul_of_nonneg_left (hpar x ⟨hx0, by linarith⟩) (by positivity : 0 ≤ 5 * K / 2)
      linarith
    · intro v hv
      have w0 : |1 - v / h| ≤ 2 := by
        have a1 : -1 ≤ v / h := by rw [le_div_iff₀ hh]; linarith [hv.1]
        have a2 : v / h ≤ 1 := (div_le_one hh).mpr hv.2
        rw [abs_le]
        constructor <;> linarith
      have w1 : |v / h| ≤ 1 := by
        rw [abs_div, abs_of_pos hh, div_le_one hh, abs_le]
        exact ⟨hv.1, hv.2⟩
      have m2 := mul_le_mul_of_nonneg_left (hpar v hv) (by positivity : 0 ≤ K / h ^ 2 / 2)
      have m3 : K / h ^ 2 / 2 * (2 * h ^ 2) = K := by field_simp
      have m4 := abs_add_le ((moment g.n h p 0 + (θ / h) ^ 2 * (g.a * Real.sin (θ * (0 : ℕ)))) * (1 - v / h))
        ((moment g.n h p (0 + 1) + (θ / h) ^ 2 * (g.a * Real.sin (θ * (0 + 1 : ℕ)))) * (v / h))
      rw [abs_mul, abs_mul] at m4
      have m5 := mul_le_mul (e1 0 (by omega)) w0 (abs_nonneg _) (by positivity)
      have m6 := mul_le_mul e2 w1 (abs_nonneg _) (by positivity)
      rw [hAK]
      rw [show (0 : ℕ) + 1 = 1 from rfl] at m4 ⊢
      linarith
  have after : ∀ x, ((g.n : ℝ) - 1) / g.fs < x → x ≤ ((g.n : ℝ) - 1) / g.fs + h →
      |splineAt g.n g.fs p x - (g.a * Real.sin (2 * Real.pi * g.fin * x) + g.dc)| ≤ 5 * |g.a| * θ ^ 4 := by
    intro x hx0 hx1
    rw [interval_after g.n (by omega) g.fs hfs p x hx0, ← hθh]
    have hc : ((g.n : ℝ) - 1) / g.fs = ((g.n - 2 : ℕ) : ℝ) * h + h := by
      rw [Nat.cast_sub (by omega), hdef]
      push_cast
      ring
    rw [hc] at hx0 hx1
    obtain ⟨v, hv⟩ : ∃ v, v = x - ((g.n - 2 : ℕ) : ℝ) * (1 / g.fs) := ⟨_, rfl⟩
    have hxv : x = ((g.n - 2 : ℕ) : ℝ) * h + v := by rw [hv]; ring
    have v0 : h < v := by linarith
    have v1 : v ≤ 2 * h := by linarith
    have hpar : ∀ v ∈ Set.Icc 0 (2 * h), |v * (v - h)| ≤ 2 * h ^ 2 := by
      intro v hv
      rw [abs_le]
      constructor <;> nlinarith [hv.1, hv.2, sq_nonneg (v - h), sq_nonneg v]
    rw [← hv, hxv]
    refine (segment_error hh g.a θ g.dc hp (g.n - 2) (by omega) 0 (2 * h) (5 * K) le_rfl (by linarith) ?_ v ⟨by linarith, v1⟩).trans ?_
    · intro v hv
      have w0 : |1 - v / h| ≤ 1 := by
        have a1 : 0 ≤ v / h := div_nonneg hv.1 hh.le
        have a2 : v / h ≤ 2 := by rw [div_le_iff₀ hh]; exact hv.2
        rw [abs_le]
        constructor <;> linarith
      have w1 : |v / h| ≤ 2 := by
        rw [abs_of_nonneg (div_nonneg hv.1 hh.le), div_le_iff₀ hh]
        exact hv.2
      have m2 := mul_le_mul_of_nonneg_left (hpar v hv) (by positivity : 0 ≤ K / h ^ 2 / 2)
      have m3 : K / h ^ 2 / 2 * (2 * h ^ 2) = K := by field_simp
      have m4 := abs_add_le ((moment g.n h p (g.n - 2) + (θ / h) ^ 2 * (g.a * Real.sin (θ * (g.n - 2 : ℕ)))) * (1 - v / h))
        ((moment g.n h p (g.n - 2 + 1) + (θ / h) ^ 2 * (g.a * Real.sin (θ * (g.n - 2 + 1 : ℕ)))) * (v / h))
      rw [abs_mul, abs_mul] at m4
      have m5 := mul_le_mul e3 w0 (abs_nonneg _) (by positivity)
      have m6 := mul_le_mul (e1 (g.n - 2 + 1) (by omega)) w1 (abs_nonneg _) (by positivity)
      rw [hAK]
      linarith
    · have := mul_le_mul_of_nonneg_left (hpar v ⟨by linarith, v1⟩) (by positivity : 0 ≤ 5 * K / 2)
      linarith
  -- the record with the deviation
  obtain ⟨q, hq⟩ := exists_spline g.n h (fun i => x i - g.base i) (by omega) hh
  have hsum := spline_comb hp hq 1 1
  have hchain := chain_of_spline L hL g ((List.range g.n).map x) tj (by omega) hfs (by simp) _ (spline_congr (fun i hi => by
    rw [getD_map_range _ _ _ hi, hbase]
    ring) hsum)
  have hsplit : ∀ x, splineAt g.n g.fs (fun i => ⟨1 * (p i).a + 1 * (q i).a, 1 * (p i).b + 1 * (q i).b, 1 * (p i).c + 1 * (q i).c, 1 * (p i).d + 1 * (q i).d⟩) x
      = splineAt g.n g.fs p x + splineAt g.n g.fs q x := by
    intro x
    unfold splineAt Cubic.eval
    simp only
    ring
  refine ⟨_, hchain, ?_, ?_⟩
  · intro i hi c0 c1
    rw [hsplit]
    unfold Gen.jitter
    rw [ht] at c1
    have k1 := inside _ c0 c1
    obtain ⟨j, v, hj, hv, _, he⟩ := interval_inside g.n (by omega) g.fs hfs q _ c0 c1
    have k2 := inside_bounded hh (by omega) hq m hm j hj v hv
    rw [← he] at k2
    have k3 := abs_add_le (splineAt g.n g.fs p (g.t i + tj i) - (g.a * Real.sin (2 * Real.pi * g.fin * (g.t i + tj i)) + g.dc)) (splineAt g.n g.fs q (g.t i + tj i))
    rw [show splineAt g.n g.fs p (g.t i + tj i) + splineAt g.n g.fs q (g.t i + tj i) - (g.a * Real.sin (2 * Real.pi * g.fin * (g.t i + tj i)) + g.dc)
      = splineAt g.n g.fs p (g.t i + tj i) - (g.a * Real.sin (2 * Real.pi * g.fin * (g.t i + tj i)) + g.dc) + splineAt g.n g.fs q (g.t i + tj i) by ring]
    linarith
  · intro hm0 i hi hti
    have hq0 : ∀ x, splineAt g.n g.fs q x = 0 := by
      intro x
      have hz : IsCubicSpline g.n h (fun i => x - x) fun _ => ⟨0, 0, 0, 0⟩ := by
        constructor <;> intros <;> simp [Cubic.eval, Cubic.slope, Cubic.curv]
      have hq' := spline_congr (y' := fun i => x - x) (fun i hi => by
        have := hm i hi
        rw [hm0] at this
        rw [abs_nonpos_iff.mp this, sub_self]) hq
      unfold splineAt
      simp only
      rw [spline_unique hh (by omega) hq' hz _ (by omega)]
      simp [Cubic.eval]
    rw [hsplit, hq0, add_zero]
    unfold Gen.jitter
    have hti' := abs_le.mp hti
    have hi0 : 0 ≤ g.t i := by unfold Gen.t; positivity
    have hi1 : g.t i ≤ ((g.n : ℝ) - 1) / g.fs := by
      unfold Gen.t
      apply div_le_div_of_nonneg_right _ hfs.le
      have : ((i + 1 : ℕ) : ℝ) ≤ g.n := by exact_mod_cast hi
      push_cast at this
      linarith
    rcases lt_or_ge (g.t i + tj i) 0 with c | c
    · exact before _ (by linarith) c
    rcases le_or_gt (g.t i + tj i) (((g.n : ℝ) - 1) / g.fs) with c' | c'
    · refine (inside _ c c').trans ?_
      have := mul_nonneg (abs_nonneg g.a) hθ4
      linarith
    · exact after _ c' (by linarith)

/-- **C142 (half the rate), refutation.** At `Fin = Fs / 2` the samples of the clean sine carry no slope: jittering the record returns the offset for every time
error, while the sine evaluated at the displaced instants is off by up to the full amplitude. -/
theorem C142_half_rate_false (L : SplineLib) (hL : IsSplineLib L) (g : Gen) (hn : 4 ≤ g.n) (hfs : 0 < g.fs) (hf : 2 * g.fin = g.fs) :
    (∀ tj, g.jitterChain L ((List.range g.n).map g.base) tj = .ok ((List.range g.n).map fun _ => g.dc)) ∧
    g.jitter (fun _ => 1 / (2 * g.fs)) 0 = g.a + g.dc := by
  have hfin : 0 < g.fin := by linarith
  have hb : g.base = fun i => (Cubic.mk g.dc 0 0 0).eval (g.t i) := by
    funext i
    unfold Gen.base Gen.t Cubic.eval
    rw [show 2 * Real.pi * g.fin * (i / g.fs) = i * Real.pi by rw [← hf]; field_simp, Real.sin_nat_mul_pi]
    ring
  constructor
  · intro tj
    rw [hb, C142_cubic L hL g hn hfs]
    congr 2
    funext i
    unfold Cubic.eval
    ring
  · unfold Gen.jitter Gen.t
    rw [show 2 * Real.pi * g.fin * (((0 : ℕ) : ℝ) / g.fs + 1 / (2 * g.fs)) = Real.pi / 2 by rw [← hf]; field_simp; ring, Real.sin_pi_div_two]
    ring

/-! ## Concrete cases -/

/-- 64 samples at 1 GHz, 1 period, 2 ps: the two ways agree to 0.0005 of the amplitude. -/
example : ∃ L, IsSplineLib L ∧ ∃ u : ℕ → ℝ, (Gen.mk 64 1000000000 (1000000000 / 64) (1 / 2) (1 / 2)).jitterChain L
    ((List.range 64).map (Gen.mk 64 1000000000 (1000000000 / 64) (1 / 2) (1 / 2)).base) (fun _ => 2 / 10 ^ 12) = .ok ((List.range 64).map u) ∧
    ∀ i < 64, |u i - (Gen.mk 64 1000000000 (1000000000 / 64) (1 / 2) (1 / 2)).jitter (fun _ => 2 / 10 ^ 12) i| ≤ 5 * (1 / 2) * (2 * Real.pi / 64) ^ 4 := by
  obtain ⟨L, hL⟩ := exists_splineLib
  obtain ⟨u, h1, _, h3⟩ := C142_paths_agree L hL (Gen.mk 64 1000000000 (1000000000 / 64) (1 / 2) (1 / 2)) (by norm_num) (by norm_num) (by norm_num) (by norm_num)
    _ 0 (fun i _ => by rw [sub_self, abs_zero]) fun _ => 2 / 10 ^ 12
  refine ⟨L, hL, u, h1, ?_⟩
  intro i hi
  have := h3 rfl i hi (by norm_num [abs_of_pos])
  refine this.trans (le_of_eq ?_)
  simp only
  rw [abs_of_pos (by norm_num : (0 : ℝ) < 1 / 2), show 2 * Real.pi * (1000000000 / 64) / 1000000000 = 2 * Real.pi / 64 by ring]

/-- A parabola on four samples, displaced by a tenth of a sample. -/
example : ∃ L, IsSplineLib L ∧ (Gen.mk 4 1 0 0 0).jitterChain L [0, 1, 4, 9] (fun _ => 1 / 10)
    = .ok ((List.range 4).map fun (i : ℕ) => ((i : ℝ) + 1 / 10) ^ 2) := by
  obtain ⟨L, hL⟩ := exists_splineLib
  refine ⟨L, hL, ?_⟩
  have := C142_cubic L hL (Gen.mk 4 1 0 0 0) le_rfl one_pos ⟨0, 0, 1, 0⟩ fun _ => 1 / 10
  have e1 : ((List.range 4).map fun i => (Cubic.mk 0 0 1 0).eval ((Gen.mk 4 1 0 0 0).t i)) = [0, 1, 4, 9] := by
    norm_num [List.range_succ, Cubic.eval, Gen.t]
  rw [e1] at this
  rw [this]
  congr 2
  funext i
  unfold Cubic.eval Gen.t
  ring

/-- One sample is not enough. -/
example (L : SplineLib) : (Gen.mk 1 1 0 0 0).jitterChain L [3] (fun _ => 0) = .error .valueError := by
  unfold Gen.jitterChain
  rw [if_pos (Or.inl (by norm_num))]

end Verif
