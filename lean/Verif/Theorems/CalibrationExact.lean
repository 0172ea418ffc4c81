import Verif.Theorems.Calibration

/-!
# C40: full-rank corollary, the lite variant and a worked case
-/

namespace Verif

open Model Finset

theorem getD_ofFn {n : ℕ} (g : Fin n → ℝ) (j : Fin n) : (List.ofFn g).getD j 0 = g j := by
  rw [List.getD_eq_getElem?_getD]
  simp

theorem split_last (x : List ℝ) (m : ℕ) (hx : x.length = m + 1) : x = x.take m ++ [x.getD m 0] := by
  obtain ⟨y, v, rfl⟩ : ∃ y v, x = y ++ [v] := by
    refine ⟨x.dropLast, x.getLast (by intro h; rw [h] at hx; simp at hx), ?_⟩
    rw [List.dropLast_append_getLast]
  have : m = y.length := by simpa using hx.symm
  subst this
  have := getD_append_right_list y [v] 0 0
  rw [add_zero] at this
  rw [this]
  simp

theorem split_last2 (x : List ℝ) (m : ℕ) (hx : x.length = m + 2) : x = x.take m ++ [x.getD m 0, x.getD (m + 1) 0] := by
  have h1 := split_last x (m + 1) (by omega)
  have h2 := split_last (x.take (m + 1)) m (by rw [List.length_take]; omega)
  rw [List.take_take, min_eq_left (by omega), getD_take_list _ _ _ _ (by omega)] at h2
  conv_lhs => rw [h1, h2]
  simp

/-- Columns that no combination makes constant (other than the zero one) have full rank together with the constant column. -/
theorem rank_full (N : ℕ) (bits : List (ℕ → ℝ))
    (h : ∀ (u : List ℝ) (d : ℝ), u.length = bits.length → (∀ n < N, matVec bits u n = d) → (∀ j < bits.length, u.getD j 0 = 0) ∧ d = 0) :
    bits.length + 1 ≤ rankOf N (bits ++ [fun _ => 1]) := by
  have hli : LinearIndependent ℝ (fun (j : Fin (bits ++ [fun _ => (1 : ℝ)]).length) (n : Fin N) => ((bits ++ [fun _ => 1]).get j) n) := by
    rw [Fintype.linearIndependent_iff]
    intro g hg
    have hl : (bits ++ [fun _ => (1 : ℝ)]).length = bits.length + 1 := by simp
    let x : List ℝ := List.ofFn g
    have hx : ∀ j : Fin (bits ++ [fun _ => (1 : ℝ)]).length, x.getD j 0 = g j := by
      intro j
      exact getD_ofFn g j
    have hz : ∀ n < N, matVec (bits ++ [fun _ => (1 : ℝ)]) x n = 0 := by
      intro n hn
      have := congrFun hg ⟨n, hn⟩
      rw [Finset.sum_apply, Pi.zero_apply] at this
      rw [← this]
      unfold matVec
      rw [← Fin.sum_univ_eq_sum_range (fun (j : ℕ) => x.getD j 0 * ((bits ++ [fun _ => (1 : ℝ)] : List (ℕ → ℝ)).getD j 0) n) (bits ++ [fun _ => (1 : ℝ)] : List (ℕ → ℝ)).length]
      apply sum_congr rfl
      intro j _
      rw [hx j, List.getD_eq_getElem?_getD, List.getElem?_eq_getElem j.2]
      rfl
    have hxl : x.length = bits.length + 1 := by simp [x]
    have hsplit := split_last x bits.length hxl
    obtain ⟨h1, h2⟩ := h (x.take bits.length) (-(x.getD bits.length 0)) (by rw [List.length_take]; omega) (by
      intro n hn
      have := hz n hn
      rw [hsplit, matVec_append' _ _ _ _ _ (by rw [List.length_take]; omega)] at this
      have e : matVec [fun _ => (1 : ℝ)] [x.getD bits.length 0] n = x.getD bits.length 0 := by
        unfold matVec; simp
      rw [e] at this
      linarith)
    intro j
    rw [← hx j]
    by_cases hj : (j : ℕ) < bits.length
    · have := h1 j hj
      rw [getD_take_list _ _ _ _ hj] at this
      exact this
    · have : (j : ℕ) = bits.length := by have := j.2; omega
      rw [this]
      linarith
  rw [linearIndependent_iff_card_le_finrank_span] at hli
  simpa [rankOf] using hli

/-- Patching leaves full-rank data alone. -/
theorem patch_full (N : ℕ) (bits : List (ℕ → ℝ)) (nominal : List ℝ) (h : bits.length + 1 ≤ rankOf N (bits ++ [fun _ => 1])) (w : List ℝ)
    (hw : w.length = bits.length) :
    (patchRank N bits nominal).eff = bits ∧ recoverRank w (patchRank N bits nominal).links = .ok w := by
  unfold patchRank
  rw [if_pos h]
  refine ⟨rfl, ?_⟩
  unfold recoverRank
  rw [if_neg]
  · congr 1
    rw [List.map_map]
    apply list_ext_getD
    · simp [hw]
    · intro j hj
      have hj' : j < bits.length := by simpa using hj
      rw [getD_range_map _ _ _ _ hj']
      simp
  · rintro ⟨l, hl, h2⟩
    obtain ⟨i, hi, rfl⟩ := List.mem_map.mp hl
    rw [List.mem_range] at hi
    simp at h2
    omega

/-- The unique fit of a tone makes the columns and the constant independent. -/
theorem rank_of_onlyFit (N : ℕ) (bits : List (ℕ → ℝ)) (f : ℝ) (H : ℕ) (hH : 0 < H) (w : List ℝ) (c : ℝ) (a b : ℕ → ℝ)
    (hne : a 0 ≠ 0 ∨ b 0 ≠ 0) (honly : OnlyFit N bits f H w c a b) : bits.length + 1 ≤ rankOf N (bits ++ [fun _ => 1]) := by
  apply rank_full
  intro u d hu hd
  obtain ⟨t, h1, h2, h3⟩ := honly u d (fun _ => 0) (fun _ => 0) hu (by
    intro n hn
    rw [hd n hn]
    unfold harmonicSeries
    simp)
  obtain ⟨h4, h5⟩ := h3 0 hH
  have ht : t = 0 := by
    rcases hne with h | h
    · exact (mul_eq_zero.mp h4.symm).resolve_right h
    · exact (mul_eq_zero.mp h5.symm).resolve_right h
  constructor
  · intro j _
    rw [h1, getD_map_list, ht, zero_mul]
  · rw [h2, ht, zero_mul]

/-- **C40 (independent bits).** If the weighted output of the true weights `w` is exactly an offset plus `H` harmonics, and no other
combination of the bit columns is one, then `calibrate_weight_sine` at the known frequency returns `w` up to the common scale
`1 / amplitude` and polarity, the matching offset, and zero error. -/
theorem C40_full_rank (solve : Lstsq) (hs : IsLstsq solve) (est : List ℝ) (segs : List (List (List ℝ))) (f : ℝ) (hf0 : f ≠ 0)
    (hf : f ≤ 1 / 2) (force : Option Bool) (hforce : force ≠ some true) (given : Option (List ℝ)) (H : ℕ) (hH : 0 < H) (lr reltol : ℝ) (maxIter : ℕ)
    (rows : List (List ℝ)) (width : ℕ) (nominal : List ℝ) (hprep : prepareInput segs given = .ok ([rows], width, nominal))
    (w : List ℝ) (hlen : w.length = width) (c : ℝ) (a b : ℕ → ℝ)
    (hclean : ∀ n < rows.length, ∑ j ∈ range width, w.getD j 0 * (rows.getD n []).getD j 0 = harmonicSeries f H c a b n)
    (hne : a 0 ≠ 0 ∨ b 0 ≠ 0)
    (honly : OnlyFit rows.length ((List.range width).map fun (j : ℕ) => fun (n : ℕ) => (rows.getD n []).getD j 0) f H w c a b) :
    ∃ r s, calibrate solve est segs (.scalar f) force given H lr reltol maxIter = .ok r ∧ s ^ 2 * (a 0 ^ 2 + b 0 ^ 2) = 1 ∧
      r.weight = w.map (fun v => s * v) ∧ r.offset = s * c ∧ 0 ≤ r.weight.sum ∧ r.resid = [List.replicate rows.length 0] ∧ r.freq = [f] ∧
      r.snr = [200] := by
  have hr := rank_of_onlyFit _ _ f H hH w c a b hne honly
  obtain ⟨h1, h2⟩ := patch_full _ _ nominal hr w (by simp [hlen])
  exact C40_noise_free solve hs est segs f hf0 hf force hforce given H hH lr reltol maxIter rows width nominal hprep _ rfl _ rfl w w
    (by rw [h1]; simp [hlen]) h2 c a b (fun n hn => by rw [matVec_range]; exact hclean n hn) hne (by rw [h1]; exact honly)

/-- **C40 (lite variant).** `calibrate_weight_sine_lite` recovers the weights up to scale and polarity when the fundamental has a
cosine part (its only reference is the cosine). -/
theorem C40_lite (solve : Lstsq) (hs : IsLstsq solve) (N : ℕ) (bits : List (ℕ → ℝ)) (f : ℝ) (hf : f ≤ 1 / 2) (w : List ℝ)
    (hlen : w.length = bits.length) (c α β : ℝ) (hα : α ≠ 0)
    (hclean : ∀ n < N, matVec bits w n = c + α * Real.cos (2 * Real.pi * f * n) + β * Real.sin (2 * Real.pi * f * n))
    (honly : ∀ (u : List ℝ) (d p q : ℝ), u.length = bits.length →
      (∀ n < N, matVec bits u n = d + p * Real.cos (2 * Real.pi * f * n) + q * Real.sin (2 * Real.pi * f * n)) →
      ∃ t : ℝ, u = w.map (fun v => t * v) ∧ d = t * c ∧ p = t * α ∧ q = t * β) :
    ∃ r s, calibrateLite solve N bits f = .ok r ∧ s ^ 2 * (α ^ 2 + β ^ 2) = 1 ∧ r = w.map (fun v => s * v) ∧ 0 ≤ r.sum := by
  set A := bits ++ [(fun _ => 1), fun (n : ℕ) => Real.sin (2 * Real.pi * f * n)] with hA
  set rhs := fun (n : ℕ) => -Real.cos (2 * Real.pi * f * n) with hrhs
  set x := solve N A rhs with hx
  have hxl : x.length = bits.length + 2 := by rw [hx, hs.len, hA]; simp
  have hval : ∀ (u : List ℝ) (d q : ℝ) (n : ℕ), u.length = bits.length →
      matVec A (u ++ [d, q]) n = matVec bits u n + d + q * Real.sin (2 * Real.pi * f * n) := by
    intro u d q n hu
    rw [hA, matVec_append' _ _ _ _ _ hu]
    have : matVec [(fun _ => (1 : ℝ)), fun (n : ℕ) => Real.sin (2 * Real.pi * f * n)] [d, q] n = d + q * Real.sin (2 * Real.pi * f * n) := by
      unfold matVec; simp [sum_range_succ]
    rw [this]
    ring
  have h0 : residNorm N A x rhs = 0 := by
    apply solve_consistent solve hs N _ _ (w.map (fun v => (-α)⁻¹ * v) ++ [(-α)⁻¹ * -c, (-α)⁻¹ * -β])
    intro n hn
    rw [hval _ _ _ _ (by simp [hlen]), matVec_smul, hclean n hn, hrhs]
    field_simp
    ring
  rw [residNorm_eq_zero] at h0
  have hsplit := split_last2 x bits.length hxl
  obtain ⟨t, h1, h2, h3, h4⟩ := honly (x.take bits.length) (-(x.getD bits.length 0)) (-1) (-(x.getD (bits.length + 1) 0))
    (by rw [List.length_take]; omega) (by
      intro n hn
      have := h0 n hn
      rw [hsplit, hval _ _ _ _ (by rw [List.length_take]; omega), hrhs] at this
      simp only at this
      linarith)
  have hcalc : calibrateLite solve N bits f = .ok (if (w.map fun v => t / Real.sqrt (1 + (-t * β) ^ 2) * v).sum < 0
      then (w.map fun v => t / Real.sqrt (1 + (-t * β) ^ 2) * v).map (fun v => -v) else w.map fun v => t / Real.sqrt (1 + (-t * β) ^ 2) * v) := by
    unfold calibrateLite
    rw [if_neg (not_lt.mpr hf)]
    simp only
    rw [← hA, ← hrhs, ← hx, hxl, show bits.length + 2 - 1 = bits.length + 1 by omega,
      show x.getD (bits.length + 1) 0 = -t * β by linarith, h1, List.map_map]
    have : (fun v => v / Real.sqrt (1 + (-t * β) ^ 2)) ∘ (fun v => t * v) = fun v => t / Real.sqrt (1 + (-t * β) ^ 2) * v := by
      funext v
      simp only [Function.comp]
      ring
    rw [this]
  have hsc := norm_scale α β (-t) (by linarith)
  set κ := t / Real.sqrt (1 + (-t * β) ^ 2) with hκ
  have hsc' : κ ^ 2 * (α ^ 2 + β ^ 2) = 1 := by
    have e : -t / Real.sqrt (1 + (-t * β) ^ 2) = -κ := by rw [hκ]; ring
    rw [e] at hsc
    linear_combination hsc
  by_cases hneg : (w.map fun v => κ * v).sum < 0
  · rw [if_pos hneg] at hcalc
    refine ⟨_, -κ, hcalc, by linear_combination hsc', ?_, ?_⟩
    · rw [List.map_map]
      apply List.map_congr_left
      intro v _
      simp only [Function.comp]
      ring
    · have : ∀ l : List ℝ, (l.map fun v => -v).sum = -l.sum := by
        intro l
        induction l with
        | nil => simp
        | cons a l ih => simp only [List.map_cons, List.sum_cons, ih]; ring
      rw [this]
      linarith
  · rw [if_neg hneg] at hcalc
    exact ⟨_, κ, hcalc, hsc', rfl, not_lt.mp hneg⟩

/-! ## A worked case: bits 1, 1, 0, 0 at a quarter of the sampling rate -/

theorem quarter_cos (n : ℕ) : Real.cos (2 * Real.pi * (1 / 4) * ((n : ℝ) * ((0 : ℕ) + 1))) = if n % 4 = 0 then 1 else if n % 4 = 2 then -1 else 0 := by
  obtain ⟨q, hq⟩ : ∃ q, n = 4 * q + n % 4 := ⟨n / 4, by omega⟩
  have hr : n % 4 < 4 := Nat.mod_lt _ (by norm_num)
  generalize n % 4 = r at hq hr
  subst hq
  have e : 2 * Real.pi * (1 / 4) * (((4 * q + r : ℕ) : ℝ) * (((0 : ℕ) : ℝ) + 1)) = (r : ℝ) * (Real.pi / 2) + (q : ℝ) * (2 * Real.pi) := by
    push_cast; ring
  rw [e, Real.cos_add_nat_mul_two_pi]
  interval_cases r
  · simp
  · simp
  · have : ((2 : ℕ) : ℝ) * (Real.pi / 2) = Real.pi := by push_cast; ring
    rw [this]; simp
  · have : ((3 : ℕ) : ℝ) * (Real.pi / 2) = Real.pi + Real.pi / 2 := by push_cast; ring
    rw [this, add_comm, Real.cos_add_pi]; simp

theorem quarter_sin (n : ℕ) : Real.sin (2 * Real.pi * (1 / 4) * ((n : ℝ) * ((0 : ℕ) + 1))) = if n % 4 = 1 then 1 else if n % 4 = 3 then -1 else 0 := by
  obtain ⟨q, hq⟩ : ∃ q, n = 4 * q + n % 4 := ⟨n / 4, by omega⟩
  have hr : n % 4 < 4 := Nat.mod_lt _ (by norm_num)
  generalize n % 4 = r at hq hr
  subst hq
  have e : 2 * Real.pi * (1 / 4) * (((4 * q + r : ℕ) : ℝ) * (((0 : ℕ) : ℝ) + 1)) = (r : ℝ) * (Real.pi / 2) + (q : ℝ) * (2 * Real.pi) := by
    push_cast; ring
  rw [e, Real.sin_add_nat_mul_two_pi]
  interval_cases r
  · simp
  · simp
  · have : ((2 : ℕ) : ℝ) * (Real.pi / 2) = Real.pi := by push_cast; ring
    rw [this]; simp
  · have : ((3 : ℕ) : ℝ) * (Real.pi / 2) = Real.pi + Real.pi / 2 := by push_cast; ring
    rw [this, add_comm, Real.sin_add_pi]; simp

/-- The four-sample one-bit record `1, 1, 0, 0`. -/
def quarterRows : List (List ℝ) := [[1], [1], [0], [0]]

theorem quarter_series (c : ℝ) (a b : ℕ → ℝ) :
    harmonicSeries (1 / 4) 1 c a b 0 = c + a 0 ∧ harmonicSeries (1 / 4) 1 c a b 1 = c + b 0 ∧
    harmonicSeries (1 / 4) 1 c a b 2 = c - a 0 ∧ harmonicSeries (1 / 4) 1 c a b 3 = c - b 0 := by
  unfold harmonicSeries
  simp only [sum_range_one]
  rw [quarter_cos, quarter_sin, quarter_cos, quarter_sin, quarter_cos, quarter_sin, quarter_cos, quarter_sin]
  norm_num
  constructor <;> ring

theorem quarter_prep : prepareInput [quarterRows] none = .ok ([quarterRows], 1, [1]) := by
  have : orientSegment quarterRows = quarterRows := by
    unfold orientSegment quarterRows
    simp
  unfold quarterRows at this ⊢
  unfold prepareInput
  simp [stackSegments, this, nominalWeights]

theorem quarter_bits (n : ℕ) (u : List ℝ) :
    matVec ((List.range 1).map fun (j : ℕ) => fun (n : ℕ) => (quarterRows.getD n []).getD j 0) u n = u.getD 0 0 * (quarterRows.getD n []).getD 0 0 := by
  rw [matVec_range, sum_range_one]

theorem quarter_clean : ∀ n < quarterRows.length, ∑ j ∈ range 1, [(1 : ℝ)].getD j 0 * (quarterRows.getD n []).getD j 0
    = harmonicSeries (1 / 4) 1 (1 / 2) (fun _ => 1 / 2) (fun _ => 1 / 2) n := by
  intro n hn
  obtain ⟨h0, h1, h2, h3⟩ := quarter_series (1 / 2) (fun _ => 1 / 2) (fun _ => 1 / 2)
  have hn' : n < 4 := by simpa [quarterRows] using hn
  rw [sum_range_one]
  interval_cases n
  · rw [h0]; norm_num [quarterRows]
  · rw [h1]; norm_num [quarterRows]
  · rw [h2]; norm_num [quarterRows]
  · rw [h3]; norm_num [quarterRows]

theorem quarter_only : OnlyFit quarterRows.length ((List.range 1).map fun (j : ℕ) => fun (n : ℕ) => (quarterRows.getD n []).getD j 0) (1 / 4) 1 [1]
    (1 / 2) (fun _ => 1 / 2) (fun _ => 1 / 2) := by
  intro u d p q hu h
  have hu1 : u.length = 1 := by simpa using hu
  obtain ⟨x, rfl⟩ := List.length_eq_one_iff.mp hu1
  obtain ⟨h0, h1, h2, h3⟩ := quarter_series d p q
  have e0 := h 0 (by simp [quarterRows])
  have e1 := h 1 (by simp [quarterRows])
  have e2 := h 2 (by simp [quarterRows])
  have e3 := h 3 (by simp [quarterRows])
  rw [quarter_bits, h0] at e0
  rw [quarter_bits, h1] at e1
  rw [quarter_bits, h2] at e2
  rw [quarter_bits, h3] at e3
  simp [quarterRows] at e0 e1 e2 e3
  refine ⟨x, by simp, by linarith, ?_⟩
  intro k hk
  have : k = 0 := by omega
  subst this
  constructor <;> linarith

/-- The record `1, 1, 0, 0` at frequency 1/4 is calibrated to the weight `sqrt 2` (amplitude `1/sqrt 2` becomes 1). -/
example (solve : Lstsq) (hs : IsLstsq solve) : ∃ r, calibrate solve [] [quarterRows] (.scalar (1 / 4)) none none 1 (1 / 2) 0 100 = .ok r ∧
    r.weight = [Real.sqrt 2] ∧ r.offset = Real.sqrt 2 / 2 := by
  obtain ⟨r, s, h1, h2, h3, h4, h5, _⟩ := C40_full_rank solve hs [] [quarterRows] (1 / 4) (by norm_num) (by norm_num) none (by simp) none 1
    one_pos (1 / 2) 0 100 quarterRows 1 [1] quarter_prep [1] rfl (1 / 2) _ _ quarter_clean (Or.inl (by norm_num)) quarter_only
  have hs2 : s ^ 2 = 2 := by linarith
  have hs0 : 0 ≤ s := by rw [h3] at h5; simpa using h5
  have : s = Real.sqrt 2 := by
    rw [← hs2, Real.sqrt_sq hs0]
  refine ⟨r, h1, ?_, ?_⟩
  · rw [h3, this]; simp
  · rw [h4, this]; ring

/-- The lite variant on the same record. -/
example (solve : Lstsq) (hs : IsLstsq solve) : ∃ r s, calibrateLite solve 4 [fun n => if n < 2 then 1 else 0] (1 / 4) = .ok r ∧ s ^ 2 * (1 / 2) = 1 ∧
    r = [s] := by
  have hc : ∀ n : ℕ, Real.cos (2 * Real.pi * (1 / 4) * n) = if n % 4 = 0 then 1 else if n % 4 = 2 then -1 else 0 := by
    intro n; rw [← quarter_cos]; simp
  have hsn : ∀ n : ℕ, Real.sin (2 * Real.pi * (1 / 4) * n) = if n % 4 = 1 then 1 else if n % 4 = 3 then -1 else 0 := by
    intro n; rw [← quarter_sin]; simp
  have hm : ∀ (u : List ℝ) (n : ℕ), matVec [fun n => if n < 2 then (1 : ℝ) else 0] u n = u.getD 0 0 * if n < 2 then 1 else 0 := by
    intro u n; unfold matVec; simp
  obtain ⟨r, s, h1, h2, h3, _⟩ := C40_lite solve hs 4 [fun n => if n < 2 then 1 else 0] (1 / 4) (by norm_num) [1] rfl (1 / 2) (1 / 2) (1 / 2)
    (by norm_num) (by
      intro n hn
      rw [hm, hc, hsn]
      interval_cases n <;> norm_num) (by
      intro u d p q hu h
      obtain ⟨x, rfl⟩ := List.length_eq_one_iff.mp (show u.length = 1 by simpa using hu)
      have e0 := h 0 (by norm_num)
      have e1 := h 1 (by norm_num)
      have e2 := h 2 (by norm_num)
      have e3 := h 3 (by norm_num)
      rw [hm, hc, hsn] at e0 e1 e2 e3
      norm_num at e0 e1 e2 e3
      exact ⟨x, by simp, by linarith, by linarith, by linarith⟩)
  exact ⟨r, s, h1, by linarith, by rw [h3]; simp⟩

end Verif
