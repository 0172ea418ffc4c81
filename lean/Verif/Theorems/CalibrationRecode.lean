import Verif.Theorems.CalibrationExact
import Verif.Proofs.Lstsq

/-!
# C159: how the bits are written down and what the calibration makes of it
-/

namespace Verif

open Model Finset

/-- The columns of the lite calibration cannot be combined to zero. -/
def LiteIndep (N W : ℕ) (bits : ℕ → ℕ → ℝ) (f : ℝ) : Prop :=
  ∀ (u : ℕ → ℝ) (d q : ℝ), (∀ n < N, ∑ i ∈ range W, u i * bits i n + d + q * Real.sin (2 * Real.pi * f * n) = 0) → (∀ i < W, u i = 0) ∧ d = 0 ∧ q = 0

private noncomputable def liteCols (W : ℕ) (bits : ℕ → ℕ → ℝ) (f : ℝ) : List (ℕ → ℝ) :=
  (List.range W).map bits ++ [(fun _ => 1), fun (n : ℕ) => Real.sin (2 * Real.pi * f * n)]

private theorem lite_length (W : ℕ) (bits : ℕ → ℕ → ℝ) (f : ℝ) : (liteCols W bits f).length = W + 2 := by
  unfold liteCols
  simp

private theorem lite_col (W : ℕ) (bits : ℕ → ℕ → ℝ) (f : ℝ) : (∀ i < W, (liteCols W bits f).getD i 0 = bits i) ∧ (liteCols W bits f).getD W 0 = (fun _ => 1) ∧
    (liteCols W bits f).getD (W + 1) 0 = fun (n : ℕ) => Real.sin (2 * Real.pi * f * n) := by
  unfold liteCols
  refine ⟨fun i hi => ?_, ?_, ?_⟩
  · rw [List.getD_append _ _ _ _ (by simpa using hi)]
    simp [hi]
  · rw [List.getD_append_right _ _ _ _ (by simp)]
    simp
  · rw [List.getD_append_right _ _ _ _ (by simp)]
    simp

private theorem lite_value (W : ℕ) (bits : ℕ → ℕ → ℝ) (f : ℝ) (x : List ℝ) (n : ℕ) :
    matVec (liteCols W bits f) x n = ∑ i ∈ range W, x.getD i 0 * bits i n + x.getD W 0 + x.getD (W + 1) 0 * Real.sin (2 * Real.pi * f * n) := by
  obtain ⟨h1, h2, h3⟩ := lite_col W bits f
  unfold matVec
  rw [lite_length, sum_range_succ, sum_range_succ, h2, h3, sum_congr rfl fun i hi => by rw [h1 i (mem_range.mp hi)]]
  ring

/-- A coefficient vector from its parts. -/
private theorem pack_getD (W : ℕ) (g : ℕ → ℝ) (d q : ℝ) : ((List.range W).map g ++ [d, q]).length = W + 2 ∧ (∀ i < W, ((List.range W).map g ++ [d, q]).getD i 0 = g i) ∧
    ((List.range W).map g ++ [d, q]).getD W 0 = d ∧ ((List.range W).map g ++ [d, q]).getD (W + 1) 0 = q := by
  refine ⟨by simp, fun i hi => ?_, ?_, ?_⟩
  · rw [List.getD_append _ _ _ _ (by simpa using hi)]
    simp [hi]
  · rw [List.getD_append_right _ _ _ _ (by simp)]
    simp
  · rw [List.getD_append_right _ _ _ _ (by simp)]
    simp

/-- The coefficients of the two solutions. -/
private theorem raw_recode (solve : Lstsq) (hs : IsLstsq solve) (N W : ℕ) (f : ℝ) (bits bits' M L : ℕ → ℕ → ℝ) (k : ℕ → ℝ)
    (hrec : ∀ j < W, ∀ n < N, bits' j n = ∑ i ∈ range W, M j i * bits i n + k j)
    (hinv : ∀ i < W, ∀ i' < W, ∑ j ∈ range W, L i j * M j i' = if i = i' then 1 else 0) (hind : LiteIndep N W bits f) (b : ℕ → ℝ) (x x' : List ℝ)
    (hx : x = solve N (liteCols W bits f) b) (hx' : x' = solve N (liteCols W bits' f) b) :
    (∀ i < W, x.getD i 0 = ∑ j ∈ range W, x'.getD j 0 * M j i) ∧ x.getD (W + 1) 0 = x'.getD (W + 1) 0 := by
  obtain ⟨y, hy⟩ : ∃ y, y = (List.range W).map (fun i => ∑ j ∈ range W, x'.getD j 0 * M j i) ++ [x'.getD W 0 + ∑ j ∈ range W, x'.getD j 0 * k j, x'.getD (W + 1) 0] := ⟨_, rfl⟩
  obtain ⟨p1, p2, p3, p4⟩ := pack_getD W (fun i => ∑ j ∈ range W, x'.getD j 0 * M j i) (x'.getD W 0 + ∑ j ∈ range W, x'.getD j 0 * k j) (x'.getD (W + 1) 0)
  rw [← hy] at p1 p2 p3 p4
  -- the two combinations are the same record
  have hsame : ∀ n < N, matVec (liteCols W bits f) y n = matVec (liteCols W bits' f) x' n := by
    intro n hn
    rw [lite_value, lite_value, p3, p4, sum_congr rfl fun i hi => by rw [p2 i (mem_range.mp hi)]]
    have e : ∑ j ∈ range W, x'.getD j 0 * bits' j n = ∑ i ∈ range W, (∑ j ∈ range W, x'.getD j 0 * M j i) * bits i n + ∑ j ∈ range W, x'.getD j 0 * k j := by
      rw [sum_congr rfl fun j hj => show x'.getD j 0 * bits' j n = ∑ i ∈ range W, x'.getD j 0 * M j i * bits i n + x'.getD j 0 * k j by
        rw [hrec j (mem_range.mp hj) n hn, mul_add, mul_sum]
        congr 1
        exact sum_congr rfl fun i _ => by ring, sum_add_distrib, sum_comm]
      congr 1
      exact sum_congr rfl fun i _ => by rw [sum_mul]
    rw [e]
    ring
  -- every column of the first is one of the second
  have hback : ∀ i < W, ∀ n < N, bits i n = ∑ j ∈ range W, L i j * bits' j n - ∑ j ∈ range W, L i j * k j := by
    intro i hi n hn
    rw [sum_congr rfl fun j hj => show L i j * bits' j n = ∑ i' ∈ range W, L i j * M j i' * bits i' n + L i j * k j by
      rw [hrec j (mem_range.mp hj) n hn, mul_add, mul_sum]
      congr 1
      exact sum_congr rfl fun i _ => by ring, sum_add_distrib, sum_comm,
      sum_congr rfl fun i' hi' => show ∑ j ∈ range W, L i j * M j i' * bits i' n = if i = i' then bits i' n else 0 by
        rw [← sum_mul, hinv i hi i' (mem_range.mp hi')]
        split_ifs <;> ring, sum_ite_eq, if_pos (mem_range.mpr hi)]
    ring
  have horth : ∀ z : List ℝ, z.length = W + 2 → ∑ n ∈ range N, (b n - matVec (liteCols W bits' f) x' n) * matVec (liteCols W bits' f) z n = 0 := fun z hz => by
    rw [hx']
    exact lstsq_orthogonal solve hs N (liteCols W bits' f) b z (by rw [lite_length, hz])
  have hproj := lstsq_projection solve hs N (liteCols W bits f) b (fun n => b n - matVec (liteCols W bits' f) x' n) y (by rw [p1, lite_length])
    (fun n hn => by rw [hsame n hn]; ring) (by
      intro j hj
      rw [lite_length] at hj
      obtain ⟨c1, c2, c3⟩ := lite_col W bits f
      rcases Nat.lt_or_ge j W with h | h
      · obtain ⟨q1, q2, q3, q4⟩ := pack_getD W (fun j' => L j j') (-∑ j' ∈ range W, L j j' * k j') 0
        rw [← horth _ q1]
        refine sum_congr rfl fun n hn => ?_
        congr 1
        rw [c1 j h, lite_value, q3, q4, sum_congr rfl fun i hi => by rw [q2 i (mem_range.mp hi)], hback j h n (mem_range.mp hn)]
        ring
      · rcases Nat.lt_or_ge j (W + 1) with h' | h'
        · have : j = W := by omega
          subst this
          obtain ⟨q1, q2, q3, q4⟩ := pack_getD j (fun _ => 0) 1 0
          rw [← horth _ q1]
          refine sum_congr rfl fun n hn => ?_
          congr 1
          rw [c2, lite_value, q3, q4, sum_congr rfl fun i hi => by rw [q2 i (mem_range.mp hi)]]
          simp
        · have : j = W + 1 := by omega
          subst this
          obtain ⟨q1, q2, q3, q4⟩ := pack_getD W (fun _ => 0) 0 1
          rw [← horth _ q1]
          refine sum_congr rfl fun n hn => ?_
          congr 1
          rw [c3, lite_value, q3, q4, sum_congr rfl fun i hi => by rw [q2 i (mem_range.mp hi)]]
          simp)
  rw [← hx] at hproj
  obtain ⟨h1, _, h3⟩ := hind (fun i => x.getD i 0 - y.getD i 0) (x.getD W 0 - y.getD W 0) (x.getD (W + 1) 0 - y.getD (W + 1) 0) (by
    intro n hn
    have h := hproj n hn
    rw [lite_value, lite_value] at h
    simp only [sub_mul, sum_sub_distrib]
    linarith)
  refine ⟨fun i hi => ?_, ?_⟩
  · rw [← p2 i hi]
    exact sub_eq_zero.mp (h1 i hi)
  · rw [← p4]
    exact sub_eq_zero.mp h3

/-- The returned list for normalised coefficients `v`. -/
private noncomputable def polar (W : ℕ) (v : ℕ → ℝ) : List ℝ := if ∑ i ∈ range W, v i < 0 then (List.range W).map (fun i => -v i) else (List.range W).map v

private theorem sum_list (W : ℕ) (v : ℕ → ℝ) : ((List.range W).map v).sum = ∑ i ∈ range W, v i := by
  induction W with
  | zero => simp
  | succ m ih => rw [List.range_succ, List.map_append, List.sum_append, ih, sum_range_succ]; simp

private theorem lite_form (solve : Lstsq) (hs : IsLstsq solve) (N W : ℕ) (bits : ℕ → ℕ → ℝ) (f : ℝ) (hf : f ≤ 1 / 2) (x : List ℝ)
    (hx : x = solve N (liteCols W bits f) fun n => -Real.cos (2 * Real.pi * f * n)) :
    calibrateLite solve N ((List.range W).map bits) f = .ok (polar W fun i => x.getD i 0 / Real.sqrt (1 + x.getD (W + 1) 0 ^ 2)) := by
  have hl : x.length = W + 2 := by rw [hx, hs.len, lite_length]
  unfold calibrateLite polar
  rw [if_neg (not_lt.mpr hf)]
  have e : solve N ((List.range W).map bits ++ [(fun _ => 1), fun (n : ℕ) => Real.sin (2 * Real.pi * f * n)]) (fun n => -Real.cos (2 * Real.pi * f * n)) = x := hx.symm
  simp only [e]
  rw [hl, show W + 2 - 1 = W + 1 by omega, List.length_map, List.length_range]
  have ht : (x.take W).map (fun v => v / Real.sqrt (1 + x.getD (W + 1) 0 ^ 2)) = (List.range W).map fun i => x.getD i 0 / Real.sqrt (1 + x.getD (W + 1) 0 ^ 2) := by
    apply List.ext_getElem
    · simp [hl]
    · intro i h1 h2
      have hi : i < W := by simpa using h2
      have hi' : i < x.length := by omega
      simp [hi']
  rw [ht, sum_list]
  congr 1
  split_ifs
  · rw [List.map_map]
    rfl
  · rfl

private theorem polar_sign (W : ℕ) (v : ℕ → ℝ) : ∃ s : ℝ, (s = 1 ∨ s = -1) ∧ ∀ i < W, (polar W v).getD i 0 = s * v i := by
  unfold polar
  split_ifs
  · exact ⟨-1, Or.inr rfl, fun i hi => by simp [hi]⟩
  · exact ⟨1, Or.inl rfl, fun i hi => by simp [hi]⟩

private theorem polar_length (W : ℕ) (v : ℕ → ℝ) : (polar W v).length = W := by
  unfold polar
  split_ifs <;> simp

/-- **C159 (recoded bits).** If the bits are written down in another way, each new column an affine combination of the old ones (`M` invertible, `k` constants), the weights
returned for the two are the same converter up to the sign: `r = s Mᵀ r'`, and the corrected records differ only by that sign and a constant. -/
theorem C159_recode (solve : Lstsq) (hs : IsLstsq solve) (N W : ℕ) (f : ℝ) (hf : f ≤ 1 / 2) (bits bits' M L : ℕ → ℕ → ℝ) (k : ℕ → ℝ)
    (hrec : ∀ j < W, ∀ n < N, bits' j n = ∑ i ∈ range W, M j i * bits i n + k j)
    (hinv : ∀ i < W, ∀ i' < W, ∑ j ∈ range W, L i j * M j i' = if i = i' then 1 else 0) (hind : LiteIndep N W bits f) :
    ∃ r r' s, calibrateLite solve N ((List.range W).map bits) f = .ok r ∧ calibrateLite solve N ((List.range W).map bits') f = .ok r' ∧ r.length = W ∧ r'.length = W ∧
      (s = 1 ∨ s = -1) ∧ (∀ i < W, r.getD i 0 = s * ∑ j ∈ range W, r'.getD j 0 * M j i) ∧
      ∃ d, ∀ n < N, ∑ i ∈ range W, r.getD i 0 * bits i n = s * ∑ j ∈ range W, r'.getD j 0 * bits' j n + d := by
  obtain ⟨x, hx⟩ : ∃ x, x = solve N (liteCols W bits f) fun n => -Real.cos (2 * Real.pi * f * n) := ⟨_, rfl⟩
  obtain ⟨x', hx'⟩ : ∃ x, x = solve N (liteCols W bits' f) fun n => -Real.cos (2 * Real.pi * f * n) := ⟨_, rfl⟩
  obtain ⟨h1, h2⟩ := raw_recode solve hs N W f bits bits' M L k hrec hinv hind _ x x' hx hx'
  obtain ⟨s, s1, s2⟩ := polar_sign W fun i => x.getD i 0 / Real.sqrt (1 + x.getD (W + 1) 0 ^ 2)
  obtain ⟨s', s1', s2'⟩ := polar_sign W fun i => x'.getD i 0 / Real.sqrt (1 + x'.getD (W + 1) 0 ^ 2)
  have hss : s' * s' = 1 := by rcases s1' with h | h <;> rw [h] <;> norm_num
  have hw : ∀ i < W, (polar W fun i => x.getD i 0 / Real.sqrt (1 + x.getD (W + 1) 0 ^ 2)).getD i 0
      = s * s' * ∑ j ∈ range W, (polar W fun i => x'.getD i 0 / Real.sqrt (1 + x'.getD (W + 1) 0 ^ 2)).getD j 0 * M j i := by
    intro i hi
    rw [s2 i hi, h1 i hi, h2, sum_div, mul_sum, mul_sum]
    refine sum_congr rfl fun j hj => ?_
    rw [s2' j (mem_range.mp hj)]
    linear_combination -s * (x'.getD j 0 / Real.sqrt (1 + x'.getD (W + 1) 0 ^ 2) * M j i) * hss
  refine ⟨_, _, s * s', lite_form solve hs N W bits f hf x hx, lite_form solve hs N W bits' f hf x' hx', polar_length _ _, polar_length _ _, ?_, hw, ?_⟩
  · rcases s1 with h | h <;> rcases s1' with h' | h' <;> rw [h, h'] <;> norm_num
  · generalize (polar W fun i => x'.getD i 0 / Real.sqrt (1 + x'.getD (W + 1) 0 ^ 2)) = r' at hw
    generalize (polar W fun i => x.getD i 0 / Real.sqrt (1 + x.getD (W + 1) 0 ^ 2)) = r at hw
    refine ⟨-(s * s' * ∑ j ∈ range W, r'.getD j 0 * k j), fun n hn => ?_⟩
    rw [sum_congr rfl fun i hi => by rw [hw i (mem_range.mp hi)],
      sum_congr rfl fun j hj => show r'.getD j 0 * bits' j n = ∑ i ∈ range W, r'.getD j 0 * M j i * bits i n + r'.getD j 0 * k j by
        rw [hrec j (mem_range.mp hj) n hn, mul_add, mul_sum]
        congr 1
        exact sum_congr rfl fun i _ => by ring, sum_add_distrib, sum_comm, mul_add,
      mul_sum (range W) (fun i => ∑ j ∈ range W, r'.getD j 0 * M j i * bits i n)]
    rw [sum_congr rfl fun i _ => show s * s' * ∑ j ∈ range W, r'.getD j 0 * M j i * bits i n = s * s' * (∑ j ∈ range W, r'.getD j 0 * M j i) * bits i n by
      rw [← sum_mul]; ring]
    ring

/-- **C159 (order of the bits).** Permuting the columns permutes the weights, nothing else. -/
theorem C159_order (solve : Lstsq) (hs : IsLstsq solve) (N W : ℕ) (f : ℝ) (hf : f ≤ 1 / 2) (bits : ℕ → ℕ → ℝ) (σ τ : ℕ → ℕ)
    (hσ : ∀ j < W, σ j < W ∧ τ (σ j) = j) (hτ : ∀ j < W, τ j < W ∧ σ (τ j) = j) (hind : LiteIndep N W bits f) :
    ∃ r r', calibrateLite solve N ((List.range W).map bits) f = .ok r ∧ calibrateLite solve N ((List.range W).map fun j => bits (σ j)) f = .ok r' ∧
      r' = (List.range W).map fun j => r.getD (σ j) 0 := by
  obtain ⟨x, hx⟩ : ∃ x, x = solve N (liteCols W bits f) fun n => -Real.cos (2 * Real.pi * f * n) := ⟨_, rfl⟩
  obtain ⟨x', hx'⟩ : ∃ x, x = solve N (liteCols W (fun j => bits (σ j)) f) fun n => -Real.cos (2 * Real.pi * f * n) := ⟨_, rfl⟩
  obtain ⟨h1, h2⟩ := raw_recode solve hs N W f bits (fun j => bits (σ j)) (fun j i => if i = σ j then 1 else 0) (fun i j => if i = σ j then 1 else 0) (fun _ => 0)
    (fun j hj n _ => by simp [(hσ j hj).1]) (fun i hi i' hi' => by
      rw [sum_eq_single (τ i)]
      · rw [if_pos (hτ i hi).2.symm, one_mul, (hτ i hi).2]
        exact if_congr eq_comm rfl rfl
      · intro j hj hne
        rw [if_neg, zero_mul]
        intro h
        exact hne (by rw [h, (hσ j (mem_range.mp hj)).2])
      · intro h
        exact absurd (mem_range.mpr (hτ i hi).1) h) hind _ x x' hx hx'
  have h3 : ∀ i < W, x.getD i 0 = x'.getD (τ i) 0 := by
    intro i hi
    rw [h1 i hi, sum_eq_single (τ i)]
    · rw [if_pos (hτ i hi).2.symm, mul_one]
    · intro j hj hne
      rw [if_neg, mul_zero]
      intro h
      exact hne (by rw [h, (hσ j (mem_range.mp hj)).2])
    · intro h
      exact absurd (mem_range.mpr (hτ i hi).1) h
  have h4 : ∀ j < W, x'.getD j 0 = x.getD (σ j) 0 := fun j hj => by rw [h3 _ (hσ j hj).1, (hσ j hj).2]
  have hsum : ∑ j ∈ range W, x'.getD j 0 / Real.sqrt (1 + x'.getD (W + 1) 0 ^ 2) = ∑ i ∈ range W, x.getD i 0 / Real.sqrt (1 + x.getD (W + 1) 0 ^ 2) := by
    rw [h2]
    refine sum_bij' (fun j _ => σ j) (fun i _ => τ i) (fun j hj => mem_range.mpr (hσ j (mem_range.mp hj)).1) (fun i hi => mem_range.mpr (hτ i (mem_range.mp hi)).1)
      (fun j hj => (hσ j (mem_range.mp hj)).2) (fun i hi => (hτ i (mem_range.mp hi)).2) (fun j hj => by rw [h4 j (mem_range.mp hj)])
  refine ⟨_, _, lite_form solve hs N W bits f hf x hx, lite_form solve hs N W _ f hf x' hx', ?_⟩
  unfold polar
  rw [hsum]
  split_ifs
  · refine List.map_congr_left fun j hj => ?_
    have hj' := List.mem_range.mp hj
    beta_reduce
    rw [h4 j hj', ← h2]
    simp [(hσ j hj').1]
  · refine List.map_congr_left fun j hj => ?_
    have hj' := List.mem_range.mp hj
    beta_reduce
    rw [h4 j hj', ← h2]
    simp [(hσ j hj').1]

/-- **C159 (inverted bits).** Storing some bits inverted changes the sign of their weights, up to the common sign. -/
theorem C159_inverted (solve : Lstsq) (hs : IsLstsq solve) (N W : ℕ) (f : ℝ) (hf : f ≤ 1 / 2) (bits : ℕ → ℕ → ℝ) (inv : ℕ → Bool) (hind : LiteIndep N W bits f) :
    ∃ r r' s, calibrateLite solve N ((List.range W).map bits) f = .ok r ∧
      calibrateLite solve N ((List.range W).map fun j n => if inv j then 1 - bits j n else bits j n) f = .ok r' ∧
      (s = 1 ∨ s = -1) ∧ ∀ i < W, r.getD i 0 = s * if inv i then -r'.getD i 0 else r'.getD i 0 := by
  obtain ⟨r, r', s, e1, e2, _, _, h1, h2, _⟩ := C159_recode solve hs N W f hf bits (fun j n => if inv j then 1 - bits j n else bits j n)
    (fun j i => if i = j then (if inv j then -1 else 1) else 0) (fun i j => if i = j then (if inv j then -1 else 1) else 0) (fun j => if inv j then 1 else 0)
    (fun j hj n _ => by
      simp only [ite_mul, zero_mul]
      rw [sum_ite_eq', if_pos (mem_range.mpr hj)]
      by_cases h : inv j
      · simp only [h, if_true]; ring
      · simp [h])
    (fun i hi i' _ => by
      simp only [ite_mul, zero_mul]
      rw [sum_ite_eq, if_pos (mem_range.mpr hi)]
      by_cases h : i = i'
      · subst h
        simp only [if_true]
        split_ifs <;> norm_num
      · rw [if_neg h, if_neg (show ¬ i' = i from fun e => h e.symm)]
        simp) hind
  refine ⟨r, r', s, e1, e2, h1, fun i hi => ?_⟩
  rw [h2 i hi]
  congr 1
  rw [sum_eq_single i]
  · simp only [if_true]
    split_ifs <;> ring
  · intro j _ hne
    rw [if_neg (fun e => hne e.symm), mul_zero]
  · intro h
    exact absurd (mem_range.mpr hi) h

/-- **C159 (weights with a negative sum).** A converter whose true weights add up to a negative number, as those of two's complement codes do, is returned with all weights
negated: the corrected record is the input upside down. -/
theorem C159_negative_sum (solve : Lstsq) (hs : IsLstsq solve) (N : ℕ) (bits : List (ℕ → ℝ)) (f : ℝ) (hf : f ≤ 1 / 2) (w : List ℝ)
    (hlen : w.length = bits.length) (hneg : w.sum < 0) (c α β : ℝ) (hα : α ≠ 0)
    (hclean : ∀ n < N, matVec bits w n = c + α * Real.cos (2 * Real.pi * f * n) + β * Real.sin (2 * Real.pi * f * n))
    (honly : ∀ (u : List ℝ) (d p q : ℝ), u.length = bits.length →
      (∀ n < N, matVec bits u n = d + p * Real.cos (2 * Real.pi * f * n) + q * Real.sin (2 * Real.pi * f * n)) →
      ∃ t : ℝ, u = w.map (fun v => t * v) ∧ d = t * c ∧ p = t * α ∧ q = t * β) :
    ∃ r, calibrateLite solve N bits f = .ok r ∧ r = w.map (fun v => -(v / Real.sqrt (α ^ 2 + β ^ 2))) := by
  obtain ⟨r, s, h1, h2, h3, h4⟩ := C40_lite solve hs N bits f hf w hlen c α β hα hclean honly
  refine ⟨r, h1, ?_⟩
  have hsum : r.sum = s * w.sum := by rw [h3, List.sum_map_mul_left]; simp
  have hpos : 0 < α ^ 2 + β ^ 2 := by positivity
  have hs0 : s ≤ 0 := by
    by_contra hc
    push Not at hc
    have := mul_neg_of_pos_of_neg hc hneg
    linarith
  have hss : -s = 1 / Real.sqrt (α ^ 2 + β ^ 2) := by
    rw [eq_div_iff (Real.sqrt_pos.mpr hpos).ne']
    have : (-s * Real.sqrt (α ^ 2 + β ^ 2)) ^ 2 = 1 := by
      rw [mul_pow, Real.sq_sqrt hpos.le]
      linarith
    have h0 : 0 ≤ -s * Real.sqrt (α ^ 2 + β ^ 2) := mul_nonneg (by linarith) (Real.sqrt_nonneg _)
    nlinarith
  rw [h3]
  refine List.map_congr_left fun v _ => ?_
  rw [show s = -(1 / Real.sqrt (α ^ 2 + β ^ 2)) by linarith]
  ring

/-- **C159 (weights with a negative sum, full calibration).** The same for `calibrate_weight_sine`. -/
theorem C159_negative_sum_full (solve : Lstsq) (hs : IsLstsq solve) (est : List ℝ) (segs : List (List (List ℝ))) (f : ℝ) (hf0 : f ≠ 0)
    (hf : f ≤ 1 / 2) (force : Option Bool) (hforce : force ≠ some true) (given : Option (List ℝ)) (H : ℕ) (hH : 0 < H) (lr reltol : ℝ) (maxIter : ℕ)
    (rows : List (List ℝ)) (width : ℕ) (nominal : List ℝ) (hprep : prepareInput segs given = .ok ([rows], width, nominal))
    (w : List ℝ) (hlen : w.length = width) (hneg : w.sum < 0) (c : ℝ) (a b : ℕ → ℝ)
    (hclean : ∀ n < rows.length, ∑ j ∈ range width, w.getD j 0 * (rows.getD n []).getD j 0 = harmonicSeries f H c a b n)
    (hne : a 0 ≠ 0 ∨ b 0 ≠ 0)
    (honly : OnlyFit rows.length ((List.range width).map fun (j : ℕ) => fun (n : ℕ) => (rows.getD n []).getD j 0) f H w c a b) :
    ∃ r, calibrate solve est segs (.scalar f) force given H lr reltol maxIter = .ok r ∧ r.weight = w.map (fun v => -(v / Real.sqrt (a 0 ^ 2 + b 0 ^ 2))) ∧
      r.offset = -(c / Real.sqrt (a 0 ^ 2 + b 0 ^ 2)) := by
  obtain ⟨r, s, h1, h2, h3, h3', h4, _⟩ := C40_full_rank solve hs est segs f hf0 hf force hforce given H hH lr reltol maxIter rows width nominal hprep w hlen c a b hclean hne honly
  have hsum : r.weight.sum = s * w.sum := by rw [h3, List.sum_map_mul_left]; simp
  have hpos : 0 < a 0 ^ 2 + b 0 ^ 2 := by rcases hne with h | h <;> positivity
  have hs0 : s ≤ 0 := by
    by_contra hc
    push Not at hc
    have := mul_neg_of_pos_of_neg hc hneg
    linarith
  have hss : -s = 1 / Real.sqrt (a 0 ^ 2 + b 0 ^ 2) := by
    rw [eq_div_iff (Real.sqrt_pos.mpr hpos).ne']
    have : (-s * Real.sqrt (a 0 ^ 2 + b 0 ^ 2)) ^ 2 = 1 := by
      rw [mul_pow, Real.sq_sqrt hpos.le]
      linarith
    have h0 : 0 ≤ -s * Real.sqrt (a 0 ^ 2 + b 0 ^ 2) := mul_nonneg (by linarith) (Real.sqrt_nonneg _)
    nlinarith
  have hse : s = -(1 / Real.sqrt (a 0 ^ 2 + b 0 ^ 2)) := by linarith
  refine ⟨r, h1, ?_, ?_⟩
  · rw [h3]
    refine List.map_congr_left fun v _ => ?_
    rw [hse]
    ring
  · rw [h3', hse]
    ring

/-! ## Concrete cases -/

private theorem four_sin (n : ℕ) : Real.sin (2 * Real.pi * (1 / 4) * n) = if n % 4 = 1 then 1 else if n % 4 = 3 then -1 else 0 := by
  rw [← quarter_sin]; simp

private theorem four_cos (n : ℕ) : Real.cos (2 * Real.pi * (1 / 4) * n) = if n % 4 = 0 then 1 else if n % 4 = 2 then -1 else 0 := by
  rw [← quarter_cos]; simp

/-- Two bit columns `1 1 0 0` and `1 0 1 0` at a quarter of the sample rate. -/
def pairBits : ℕ → ℕ → ℝ := fun j n => if j = 0 then (if n < 2 then 1 else 0) else (if n % 2 = 0 then 1 else 0)

theorem pair_indep : LiteIndep 4 2 pairBits (1 / 4) := by
  intro u d q h
  have g0 := h 0 (by norm_num)
  have g1 := h 1 (by norm_num)
  have g2 := h 2 (by norm_num)
  have g3 := h 3 (by norm_num)
  rw [four_sin, sum_range_succ, sum_range_one] at g0 g1 g2 g3
  norm_num [pairBits] at g0 g1 g2 g3
  refine ⟨fun i hi => ?_, by linarith, by linarith⟩
  interval_cases i <;> linarith

/-- Exchanged columns. -/
example (solve : Lstsq) (hs : IsLstsq solve) : ∃ r r', calibrateLite solve 4 [pairBits 0, pairBits 1] (1 / 4) = .ok r ∧ calibrateLite solve 4 [pairBits 1, pairBits 0] (1 / 4) = .ok r' ∧
    r' = [r.getD 1 0, r.getD 0 0] :=
  C159_order solve hs 4 2 (1 / 4) (by norm_num) pairBits (fun j => 1 - j) (fun j => 1 - j) (fun j hj => ⟨by omega, by omega⟩) (fun j hj => ⟨by omega, by omega⟩) pair_indep

/-- First column stored inverted. -/
example (solve : Lstsq) (hs : IsLstsq solve) : ∃ r r' s, calibrateLite solve 4 ((List.range 2).map pairBits) (1 / 4) = .ok r ∧
    calibrateLite solve 4 ((List.range 2).map fun j n => if j == 0 then 1 - pairBits j n else pairBits j n) (1 / 4) = .ok r' ∧ (s = 1 ∨ s = -1) ∧
    ∀ i < 2, r.getD i 0 = s * if i == 0 then -r'.getD i 0 else r'.getD i 0 :=
  C159_inverted solve hs 4 2 (1 / 4) (by norm_num) pairBits (fun j => j == 0) pair_indep

/-- The two's complement codes -1, 0, 1, 0 (bits 11, 00, 01, 00) of a negative cosine. -/
def complementRows : List (List ℝ) := [[1, 1], [0, 0], [0, 1], [0, 0]]

theorem complement_prep : prepareInput [complementRows] none = .ok ([complementRows], 2, [2, 1]) := by
  have : orientSegment complementRows = complementRows := by
    unfold orientSegment complementRows
    simp
  unfold complementRows at this ⊢
  unfold prepareInput
  simp [stackSegments, this, nominalWeights, List.range_succ]

/-- They are calibrated to the weights 2 and -1 instead of -2 and 1, by the full calibration ... -/
example (solve : Lstsq) (hs : IsLstsq solve) : ∃ r, calibrate solve [] [complementRows] (.scalar (1 / 4)) none none 1 (1 / 2) 0 100 = .ok r ∧ r.weight = [2, -1] := by
  obtain ⟨r, h1, h2, _⟩ := C159_negative_sum_full solve hs [] [complementRows] (1 / 4) (by norm_num) (by norm_num) none (by simp) none 1 one_pos (1 / 2) 0 100 complementRows 2 [2, 1]
    complement_prep [-2, 1] rfl (by norm_num) 0 (fun _ => -1) (fun _ => 0) (by
      intro n hn
      have hn' : n < 4 := by simpa [complementRows] using hn
      obtain ⟨h0, h1, h2, h3⟩ := quarter_series 0 (fun _ => -1) (fun _ => 0)
      rw [sum_range_succ, sum_range_one]
      interval_cases n
      · rw [h0]; norm_num [complementRows]
      · rw [h1]; norm_num [complementRows]
      · rw [h2]; norm_num [complementRows]
      · rw [h3]; norm_num [complementRows]) (Or.inl (by norm_num)) (by
      intro u d p q hu h
      obtain ⟨y, z, rfl⟩ := List.length_eq_two.mp (show u.length = 2 by simpa using hu)
      obtain ⟨h0, h1, h2, h3⟩ := quarter_series d p q
      have e0 := h 0 (by simp [complementRows])
      have e1 := h 1 (by simp [complementRows])
      have e2 := h 2 (by simp [complementRows])
      have e3 := h 3 (by simp [complementRows])
      rw [matVec_range, sum_range_succ, sum_range_one, h0] at e0
      rw [matVec_range, sum_range_succ, sum_range_one, h1] at e1
      rw [matVec_range, sum_range_succ, sum_range_one, h2] at e2
      rw [matVec_range, sum_range_succ, sum_range_one, h3] at e3
      norm_num [complementRows] at e0 e1 e2 e3
      refine ⟨z, ?_, by linarith, fun k hk => ?_⟩
      · simp only [List.map_cons, List.map_nil]
        rw [show y = z * -2 by linarith, mul_one]
      · have : k = 0 := by omega
        subst this
        constructor <;> linarith)
  refine ⟨r, h1, ?_⟩
  rw [h2]
  norm_num

/-- ... and by the lite one. -/
example (solve : Lstsq) (hs : IsLstsq solve) : calibrateLite solve 4 [fun n => if n = 0 then 1 else 0, fun n => if n % 2 = 0 then 1 else 0] (1 / 4) = .ok [2, -1] := by
  have hm : ∀ (u : List ℝ) (n : ℕ), matVec [fun n => if n = 0 then (1 : ℝ) else 0, fun n => if n % 2 = 0 then 1 else 0] u n
      = u.getD 0 0 * (if n = 0 then 1 else 0) + u.getD 1 0 * (if n % 2 = 0 then 1 else 0) := by
    intro u n; unfold matVec; simp [sum_range_succ]
  obtain ⟨r, h1, h2⟩ := C159_negative_sum solve hs 4 [fun n => if n = 0 then 1 else 0, fun n => if n % 2 = 0 then 1 else 0] (1 / 4) (by norm_num) [-2, 1] rfl (by norm_num) 0 (-1) 0
    (by norm_num) (by
      intro n hn
      rw [hm, four_cos, four_sin]
      interval_cases n <;> norm_num) (by
      intro u d p q hu h
      obtain ⟨y, z, rfl⟩ := List.length_eq_two.mp (show u.length = 2 by simpa using hu)
      have e0 := h 0 (by norm_num)
      have e1 := h 1 (by norm_num)
      have e2 := h 2 (by norm_num)
      have e3 := h 3 (by norm_num)
      rw [hm, four_cos, four_sin] at e0 e1 e2 e3
      norm_num at e0 e1 e2 e3
      refine ⟨z, ?_, by linarith, by linarith, by linarith⟩
      simp only [List.map_cons, List.map_nil]
      rw [show y = z * -2 by linarith, mul_one])
  rw [h1, h2]
  norm_num

end Verif
