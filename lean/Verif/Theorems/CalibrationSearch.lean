import Verif.Theorems.CalibrationMulti

/-!
# C42: the frequency search
-/

namespace Verif

open Model Finset

/-- The column the search adds to the fit at frequency `f` (one dataset, one harmonic, sine reference) when the data has offset `c`
and fundamental `a cos + b sin`. A correct frequency derivative would have `1` in place of `c / b`. -/
noncomputable def searchColumn (N : ℕ) (f c a b : ℝ) (n : ℕ) : ℝ :=
  (-2 * Real.pi * (a / b) * n * Real.sin (2 * Real.pi * f * n) + 2 * Real.pi * (c / b) * n * Real.cos (2 * Real.pi * f * n)) / N

theorem slice_one (x : List ℝ) (j : ℕ) (hj : j < x.length) : slice x j (j + 1) = [x.getD j 0] := by
  apply list_ext_getD
  · rw [slice_length]; simp; omega
  · intro i hi
    have hl : (slice x j (j + 1)).length = 1 := by rw [slice_length]; omega
    rw [slice_getD _ _ _ _ hi]
    have : i = 0 := by omega
    subst this
    rfl

/-- **C42 (no iterations).** With `max_iter = 0` the search fails with `TypeError`, whatever the data. -/
theorem C42_zero_iterations (solve : Lstsq) (est : List ℝ) (segs : List (List (List ℝ))) (f : ℝ) (hf0 : f ≠ 0) (hf : f ≤ 1 / 2)
    (given : Option (List ℝ)) (H : ℕ) (lr reltol : ℝ) (p : List (List (List ℝ)) × ℕ × List ℝ) (hprep : prepareInput segs given = .ok p) :
    calibrate solve est segs (.scalar f) (some true) given H lr reltol 0 = .error .typeError := by
  obtain ⟨segs', width, nominal⟩ := p
  unfold calibrate
  rw [if_neg (by
    rintro ⟨f', hf', h⟩
    simp only [FreqArg.values, List.mem_singleton] at hf'
    rw [hf'] at h
    exact absurd h (not_lt.mpr hf)), hprep]
  simp only [estimateFrequencies, if_neg hf0]
  have hsearch : ∀ v fa, searchWanted (some true) v fa = true := by intro v fa; unfold searchWanted; simp
  simp only [hsearch, if_true, searchLoop]

theorem searchIter_ok (solve : Lstsq) (N : ℕ) (cols : List (ℕ → ℝ)) (f : ℝ) (lr : ℝ) : ∃ it, searchIter solve [N] cols [f] 1 lr = .ok it := by
  obtain ⟨choice, _, h⟩ := solveKnown_one solve N cols f 1 one_pos
  unfold searchIter
  rw [h]
  simp only [dualBasis]
  rw [cosCols_cons N f 1 one_pos, sinCols_cons N f 1 one_pos]
  simp only
  split_ifs <;> exact ⟨_, rfl⟩

/-- **C42 (frequency step).** One dataset, one harmonic, noise-free, search started at the exact frequency, and the fit (with the
added column) determined. The search takes its frequency step from the wrong coefficient: the cosine/sine ratio `a / b` of the signal.
So with two iterations it reports `f + learning_rate * (a / b) / N` instead of `f`; with one iteration it reports `f` but scales
the weights by `1 / |b|` instead of `1 / sqrt (a^2 + b^2)`. -/
theorem C42_search_step (solve : Lstsq) (hs : IsLstsq solve) (est : List ℝ) (segs : List (List (List ℝ))) (f : ℝ) (hf0 : f ≠ 0)
    (hf : f ≤ 1 / 2) (given : Option (List ℝ)) (lr reltol : ℝ) (htol : reltol ≤ 0)
    (rows : List (List ℝ)) (width : ℕ) (nominal : List ℝ) (hprep : prepareInput segs given = .ok ([rows], width, nominal))
    (bits : List (ℕ → ℝ)) (hbits : bits = (List.range width).map fun (j : ℕ) => fun (n : ℕ) => (rows.getD n []).getD j 0)
    (w : List ℝ) (hlen : w.length = width) (c a b : ℝ) (hb : b ≠ 0)
    (hclean : ∀ n < rows.length, matVec bits w n = c + a * Real.cos (2 * Real.pi * f * n) + b * Real.sin (2 * Real.pi * f * n))
    (honly : ∀ (u : List ℝ) (d e p q : ℝ), u.length = bits.length →
      (∀ n < rows.length, matVec bits u n = d + e * searchColumn rows.length f c a b n + p * Real.cos (2 * Real.pi * f * n)
        + q * Real.sin (2 * Real.pi * f * n)) →
      ∃ t : ℝ, u = w.map (fun v => t * v) ∧ d = t * c ∧ e = 0 ∧ p = t * a ∧ q = t * b) :
    (∃ r, calibrate solve est segs (.scalar f) (some true) given 1 lr reltol 2 = .ok r ∧ r.freq = [f + a / b * lr / rows.length]) ∧
    (∃ r s, calibrate solve est segs (.scalar f) (some true) given 1 lr reltol 1 = .ok r ∧ r.freq = [f] ∧ r.weight = w.map (fun v => s * v) ∧
      s ^ 2 * b ^ 2 = 1) := by
  set N := rows.length with hN
  have hbl : w.length = bits.length := by rw [hbits]; simp [hlen]
  have hser : ∀ (d : ℝ) (p q : ℕ → ℝ) (n : ℕ), harmonicSeries f 1 d p q n
      = d + p 0 * Real.cos (2 * Real.pi * f * n) + q 0 * Real.sin (2 * Real.pi * f * n) := by
    intro d p q n
    unfold harmonicSeries
    rw [sum_range_one]
    simp only [Nat.cast_zero, zero_add, mul_one]
    ring
  have hclean1 : ∀ n < N, matVec bits w n = harmonicSeries f 1 c (fun _ => a) (fun _ => b) n := by
    intro n hn
    rw [hser, hclean n hn]
  have honly1 : OnlyFit N bits f 1 w c (fun _ => a) (fun _ => b) := by
    intro u d p q hu h
    obtain ⟨t, h1, h2, _, h3, h4⟩ := honly u d 0 (p 0) (q 0) hu (by
      intro n hn
      rw [h n hn, hser]
      ring)
    refine ⟨t, h1, h2, ?_⟩
    intro k hk
    have : k = 0 := by omega
    subst this
    exact ⟨h3, h4⟩
  have hr := rank_of_onlyFit N bits f 1 one_pos w c (fun _ => a) (fun _ => b) (Or.inr hb) honly1
  set P := patchRank N bits nominal with hP
  have hpf : ∀ w : List ℝ, w.length = bits.length → P.eff = bits ∧ recoverRank w P.links = .ok w := fun w hw => patch_full N bits nominal hr w hw
  have hPe : P.eff = bits := (hpf w hbl).1
  -- first solve
  have hk1 := known_solution solve hs N bits f 1 one_pos w hbl c (fun _ => a) (fun _ => b) (Or.inr hb) hclean1 honly1
  rw [if_pos (neg_ne_zero.mpr hb)] at hk1
  simp only [Nat.sub_self, List.range_zero, List.map_nil, List.append_nil, List.range_one, List.map_cons] at hk1
  have hul : (up N bits w).length = bits.length := by simp [up]
  have hsl : (scaleCols N bits).length = bits.length := by simp [scaleCols]
  set x := (up N bits w ++ [-c] ++ [-a]).map fun v => (-b)⁻¹ * v with hx
  have hx0 : x.getD bits.length 0 = c / b := by
    rw [hx, getD_map_list, List.append_assoc]
    have := getD_append_right_list (up N bits w) ([-c] ++ [-a]) 0 0
    rw [hul, add_zero] at this
    rw [this]
    simp
    field_simp
  have hx1 : x.getD (bits.length + 1) 0 = a / b := by
    rw [hx, getD_map_list, List.append_assoc]
    have := getD_append_right_list (up N bits w) ([-c] ++ [-a]) 1 0
    rw [hul] at this
    rw [this]
    simp
    field_simp
  have hxl : x.length = bits.length + 2 := by rw [hx]; simp [hul]
  -- the added column
  have hsc : searchCoeffs (scaleCols N bits).length 1 1 x 1 0 = ([a / b], [c / b]) := by
    unfold searchCoeffs
    rw [if_neg one_ne_zero, hsl]
    simp only [Nat.mul_one, Nat.sub_self, add_zero, Nat.add_sub_cancel]
    rw [slice_one _ _ (by omega), slice_one _ _ (by omega), hx0, hx1]
  have hder : derivCol [N] [f] 1 ([a / b], [c / b]) 0 = fun n => if n < N then searchColumn N f c a b n else 0 := by
    unfold derivCol
    rw [segCol_one]
    funext n
    congr 1
    unfold searchColumn harmPhase
    rw [sum_range_one]
    simp only [Nat.cast_zero, zero_add, mul_one, List.getD_cons_zero]
  set D : ℕ → ℝ := fun n => if n < N then searchColumn N f c a b n else 0 with hD
  -- second solve
  have hcos1 : ∀ n < N, cosOne N f 0 n = Real.cos (2 * Real.pi * f * n) := by
    intro n hn
    unfold cosOne
    rw [if_pos hn]
    simp
  have hsin1 : ∀ n < N, sinOne N f 0 n = Real.sin (2 * Real.pi * f * n) := by
    intro n hn
    unfold sinOne
    rw [if_pos hn]
    simp
  have hX : ∀ (z : List ℝ) (d e : ℝ) (n : ℕ), n < N → z.length = bits.length →
      matVec (scaleCols N bits ++ offsetCols [N] ++ [D]) (z ++ [d] ++ [e]) n = matVec (scaleCols N bits) z n + d + e * searchColumn N f c a b n := by
    intro z d e n hn hz
    rw [matVec_append' _ _ _ _ _ (by simp [hz, hsl, offsetCols_one]), matVec_append' _ _ _ _ _ (by rw [hz, hsl]), offset_one N _ n hn]
    congr 1
    unfold matVec
    simp [hD, hn]
  have hC : ∀ (g : ℕ → ℝ) (p : ℝ) (n : ℕ), matVec [g] [p] n = p * g n := by
    intro g p n
    unfold matVec
    simp
  have hdual := dual_unique solve hs N (scaleCols N bits) (offsetCols [N]) [D] [] [] (cosOne N f 0) (sinOne N f 0)
    (up N bits w ++ [-c] ++ [0]) [] [] (-a) (-b) (by simp [hul, hsl, offsetCols_one]) rfl rfl (Or.inr (neg_ne_zero.mpr hb))
    (by
      intro n hn
      rw [hX _ _ _ n hn hul, hC, hC, scaled_up N bits w hbl, hclean n hn, hcos1 n hn, hsin1 n hn]
      ring)
    (by
      intro z' a' b' l1 l2 l3 hrel
      have l1' : z'.length = bits.length + 2 := by rw [l1]; simp [hsl, offsetCols_one]
      obtain ⟨p, rfl⟩ := List.length_eq_one_iff.mp (by simpa using l2)
      obtain ⟨q, rfl⟩ := List.length_eq_one_iff.mp (by simpa using l3)
      have hsp := split_last2 z' bits.length l1'
      have hyl : (z'.take bits.length).length = bits.length := by rw [List.length_take]; omega
      obtain ⟨t, h1, h2, h3, h4, h5⟩ := honly (recoverScale z' bits.length 1 (bits.map (colScale N))) (-(z'.getD bits.length 0))
        (-(z'.getD (bits.length + 1) 0)) (-p) (-q) (by simp [recoverScale]) (by
          intro n hn
          have := hrel n hn
          rw [hsp, show ∀ (y : List ℝ) (u v : ℝ), y ++ [u, v] = y ++ [u] ++ [v] by simp, hX _ _ _ n hn hyl, hC, hC, hcos1 n hn, hsin1 n hn] at this
          rw [C39_scaling_undone, div_one, matVec_congr _ z' (z'.take bits.length) n
            (fun j hj => (getD_take_list _ _ _ _ (by rw [hsl] at hj; exact hj)).symm)]
          linarith)
      refine ⟨t, ?_, by simp; linarith, by simp; linarith⟩
      rw [hsp, List.map_append, List.map_append, List.append_assoc]
      congr 1
      · apply list_ext_getD
        · rw [hyl]; simp [hul]
        · intro j hj
          rw [hyl] at hj
          rw [getD_map_list, getD_take_list _ _ _ _ hj]
          have := congrArg (fun l => l.getD j 0) h1
          unfold recoverScale at this
          rw [getD_range_map _ _ _ _ hj, getD_map_cols _ _ _ _ hj, getD_map_list, div_one, zpow_neg] at this
          unfold up
          rw [getD_range_map _ _ _ _ hj]
          have hp : (10 : ℝ) ^ colScale N (bits.getD j 0) ≠ 0 := by positivity
          field_simp at this
          rw [this]
          ring
      · have e1 : z'.getD bits.length 0 = t * -c := by linarith
        have e2 : z'.getD (bits.length + 1) 0 = t * 0 := by linarith
        rw [e1, e2]
        rfl)
  rw [if_pos (neg_ne_zero.mpr hb)] at hdual
  set y := (up N bits w ++ [-c] ++ [0] ++ [] ++ [-a]).map fun v => (-b)⁻¹ * v with hy
  have hyl : y.length = bits.length + 3 := by rw [hy]; simp [hul]
  have hylast : y = (up N bits w ++ [-c] ++ [0]).map (fun v => (-b)⁻¹ * v) ++ [a / b] := by
    rw [hy, List.append_nil, List.map_append]
    congr 1
    simp
    field_simp
  have hpre : ((up N bits w ++ [-c] ++ [0]).map fun v => (-b)⁻¹ * v).length = bits.length + 2 := by simp [hul]
  obtain ⟨rel, hrel0, hiter⟩ : ∃ rel, 0 ≤ rel ∧ searchIter solve [N] (scaleCols N bits) [f] 1 lr
      = .ok { coeffs := y, choice := 1, dfRaw := [a / b], relerr := rel } := by
    unfold searchIter
    rw [hk1]
    simp only [List.length_singleton, List.range_one, List.map_cons, List.map_nil]
    rw [hsc, hder]
    have hsum : [N].sum = N := by simp
    rw [hsum, cosCols_cons N f 1 one_pos, sinCols_cons N f 1 one_pos]
    simp only [Nat.sub_self, List.range_zero, List.map_nil]
    rw [hdual]
    simp only
    have hdrop : y.drop (y.length - 1) = [a / b] := by
      rw [hyl]
      conv_lhs => rw [hylast]
      rw [List.drop_left' (by rw [hpre]; omega)]
    rw [hdrop]
    exact ⟨_, div_nonneg (Real.sqrt_nonneg _) (Real.sqrt_nonneg _), rfl⟩
  have hnot : ¬ rel < reltol := by linarith
  have htake : y.take (y.length - 1) = (up N bits w ++ [-c] ++ [0]).map fun v => (-b)⁻¹ * v := by
    rw [hyl]
    conv_lhs => rw [hylast]
    rw [List.take_left' (by rw [hpre]; omega)]
  have hopen : ∀ maxIter, calibrate solve est segs (.scalar f) (some true) given 1 lr reltol maxIter
      = match searchLoop solve [N] (scaleCols N bits) 1 lr reltol maxIter [f] [0] none with
        | .error e => .error e
        | .ok (fa', c, b) =>
          match recoverRank (recoverScale c bits.length (Real.sqrt (1 + c.getD (bits.length + 1 * 1) 0 ^ 2)) (bits.map (colScale N))) P.links with
          | .error e => .error e
          | .ok w => .ok (postProcess [N] fa' bits w bits.length 1 c b (Real.sqrt (1 + c.getD (bits.length + 1 * 1) 0 ^ 2))) := by
    intro maxIter
    unfold calibrate
    rw [if_neg (by
      rintro ⟨f', hf', h⟩
      simp only [FreqArg.values, List.mem_singleton] at hf'
      rw [hf'] at h
      exact absurd h (not_lt.mpr hf)), hprep]
    simp only [List.map_cons, List.map_nil, List.flatten_cons, List.flatten_nil, List.append_nil, List.sum_cons, List.sum_nil, add_zero,
      List.length_singleton]
    rw [← hbits, ← hN, ← hP, hPe]
    simp only [estimateFrequencies, if_neg hf0, FreqArg.values, List.replicate_one]
    have hsearch : searchWanted (some true) [f] [f] = true := by unfold searchWanted; simp
    simp only [hsearch, if_true]
    rcases searchLoop solve [N] (scaleCols N bits) 1 lr reltol maxIter [f] [0] none with e | ⟨fa', c', b'⟩
    · rfl
    · simp only
      cases recoverRank (recoverScale c' bits.length (Real.sqrt (1 + c'.getD (bits.length + 1 * 1) 0 ^ 2)) (bits.map (colScale N))) P.links <;> rfl
  have hrecl : ∀ (v : List ℝ) (ν : ℝ), (recoverScale v bits.length ν (bits.map (colScale N))).length = bits.length := by
    intro v ν; simp [recoverScale]
  have hfirst : (List.range [N].length).map (fun (k : ℕ) => [f].getD k 0 + [(0 : ℝ)].getD k 0) = [f] := by simp [List.range_succ]
  constructor
  · have hnext : (List.range [N].length).map (fun (k : ℕ) => [f].getD k 0 + (nextDelta [N] lr [a / b]).getD k 0) = [f + a / b * lr / N] := by
      unfold nextDelta
      simp [List.range_succ]
    obtain ⟨it, hit⟩ := searchIter_ok solve N (scaleCols N bits) (f + a / b * lr / N) lr
    have hloop : ∃ v ch, searchLoop solve [N] (scaleCols N bits) 1 lr reltol 2 [f] [0] none = .ok ([f + a / b * lr / N], v, ch) := by
      simp only [searchLoop, hfirst, hiter]
      rw [if_neg hnot]
      simp only [hnext, hit]
      split_ifs <;> exact ⟨_, _, rfl⟩
    obtain ⟨v, ch, hloop⟩ := hloop
    refine ⟨_, by rw [hopen, hloop]; simp only; rw [(hpf _ (hrecl _ _)).2], rfl⟩
  · have hloop : searchLoop solve [N] (scaleCols N bits) 1 lr reltol 1 [f] [0] none
        = .ok ([f], (up N bits w ++ [-c] ++ [0]).map (fun v => (-b)⁻¹ * v), 1) := by
      simp only [searchLoop, hfirst, hiter]
      rw [if_neg hnot]
      simp only [List.length_singleton]
      rw [htake]
    have hq : ((up N bits w ++ [-c] ++ [0]).map (fun v => (-b)⁻¹ * v)).getD (bits.length + 1 * 1) 0 = 0 := by
      rw [getD_map_list, List.append_assoc]
      have := getD_append_right_list (up N bits w) ([-c] ++ [0]) 1 0
      rw [hul] at this
      rw [mul_one, this]
      simp
    have hwp : recoverScale ((up N bits w ++ [-c] ++ [0]).map (fun v => (-b)⁻¹ * v)) bits.length 1 (bits.map (colScale N))
        = w.map fun v => (-b)⁻¹ * v := by
      have := down_up N bits w ([-c] ++ [0]) hbl (-b)⁻¹ 1
      rw [div_one, ← List.append_assoc] at this
      exact this
    refine ⟨postProcess [N] [f] bits (w.map fun v => (-b)⁻¹ * v) bits.length 1 ((up N bits w ++ [-c] ++ [0]).map fun v => (-b)⁻¹ * v) 1 1,
      (-b)⁻¹ * (if (w.map fun v => (-b)⁻¹ * v).sum < 0 then -1 else 1), ?_, rfl, ?_, ?_⟩
    · rw [hopen, hloop]
      simp only [hq]
      have : Real.sqrt (1 + (0 : ℝ) ^ 2) = 1 := by norm_num
      rw [this, hwp, (hpf _ (by simp [hbl])).2]
    · unfold postProcess
      simp only
      rw [List.map_map]
      apply List.map_congr_left
      intro v _
      simp only [Function.comp]
      ring
    · split_ifs
      · field_simp
      · field_simp

/-- The record `1, 1, 0, 0` at frequency 1/4, searched from the exact frequency with `learning_rate = 0.5`: reported frequency 3/8. -/
theorem C42_search_leaves_exact_frequency (solve : Lstsq) (hs : IsLstsq solve) :
    ∃ r, calibrate solve [] [quarterRows] (.scalar (1 / 4)) (some true) none 1 (1 / 2) 0 2 = .ok r ∧ r.freq = [3 / 8] := by
  have hc : ∀ n : ℕ, Real.cos (2 * Real.pi * (1 / 4) * n) = if n % 4 = 0 then 1 else if n % 4 = 2 then -1 else 0 := by
    intro n; rw [← quarter_cos]; simp
  have hsn : ∀ n : ℕ, Real.sin (2 * Real.pi * (1 / 4) * n) = if n % 4 = 1 then 1 else if n % 4 = 3 then -1 else 0 := by
    intro n; rw [← quarter_sin]; simp
  have hl : quarterRows.length = 4 := rfl
  have h := (C42_search_step solve hs [] [quarterRows] (1 / 4) (by norm_num) (by norm_num) none (1 / 2) 0 le_rfl quarterRows 1 [1] quarter_prep
    _ rfl [1] rfl (1 / 2) (1 / 2) (1 / 2) (by norm_num)
    (by
      intro n hn
      rw [quarter_bits, hc, hsn]
      rw [hl] at hn
      interval_cases n <;> norm_num [quarterRows])
    (by
      intro u d e p q hu h
      obtain ⟨x, rfl⟩ := List.length_eq_one_iff.mp (show u.length = 1 by simpa using hu)
      have e0 := h 0 (by rw [hl]; norm_num)
      have e1 := h 1 (by rw [hl]; norm_num)
      have e2 := h 2 (by rw [hl]; norm_num)
      have e3 := h 3 (by rw [hl]; norm_num)
      unfold searchColumn at e0 e1 e2 e3
      rw [quarter_bits, hc, hsn, hl] at e0 e1 e2 e3
      norm_num [quarterRows] at e0 e1 e2 e3
      have hpi := Real.pi_pos
      have he : e * Real.pi = 0 := by linarith
      have he0 : e = 0 := (mul_eq_zero.mp he).resolve_right hpi.ne'
      subst he0
      exact ⟨x, by simp, by linarith, rfl, by linarith, by linarith⟩)).1
  obtain ⟨r, h1, h2⟩ := h
  refine ⟨r, h1, ?_⟩
  rw [h2, hl]
  norm_num

end Verif
