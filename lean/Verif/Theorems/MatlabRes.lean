import Verif.Model.MatlabRes
import Verif.Theorems.Residual
import Verif.Theorems.MatlabCal

/-!
# C135: stage residuals against `plotres.m` and `plotressin.m`
-/

namespace Verif

open Model Finset

variable {K : Type} [Field K] [LinearOrder K] [IsStrictOrderedRing K]

/-- The matrix with the given pairs as rows. -/
def rowMatrix (ps : List (ℤ × ℤ)) : StageMatrix where
  r := ps.length
  c := 2
  at_ i j := if j = 0 then (ps.getD i (0, 0)).1 else (ps.getD i (0, 0)).2

/-- The matrix with the given pairs as columns. -/
def colMatrix (ps : List (ℤ × ℤ)) : StageMatrix where
  r := 2
  c := ps.length
  at_ i j := if i = 0 then (ps.getD j (0, 0)).1 else (ps.getD j (0, 0)).2

private theorem map_getD_pairs (ps : List (ℤ × ℤ)) : ((List.range ps.length).map fun i => ((ps.getD i (0, 0)).1, (ps.getD i (0, 0)).2)) = ps := by
  apply List.ext_getElem
  · simp
  · intro i h1 h2
    simp only [List.getElem_map, List.getElem_range]
    rw [List.getD_eq_getElem _ _ h2]

private theorem pairs_rows (ps : List (ℤ × ℤ)) : mlPairs (rowMatrix ps) = some ps := by
  unfold mlPairs rowMatrix
  simp only [ne_eq, not_true_eq_false, and_false, if_false, if_true]
  congr 1
  exact map_getD_pairs ps

private theorem pairs_cols (ps : List (ℤ × ℤ)) (h : ps.length ≠ 2) : mlPairs (colMatrix ps) = some ps := by
  unfold mlPairs colMatrix
  simp only [ne_eq, not_true_eq_false, false_and, if_false, if_true]
  rw [if_neg h]
  congr 1
  exact map_getD_pairs ps

omit [IsStrictOrderedRing K] in
private theorem residual_in (m : ℕ) (signal : List K) (rows : List (List K)) (w : List K) (hs : signal.length = rows.length) (hr : ∀ r ∈ rows, r.length = m)
    (hw : w.length = m) (k : ℤ) (h0 : 0 ≤ k) (hk : k ≤ m) : mlResidual m signal rows w k = some (residualAt signal rows w k) := by
  unfold mlResidual residualAt
  rw [if_neg (by omega)]
  congr 1
  by_cases hz : k = 0
  · subst hz
    rw [if_pos rfl]
    apply List.ext_getElem
    · simp [hs]
    · intro i h1 h2
      simp
  · rw [if_neg hz]
    apply List.ext_getElem
    · simp
    · intro i h1 h2
      rw [List.getElem_zipWith, List.getElem_zipWith]
      have hl : (rows[i]'(by simp at h1; omega)).length = m := hr _ (List.getElem_mem _)
      have e1 : sliceEnd k (rows[i]'(by simp at h1; omega)).length = k.toNat := by
        unfold sliceEnd; rw [if_neg (by omega), hl]; omega
      have e2 : sliceEnd k w.length = k.toNat := by
        unfold sliceEnd; rw [if_neg (by omega), hw]; omega
      have e3 : headDot (rows[i]'(by simp at h1; omega)) w k
          = (((rows[i]'(by simp at h1; omega)).take k.toNat).zipWith (· * ·) (w.take k.toNat)).sum := by
        unfold headDot
        rw [e1, e2]
      rw [e3]

omit [Field K] [LinearOrder K] [IsStrictOrderedRing K] in
private theorem mapM_some {α β : Type} (f : α → Option β) (g : α → β) (l : List α) (h : ∀ a ∈ l, f a = some (g a)) : l.mapM f = some (l.map g) := by
  induction l with
  | nil => rfl
  | cons a l ih =>
    rw [List.mapM_cons, h a (by simp), ih fun b hb => h b (by simp [hb])]
    rfl

omit [Field K] [LinearOrder K] [IsStrictOrderedRing K] in
private theorem mapM_none {α β : Type} (f : α → Option β) (l : List α) (a : α) (ha : a ∈ l) (h : f a = none) : l.mapM f = none := by
  induction l with
  | nil => simp at ha
  | cons b l ih =>
    rw [List.mapM_cons]
    rcases List.mem_cons.mp ha with rfl | hb
    · rw [h]; rfl
    · rw [ih hb]
      cases f b <;> rfl

omit [IsStrictOrderedRing K] in
private theorem tiles_in (m : ℕ) (signal : List K) (rows : List (List K)) (w : List K) (hs : signal.length = rows.length) (hr : ∀ r ∈ rows, r.length = m)
    (hw : w.length = m) (ps : List (ℤ × ℤ)) (hp : ∀ p ∈ ps, (0 ≤ p.1 ∧ p.1 ≤ m) ∧ 0 ≤ p.2 ∧ p.2 ≤ m) :
    ps.mapM (mlTile m signal rows w) = some (ps.map fun p => (residualAt signal rows w p.1, residualAt signal rows w p.2)) := by
  apply mapM_some
  intro p h
  obtain ⟨⟨a, b⟩, c, d⟩ := hp p h
  unfold mlTile
  rw [residual_in m signal rows w hs hr hw p.1 a b, residual_in m signal rows w hs hr hw p.2 c d]

omit [IsStrictOrderedRing K] in
private theorem python_call (m : ℕ) (signal : List K) (rows : List (List K)) (w : List K) (hs : signal.length = rows.length) (hne : rows ≠ [])
    (hw : w.length = m) (ps : List (ℤ × ℤ)) :
    residualScatter m signal rows (some w) (some ps) = .ok (ps, ps.map fun p => residualAt signal rows w p.1, ps.map fun p => residualAt signal rows w p.2) := by
  unfold residualScatter
  rw [if_neg (by simp [hs]), if_neg hne]
  simp only [Option.getD_some]
  rw [if_pos]
  rw [List.all_eq_true]
  intro p _
  simp [sliceFits, hw]

omit [IsStrictOrderedRing K] in
/-- **C135 (same points).** For a rectangular bit matrix, one weight per column and stages between `0` and `m`, `plotres.m` draws exactly the residuals that
`plot_residual_scatter` returns, whether the pairs are passed as rows or — unless there are exactly two of them — as columns. -/
theorem C135_same (m : ℕ) (signal : List K) (rows : List (List K)) (w : List K) (hs : signal.length = rows.length) (hne : rows ≠ [])
    (hr : ∀ r ∈ rows, r.length = m) (hw : w.length = m) (ps : List (ℤ × ℤ)) (hp : ∀ p ∈ ps, (0 ≤ p.1 ∧ p.1 ≤ m) ∧ 0 ≤ p.2 ∧ p.2 ≤ m) :
    ∃ rx ry, residualScatter m signal rows (some w) (some ps) = .ok (ps, rx, ry) ∧ rx.length = ps.length ∧ ry.length = ps.length ∧
      mlPlotres m signal rows (some w) (.mat (rowMatrix ps)) = some (rx.zip ry) ∧
      (ps.length ≠ 2 → mlPlotres m signal rows (some w) (.mat (colMatrix ps)) = some (rx.zip ry)) := by
  refine ⟨_, _, python_call m signal rows w hs hne hw ps, by simp, by simp, ?_, ?_⟩
  · unfold mlPlotres mlResolveXy
    rw [if_neg (by simp [hs])]
    simp only [pairs_rows, Option.getD_some]
    rw [tiles_in m signal rows w hs hr hw ps hp, List.zip_map']
  · intro h2
    unfold mlPlotres mlResolveXy
    rw [if_neg (by simp [hs])]
    simp only [pairs_cols ps h2, Option.getD_some]
    rw [tiles_in m signal rows w hs hr hw ps hp, List.zip_map']

/-- The pairs named by a preset. -/
def presetPairs (m : ℕ) : MlXy → List (ℤ × ℤ)
  | .sig => (List.range m).map fun (i : ℕ) => ((0 : ℤ), (i : ℤ) + 1)
  | .res => (List.range m).map fun (i : ℕ) => ((i : ℤ), (m : ℤ))
  | .bit => (List.range m).map fun (i : ℕ) => ((i : ℤ), (i : ℤ) + 1)
  | .mat _ => []

omit [IsStrictOrderedRing K] in
/-- **C135 (presets).** Each preset of `plotres.m` draws what `plot_residual_scatter` returns for the list of pairs it stands for; without weights and pairs
both functions use binary weights and the preset `res`. -/
theorem C135_presets (m : ℕ) (signal : List K) (rows : List (List K)) (w : List K) (hs : signal.length = rows.length) (hne : rows ≠ [])
    (hr : ∀ r ∈ rows, r.length = m) (hw : w.length = m) (xy : MlXy) (hxy : xy = .sig ∨ xy = .res ∨ xy = .bit) :
    (∃ rx ry, residualScatter m signal rows (some w) (some (presetPairs m xy)) = .ok (presetPairs m xy, rx, ry) ∧
      mlPlotres m signal rows (some w) xy = some (rx.zip ry)) ∧
    ∃ rx ry, residualScatter m signal rows none none = .ok (presetPairs m .res, rx, ry) ∧ mlPlotres m signal rows none .res = some (rx.zip ry) := by
  have hpairs : mlPairs (mlResolveXy m xy) = some (presetPairs m xy) := by
    rcases hxy with rfl | rfl | rfl <;> simp [mlPairs, mlResolveXy, presetPairs]
  have hin : ∀ p ∈ presetPairs m xy, (0 ≤ p.1 ∧ p.1 ≤ m) ∧ 0 ≤ p.2 ∧ p.2 ≤ m := by
    intro p hp
    rcases hxy with rfl | rfl | rfl <;> simp only [presetPairs, List.mem_map, List.mem_range] at hp <;> obtain ⟨i, hi, rfl⟩ := hp <;> simp <;> omega
  have hpairs' : mlPairs (mlResolveXy m .res) = some (presetPairs m .res) := by
    simp [mlPairs, mlResolveXy, presetPairs]
  have hin' : ∀ p ∈ presetPairs m .res, (0 ≤ p.1 ∧ p.1 ≤ m) ∧ 0 ≤ p.2 ∧ p.2 ≤ m := by
    intro p hp
    simp only [presetPairs, List.mem_map, List.mem_range] at hp
    obtain ⟨i, hi, rfl⟩ := hp
    simp; omega
  refine ⟨⟨_, _, python_call m signal rows w hs hne hw _, ?_⟩, ?_⟩
  · unfold mlPlotres
    rw [if_neg (by simp [hs])]
    simp only [hpairs, Option.getD_some]
    rw [tiles_in m signal rows w hs hr hw _ hin, List.zip_map']
  · have hlen : ((List.range m).map fun i => (2 : K) ^ (m - 1 - i)).length = m := by simp
    refine ⟨_, _, python_call m signal rows ((List.range m).map fun i => 2 ^ (m - 1 - i)) hs hne hlen (presetPairs m .res), ?_⟩
    · unfold mlPlotres
      rw [if_neg (by simp [hs])]
      simp only [hpairs', Option.getD_none]
      rw [tiles_in m signal rows _ hs hr hlen _ hin', List.zip_map']

omit [IsStrictOrderedRing K] in
/-- **C135 (stages beyond the matrix).** A stage above `m` stops `plotres.m`; `plot_residual_scatter` accepts it as the last stage. -/
theorem C135_beyond (m : ℕ) (signal : List K) (rows : List (List K)) (w : List K) (hs : signal.length = rows.length) (hne : rows ≠ [])
    (hr : ∀ r ∈ rows, r.length = m) (hw : w.length = m) (k : ℤ) (hk : m < k) :
    mlPlotres m signal rows (some w) (.mat (rowMatrix [(0, k)])) = none ∧
      ∃ rx ry, residualScatter m signal rows (some w) (some [(0, k)]) = .ok ([(0, k)], rx, ry) ∧
        ∀ n < signal.length, (ry.getD 0 []).getD n 0 = signal.getD n 0 - stageValue (rows.getD n []) w 0 m := by
  constructor
  · unfold mlPlotres mlResolveXy
    rw [if_neg (by simp [hs])]
    simp only [pairs_rows, Option.getD_some]
    apply mapM_none _ _ (0, k) (by simp)
    unfold mlTile
    have : mlResidual m signal rows w k = none := by
      unfold mlResidual
      rw [if_pos (by omega)]
    rw [this]
    cases mlResidual m signal rows w 0 <;> rfl
  · obtain ⟨rx, ry, h, _, _, hv⟩ := C66_any_stage m signal rows w [(0, k)] hs hne hr hw
    refine ⟨rx, ry, h, ?_⟩
    intro n hn
    rw [(hv 0 (by simp) n hn).2]
    simp only [List.getD_cons_zero]
    have : stageCount m k = m := by
      unfold stageCount
      rw [if_neg (by omega)]
      omega
    rw [this]

omit [IsStrictOrderedRing K] in
/-- **C135 (negative stages).** For the stage `-j` with `0 < j ≤ m`, `plotres.m` draws the signal itself and `plot_residual_scatter` the residual after all
but the last `j` bits; they agree on a sample only if those bits contribute nothing. -/
theorem C135_negative (m : ℕ) (signal : List K) (rows : List (List K)) (w : List K) (hs : signal.length = rows.length) (hne : rows ≠ [])
    (hr : ∀ r ∈ rows, r.length = m) (hw : w.length = m) (j : ℕ) (hj : 0 < j) :
    ∃ rx ry, residualScatter m signal rows (some w) (some [(0, -(j : ℤ))]) = .ok ([(0, -(j : ℤ))], rx, ry) ∧
      ∃ my, mlPlotres m signal rows (some w) (.mat (rowMatrix [(0, -(j : ℤ))])) = some [(signal, my)] ∧ my = signal ∧
        ∀ n < signal.length, (ry.getD 0 []).getD n 0 = signal.getD n 0 - stageValue (rows.getD n []) w 0 (m - j) ∧
          ((ry.getD 0 []).getD n 0 = my.getD n 0 ↔ stageValue (rows.getD n []) w 0 (m - j) = 0) := by
  obtain ⟨rx, ry, h, _, _, hv⟩ := C66_any_stage m signal rows w [(0, -(j : ℤ))] hs hne hr hw
  refine ⟨rx, ry, h, signal, ?_, rfl, ?_⟩
  · have hz : ∀ k : ℤ, k ≤ 0 → mlResidual m signal rows w k = some signal := by
      intro k hk
      unfold mlResidual
      have : k.toNat = 0 := by omega
      rw [this, if_neg (by omega)]
      congr 1
      apply List.ext_getElem
      · simp [hs]
      · intro i h1 h2
        simp
    unfold mlPlotres mlResolveXy
    rw [if_neg (by simp [hs])]
    simp only [pairs_rows, Option.getD_some]
    rw [mapM_some _ (fun _ => (signal, signal))]
    · rfl
    · intro p hp
      simp only [List.mem_singleton] at hp
      subst hp
      unfold mlTile
      rw [hz 0 le_rfl, hz (-(j : ℤ)) (by omega)]
  · intro n hn
    have e := (hv 0 (by simp) n hn).2
    simp only [List.getD_cons_zero] at e
    have : stageCount m (-(j : ℤ)) = m - j := by
      unfold stageCount
      rw [if_pos (by omega)]
      omega
    rw [this] at e
    refine ⟨e, ?_⟩
    rw [e]
    exact sub_eq_self

omit [IsStrictOrderedRing K] in
/-- **C135 (two pairs as columns).** A two-by-two matrix is always read by rows, so two pairs passed as columns are drawn as two other pairs. -/
theorem C135_square (m : ℕ) (signal : List K) (rows : List (List K)) (w : List K) (a b c d : ℤ) :
    mlPlotres m signal rows (some w) (.mat (colMatrix [(a, b), (c, d)])) = mlPlotres m signal rows (some w) (.mat (rowMatrix [(a, c), (b, d)])) := by
  have : mlPairs (colMatrix [(a, b), (c, d)]) = mlPairs (rowMatrix [(a, c), (b, d)]) := rfl
  unfold mlPlotres mlResolveXy
  simp only [this]

/-- Three pairs of a three-bit code, as rows, as columns and in Python. -/
example : ∃ rx ry, residualScatter 3 [(7 / 2 : ℚ), 5] [[0, 1, 1], [1, 0, 1]] (some [4, 2, 1]) (some [(0, 3), (1, 2), (2, 2)]) = .ok ([(0, 3), (1, 2), (2, 2)], rx, ry) ∧
    mlPlotres 3 [(7 / 2 : ℚ), 5] [[0, 1, 1], [1, 0, 1]] (some [4, 2, 1]) (.mat (colMatrix [(0, 3), (1, 2), (2, 2)])) = some (rx.zip ry) ∧
    rx.zip ry = [([7 / 2, 5], [1 / 2, 0]), ([7 / 2, 1], [3 / 2, 1]), ([3 / 2, 1], [3 / 2, 1])] := by
  obtain ⟨rx, ry, h1, _, _, _, h2⟩ := C135_same 3 [(7 / 2 : ℚ), 5] [[0, 1, 1], [1, 0, 1]] [4, 2, 1] rfl (by simp) (by simp) rfl
    [(0, 3), (1, 2), (2, 2)] (by simp)
  refine ⟨rx, ry, h1, h2 (by simp), ?_⟩
  have h3 := h2 (by simp)
  have h4 : mlPlotres 3 [(7 / 2 : ℚ), 5] [[0, 1, 1], [1, 0, 1]] (some [4, 2, 1]) (.mat (colMatrix [(0, 3), (1, 2), (2, 2)]))
      = some [([7 / 2, 5], [1 / 2, 0]), ([7 / 2, 1], [3 / 2, 1]), ([3 / 2, 1], [3 / 2, 1])] := by decide +kernel
  rw [h4] at h3
  exact (Option.some.inj h3).symm

/-- The stage 4 of a three-bit code. -/
example : mlPlotres 3 [(7 / 2 : ℚ)] [[0, 1, 1]] (some [4, 2, 1]) (.mat (rowMatrix [(0, 4)])) = none :=
  (C135_beyond 3 [(7 / 2 : ℚ)] [[0, 1, 1]] [4, 2, 1] rfl (by simp) (by simp) rfl 4 (by norm_num)).1

/-! ## `plotressin.m` -/

private theorem patch_links (N : ℕ) (bits : List (ℕ → ℝ)) (nominal : List ℝ) (P : Patched) (h : mlPatch N bits nominal = some P) :
    P.links.length = bits.length := by
  have key : ∀ (l : List ℕ) (s : Patched), (l.foldl (mlPatchStep N bits nominal) s).links.length = s.links.length + l.length := by
    intro l
    induction l with
    | nil => intro s; simp
    | cons a l ih =>
      intro s
      rw [List.foldl_cons, ih]
      have : (mlPatchStep N bits nominal s a).links.length = s.links.length + 1 := by
        unfold mlPatchStep
        dsimp only
        split_ifs
        · simp
        · simp
        · cases mlMergeTarget N (bits.getD a 0) s.eff <;> simp
      rw [this, List.length_cons]
      omega
  unfold mlPatch at h
  dsimp only at h
  split_ifs at h
  · simp only [Option.some.injEq] at h
    rw [← h, key]
    simp
  · simp only [Option.some.injEq] at h
    rw [← h]
    simp

private theorem result_shape (N : ℕ) (bits : List (ℕ → ℝ)) (P : Patched) (f : ℝ) (H : ℕ) (x : List ℝ) (sel : Bool) (hl : P.links.length = bits.length) :
    (mlCalResult N bits P f H x sel).weight.length = bits.length ∧ (mlCalResult N bits P f H x sel).ideal.length = N ∧
      ∀ n < N, (mlCalResult N bits P f H x sel).err.getD n 0
        = matVec bits (mlCalResult N bits P f H x sel).weight n - (mlCalResult N bits P f H x sel).offset - (mlCalResult N bits P f H x sel).ideal.getD n 0 := by
  unfold mlCalResult
  dsimp only
  refine ⟨by simp [hl], by simp, ?_⟩
  intro n hn
  rw [getD_range_map _ _ _ _ hn, getD_range_map _ _ _ _ hn]
  generalize hw : (List.map _ P.links) = ws
  generalize (if ws.sum < 0 then (-1 : ℝ) else 1) = pol
  have : matVec bits (ws.map fun v => v * pol) n = matVec bits ws n * pol := by
    unfold matVec
    rw [Finset.sum_mul]
    refine Finset.sum_congr rfl fun j _ => ?_
    rw [getD_map_mul]
    ring
  rw [this]
  ring

private theorem wcalsin_shape (solve : Lstsq) (rows : List (List ℝ)) (m : ℕ) (hor : orientSegment rows = rows) (hhead : (rows.headD []).length = m)
    (freq rate tol : ℝ) (niter H : ℕ) (fs : Bool) (given : Option (List ℝ)) (r : MlCal) (hcal : mlWcalsin solve rows freq rate tol niter H fs given = some r) :
    r.weight.length = m ∧ r.ideal.length = rows.length ∧ ∀ n < rows.length,
      r.err.getD n 0 = matVec ((List.range m).map fun (j : ℕ) => fun (n : ℕ) => (rows.getD n []).getD j 0) r.weight n - r.offset - r.ideal.getD n 0 := by
  unfold mlWcalsin at hcal
  by_cases h1 : freq < 0 ∨ rate ≤ 0 ∨ 1 ≤ rate ∨ tol ≤ 0 ∨ niter = 0 ∨ H = 0
  · rw [if_pos h1] at hcal
    exact absurd hcal (by simp)
  rw [if_neg h1] at hcal
  simp only [hor, hhead] at hcal
  cases hP : mlPatch rows.length ((List.range m).map fun (j : ℕ) => fun (n : ℕ) => (rows.getD n []).getD j 0) (mlNominal m given) with
  | none => rw [hP] at hcal; simp at hcal
  | some P =>
    have hl := patch_links _ _ _ P hP
    rw [hP] at hcal
    simp only at hcal
    generalize (if freq = 0 then mlCoarse solve rows.length (mlScaled rows.length P.eff) P (mlNominal m given) else some freq) = fo at hcal
    cases fo with
    | none => simp at hcal
    | some f =>
      simp only at hcal
      split at hcal
      all_goals
        simp only [Option.some.injEq] at hcal
        subst hcal
        obtain ⟨a, b, c⟩ := result_shape rows.length _ P _ H _ _ hl
        exact ⟨a.trans (by simp), b, c⟩

/-- **C135 (calibrated record).** `plotressin` calibrates and draws the residuals of its own fit: whatever the pair, the residual after all bits is minus the
calibration error, and the residual after `i` bits exceeds it by the calibrated value of the remaining bits. The residuals are those
`plot_residual_scatter` gives for the fitted signal with its offset, the oriented bits and the calibrated weights. -/
theorem C135_calibrated (solve : Lstsq) (seg rows : List (List ℝ)) (m : ℕ) (hrows : rows = orientSegment seg) (hne : rows ≠ []) (hm : m ≤ rows.length)
    (hr : ∀ r ∈ rows, r.length = m) (freq : ℝ) (H : ℕ) (r : MlCal) (hcal : mlWcalsin solve rows freq (1 / 2) (1 / 10 ^ 12) 100 H false none = some r) :
    ∃ rx ry, residualScatter m (r.ideal.map fun v => v + r.offset) rows (some r.weight) none = .ok (presetPairs m .res, rx, ry) ∧
      mlPlotressin solve seg .res freq H = some (rx.zip ry) ∧ rx.length = m ∧ ry.length = m ∧
      ∀ i < m, ∀ n < rows.length, (ry.getD i []).getD n 0 = -r.err.getD n 0 ∧
        (rx.getD i []).getD n 0 = -r.err.getD n 0 + stageValue (rows.getD n []) r.weight i m := by
  have hhead : (rows.headD []).length = m := by
    cases rows with
    | nil => exact absurd rfl hne
    | cons a l => exact hr a (by simp)
  have hor : orientSegment rows = rows := by
    unfold orientSegment
    rw [if_neg (by omega)]
  have hshape : r.weight.length = m ∧ r.ideal.length = rows.length ∧ ∀ n < rows.length,
      r.err.getD n 0 = matVec ((List.range m).map fun (j : ℕ) => fun (n : ℕ) => (rows.getD n []).getD j 0) r.weight n - r.offset - r.ideal.getD n 0 := by
    exact wcalsin_shape solve rows m hor hhead freq _ _ _ H _ none r hcal
  obtain ⟨hw, hi, he⟩ := hshape
  have hsl : (r.ideal.map fun v => v + r.offset).length = rows.length := by simp [hi]
  obtain ⟨⟨rx, ry, h1, h2⟩, _⟩ := C135_presets m (r.ideal.map fun v => v + r.offset) rows r.weight hsl hne hr hw .res (Or.inr (Or.inl rfl))
  obtain ⟨rx', ry', h1', l1, l2, hv⟩ := C66_residuals m (r.ideal.map fun v => v + r.offset) rows r.weight ((List.range m).map fun i => (i, m)) hsl hne hr hw
    (by intro p hp; simp only [List.mem_map, List.mem_range] at hp; obtain ⟨i, hi, rfl⟩ := hp; exact ⟨hi.le, le_rfl⟩)
  have hps : (((List.range m).map fun i => (i, m)).map fun p => ((p.1 : ℤ), (p.2 : ℤ))) = presetPairs m .res := by
    simp [presetPairs, Function.comp_def]
  rw [hps, h1] at h1'
  simp only [Except.ok.injEq, Prod.mk.injEq, true_and] at h1'
  obtain ⟨rfl, rfl⟩ := h1'
  refine ⟨rx, ry, h1, ?_, by simpa using l1, by simpa using l2, ?_⟩
  · unfold mlPlotressin
    rw [← hrows]
    simp only [hcal, hhead, h2]
  · intro i hi' n hn
    obtain ⟨e1, e2⟩ := hv i (by simpa using hi') n (by omega)
    have hg : ((List.range m).map fun i => (i, m)).getD i (0, 0) = (i, m) := getD_range_map _ _ _ _ hi'
    rw [hg] at e1 e2
    have hsig : (r.ideal.map fun v => v + r.offset).getD n 0 = r.ideal.getD n 0 + r.offset := by
      rw [List.getD_eq_getElem _ _ (by simp; omega), List.getElem_map, List.getD_eq_getElem _ _ (by omega)]
    have hfull : matVec ((List.range m).map fun (j : ℕ) => fun (n : ℕ) => (rows.getD n []).getD j 0) r.weight n = stageValue (rows.getD n []) r.weight 0 m := by
      rw [matVec_range]
      unfold stageValue
      rw [Finset.range_eq_Ico]
      exact Finset.sum_congr rfl fun j _ => mul_comm _ _
    have hm' := he n hn
    rw [hfull] at hm'
    rw [e1, e2, hsig, hm']
    refine ⟨by ring, ?_⟩
    have := C66_stages (0 : ℝ) (rows.getD n []) r.weight i m hi'.le
    linarith

/-- **C135 (noise-free record).** If the bits of a rectangular record combine with some weights into exactly an offset plus `H` harmonics whose fundamental is
not a pure cosine, uniquely up to a factor, `plotressin` at that frequency draws no residual after the last bit, and the residual after `i` bits is the
calibrated value of the remaining ones. -/
theorem C135_clean (solve : Lstsq) (hs : IsLstsq solve) (seg rows : List (List ℝ)) (m : ℕ) (nominal : List ℝ)
    (hprep : prepareInput [rows] none = .ok ([rows], m, nominal)) (hrows : rows = orientSegment seg) (hm : m ≤ rows.length) (hr : ∀ r ∈ rows, r.length = m)
    (f : ℝ) (hf0 : 0 < f) (hf : f ≤ 1 / 2) (H : ℕ) (hH : 0 < H) (w : List ℝ) (hlen : w.length = m) (c : ℝ) (a b : ℕ → ℝ)
    (hclean : ∀ n < rows.length, ∑ j ∈ range m, w.getD j 0 * (rows.getD n []).getD j 0 = harmonicSeries f H c a b n) (hb0 : b 0 ≠ 0)
    (honly : OnlyFit rows.length ((List.range m).map fun (j : ℕ) => fun (n : ℕ) => (rows.getD n []).getD j 0) f H w c a b) :
    ∃ (s : ℝ) (rx ry : List (List ℝ)), s ^ 2 * (a 0 ^ 2 + b 0 ^ 2) = 1 ∧ mlPlotressin solve seg .res f H = some (rx.zip ry) ∧ rx.length = m ∧ ry.length = m ∧
      ∀ i < m, ∀ n < rows.length, (ry.getD i []).getD n 0 = 0 ∧
        (rx.getD i []).getD n 0 = s * stageValue (rows.getD n []) w i m := by
  obtain ⟨r, q, h1, h2, h3⟩ := C133_same_clean solve hs [] rows f hf0 hf none (by simp) none H hH 0 0 0 (1 / 2) (1 / 10 ^ 12) (by norm_num) (by norm_num)
    (by positivity) 100 (by norm_num) rows m nominal hprep w hlen c a b hclean hb0 honly
  obtain ⟨r', s, k1, k2, k3, _, _, k4, _, _⟩ := C40_full_rank solve hs [] [rows] f hf0.ne' hf none (by simp) none H hH 0 0 0 rows m nominal hprep w hlen c a b
    hclean (Or.inr hb0) honly
  rw [h1] at k1
  obtain rfl := Except.ok.inj k1
  have hne : rows ≠ [] := by
    rintro rfl
    have := (prep_single [] none [] m nominal hprep).2.2.2.1
    simp at this
  obtain ⟨rx, ry, _, p2, p3, p4, p5⟩ := C135_calibrated solve seg rows m hrows hne hm hr f H q h2
  refine ⟨s, rx, ry, k2, p2, p3, p4, ?_⟩
  intro i hi n hn
  obtain ⟨e1, e2⟩ := p5 i hi n hn
  have herr : q.err = List.replicate rows.length 0 := by
    have := h3.resid
    rw [k4] at this
    simpa using this
  have hz : q.err.getD n 0 = 0 := by
    rw [herr, List.getD_eq_getElem _ _ (by simpa using hn), List.getElem_replicate]
  rw [hz, neg_zero] at e1 e2
  refine ⟨e1, ?_⟩
  rw [e2, zero_add, h3.weight, k3]
  unfold stageValue
  rw [Finset.mul_sum]
  refine Finset.sum_congr rfl fun j _ => ?_
  rw [getD_map_list]
  ring

/-- One bit following `(1, 1, 0, 0)` at a quarter of the sampling rate. -/
example (solve : Lstsq) (hs : IsLstsq solve) : ∃ (s : ℝ) (rx ry : List (List ℝ)), s ^ 2 * ((1 / 2) ^ 2 + (1 / 2) ^ 2) = (1 : ℝ) ∧
    mlPlotressin solve quarterRows .res (1 / 4) 1 = some (rx.zip ry) ∧ rx.length = 1 ∧ ry.length = 1 ∧
      ∀ i < 1, ∀ n < quarterRows.length, (ry.getD i []).getD n 0 = 0 ∧ (rx.getD i []).getD n 0 = s * stageValue (quarterRows.getD n []) [1] i 1 :=
  C135_clean solve hs quarterRows quarterRows 1 [1] quarter_prep (by simp [orientSegment, quarterRows]) (by simp [quarterRows]) (by simp [quarterRows])
    (1 / 4) (by norm_num) (by norm_num) 1 one_pos [1] rfl (1 / 2) (fun _ => 1 / 2) (fun _ => 1 / 2) quarter_clean (by norm_num) quarter_only

end Verif
