import Verif.Model.CapWeight
import Verif.Spec.CapWeight
import Mathlib.Tactic.NormNum
import Mathlib.Tactic.Positivity
import Mathlib.Algebra.BigOperators.Ring.List
import Mathlib.Algebra.Order.BigOperators.Group.List

/-!
# C09: capacitor array → bit weights
-/

namespace Verif

open Model Spec

variable {K : Type} [Field K] [LinearOrder K] [IsStrictOrderedRing K]

/-- Run of the loop on a list of sections. -/
private def capRun (secs : List (Section K)) : List K × K :=
  (secs.map (fun s => (s.cd, s.cb, s.cp))).foldl capStep ([], 0)

private theorem capRun_snoc (secs : List (Section K)) (s : Section K) :
    capRun (secs ++ [s]) = capStep (capRun secs) (s.cd, s.cb, s.cp) := by
  unfold capRun; simp

private theorem zip_eq_map (secs : List (Section K)) :
    (secs.map (·.cd)).zip ((secs.map (·.cb)).zip (secs.map (·.cp))) =
      secs.map (fun s => (s.cd, s.cb, s.cp)) := by
  induction secs with
  | nil => rfl
  | cons s l ih => simp [ih]

private theorem capRun_length (secs : List (Section K)) : (capRun secs).1.length = secs.length := by
  induction secs using List.reverseRecOn with
  | nil => rfl
  | append_singleton l s ih =>
    rw [capRun_snoc]; unfold capStep; simp only
    split_ifs <;> simp [ih]

private def NonnegCaps (s : Section K) : Prop := 0 ≤ s.cd ∧ 0 ≤ s.cb ∧ 0 ≤ s.cp

private theorem capRun_nonneg (secs : List (Section K)) (h : ∀ s ∈ secs, NonnegCaps s) :
    0 ≤ (capRun secs).2 ∧ (∀ w ∈ (capRun secs).1, 0 ≤ w) ∧ (capRun secs).1.sum ≤ 1 := by
  induction secs using List.reverseRecOn with
  | nil => refine ⟨le_refl _, ?_, ?_⟩ <;> simp [capRun]
  | append_singleton l s ih =>
    obtain ⟨hc, hw, hs⟩ := ih (fun t ht => h t (by simp [ht]))
    obtain ⟨h1, h2, h3⟩ := h s (by simp)
    rw [capRun_snoc]; unfold capStep; simp only
    split_ifs with h0 hb
    · refine ⟨hc, ?_, by simpa using hs⟩
      intro w hwm; simp at hwm; rcases hwm with hwm | rfl
      · exact hw w hwm
      · exact le_refl _
    all_goals
      have hpos : 0 < s.cd + s.cp + (capRun l).2 := lt_of_le_of_ne (by positivity) (Ne.symm h0)
      have hmem : ∀ w ∈ (capRun l).1.map (· * ((capRun l).2 / (s.cd + s.cp + (capRun l).2)))
          ++ [s.cd / (s.cd + s.cp + (capRun l).2)], 0 ≤ w := by
        intro w hwm
        simp only [List.mem_append, List.mem_map, List.mem_singleton] at hwm
        rcases hwm with ⟨a, ha, rfl⟩ | rfl
        · exact mul_nonneg (hw a ha) (div_nonneg hc hpos.le)
        · exact div_nonneg h1 hpos.le
      have hsum : ((capRun l).1.map (· * ((capRun l).2 / (s.cd + s.cp + (capRun l).2)))
          ++ [s.cd / (s.cd + s.cp + (capRun l).2)]).sum ≤ 1 := by
        rw [List.sum_append, List.sum_singleton, List.sum_map_mul_right]
        simp only [List.map_id']
        have hle : (capRun l).1.sum * ((capRun l).2 / (s.cd + s.cp + (capRun l).2)) ≤
            1 * ((capRun l).2 / (s.cd + s.cp + (capRun l).2)) :=
          mul_le_mul_of_nonneg_right hs (div_nonneg hc hpos.le)
        calc _ ≤ 1 * ((capRun l).2 / (s.cd + s.cp + (capRun l).2)) + s.cd / (s.cd + s.cp + (capRun l).2) := by
              linarith
          _ = ((capRun l).2 + s.cd) / (s.cd + s.cp + (capRun l).2) := by ring
          _ ≤ 1 := by rw [div_le_one hpos]; linarith
    · exact ⟨by positivity, hmem, hsum⟩
    · exact ⟨hpos.le, hmem, hsum⟩

private theorem dot_snoc (w b : List K) (x y : K) (h : w.length = b.length) :
    dot (w ++ [x]) (b ++ [y]) = dot w b + x * y := by
  unfold dot
  rw [List.zipWith_append h]; simp

private theorem dot_map_mul (w b : List K) (c : K) : dot (w.map (· * c)) b = dot w b * c := by
  unfold dot
  induction w generalizing b with
  | nil => simp
  | cons x w ih =>
    cases b with
    | nil => simp
    | cons y b => simp [ih]; ring

private theorem ladder_charge (secs : List (Section K)) (h : ∀ s ∈ secs, NonnegCaps s) (V Q : K)
    (hl : Ladder secs V Q) :
    Q = (capRun secs).2 * (V - dot (capRun secs).1 (secs.map (·.b))) := by
  induction hl with
  | nil V => simp [capRun]
  | @snoc l s v q V Q hl hQ hwire hbridge ih =>
    obtain ⟨h1, h2, h3⟩ := h s (by simp)
    have hnn := capRun_nonneg l (fun t ht => h t (by simp [ht]))
    have ih' := ih (fun t ht => h t (by simp [ht]))
    have hlen : (capRun l).1.length = (l.map (·.b)).length := by rw [capRun_length]; simp
    rw [capRun_snoc]; unfold capStep; simp only [List.map_append, List.map_cons, List.map_nil]
    set c := (capRun l).2
    set w := (capRun l).1
    set D := dot w (l.map (·.b)) with hD
    by_cases h0 : s.cd + s.cp + c = 0
    · rw [if_pos h0]
      have hc0 : c = 0 := by linarith [hnn.1]
      have hcd : s.cd = 0 := by linarith [hnn.1]
      have hcp : s.cp = 0 := by linarith [hnn.1]
      simp only [hc0, zero_mul]
      rw [hQ, ih', hc0, hcd, hcp]; ring
    · rw [if_neg h0]
      have hpos : 0 < s.cd + s.cp + c := lt_of_le_of_ne (by linarith [hnn.1]) (Ne.symm h0)
      simp only
      rw [dot_snoc _ _ _ _ (by simpa using hlen), dot_map_mul, ← hD]
      set n := s.cd + s.cp + c with hn
      have hnode : Q = n * (v - (D * (c / n) + s.cd / n * s.b)) := by
        rw [hQ, ih']
        field_simp
        rw [hn]; ring
      by_cases hb : s.cb > 0
      · rw [if_pos hb]
        have hlink := hbridge hb
        have hv : v = V - Q / s.cb := by field_simp; linarith
        set D' := D * (c / n) + s.cd / n * s.b
        rw [hv] at hnode
        have hcbn : s.cb + n ≠ 0 := by positivity
        have : Q * (s.cb + n) = s.cb * n * (V - D') := by
          have h3 : Q = n * (V - Q / s.cb - D') := hnode
          have h4 : Q * s.cb = n * (V * s.cb - Q - D' * s.cb) := by
            calc Q * s.cb = n * (V - Q / s.cb - D') * s.cb := by rw [← h3]
              _ = n * (V * s.cb - Q - D' * s.cb) := by field_simp
          linarith
        field_simp
        linarith
      · rw [if_neg hb]
        have hcb0 : s.cb = 0 := le_antisymm (not_lt.mp hb) h2
        rw [hwire hcb0, hnode]

/-- Every terminal voltage is realised by some distribution of charge (the specification is satisfiable). -/
private theorem ladder_exists (secs : List (Section K)) (h : ∀ s ∈ secs, NonnegCaps s) (V : K) :
    ∃ Q, Ladder secs V Q := by
  induction secs using List.reverseRecOn generalizing V with
  | nil => exact ⟨0, .nil V⟩
  | append_singleton l s ih =>
    have hl : ∀ t ∈ l, NonnegCaps t := fun t ht => h t (by simp [ht])
    obtain ⟨h1, h2, h3⟩ := h s (by simp)
    have hc := (capRun_nonneg l hl).1
    by_cases hb : s.cb = 0
    · obtain ⟨q, hq⟩ := ih hl V
      exact ⟨_, .snoc hq rfl (fun _ => rfl) (fun hb' => absurd hb hb'.ne')⟩
    · have hbp : 0 < s.cb := lt_of_le_of_ne h2 (Ne.symm hb)
      -- choose the node voltage v solving  c(v-D)+cd(v-b)+cp v = cb (V - v)
      set c := (capRun l).2
      set D := dot (capRun l).1 (l.map (·.b))
      set v := (s.cb * V + c * D + s.cd * s.b) / (c + s.cd + s.cp + s.cb) with hv
      obtain ⟨q, hq⟩ := ih hl v
      have hqe := ladder_charge l hl v q hq
      refine ⟨_, .snoc hq rfl (fun hb' => absurd hb' hb) (fun _ => ?_)⟩
      rw [hqe]
      have hne : c + s.cd + s.cp + s.cb ≠ 0 := by positivity
      have hve : v * (c + s.cd + s.cp + s.cb) = s.cb * V + c * D + s.cd * s.b := by
        rw [hv]; field_simp
      change c * (v - D) + s.cd * (v - s.b) + s.cp * v = s.cb * (V - v)
      linarith

/-- The result of the API on the capacitor columns of a section list. -/
theorem convertCap_eq (secs : List (Section K)) :
    convertCapToWeight (secs.map (·.cd)) (secs.map (·.cb)) (secs.map (·.cp)) = .ok (capRun secs) := by
  unfold convertCapToWeight capRun
  simp [zip_eq_map]

/-- **C09 (charge redistribution).** For every array with non-negative capacitors and every choice of
bottom-plate voltages, `convert_cap_to_weight` succeeds and its result `(w, c_total)` is the Thévenin
equivalent of the physical network: whatever voltage `V` the output terminal sits at, the charge it draws
is `c_total·(V − Σ wᵢ bᵢ)`, and such a charge state exists for every `V`. -/
theorem C09_cap_weights_are_thevenin (secs : List (Section K))
    (h : ∀ s ∈ secs, 0 ≤ s.cd ∧ 0 ≤ s.cb ∧ 0 ≤ s.cp) :
    ∃ w c, convertCapToWeight (secs.map (·.cd)) (secs.map (·.cb)) (secs.map (·.cp)) = .ok (w, c) ∧
      (∀ V Q, Ladder secs V Q ↔ Q = c * (V - dot w (secs.map (·.b)))) := by
  refine ⟨_, _, convertCap_eq secs, ?_⟩
  intro V Q
  constructor
  · exact ladder_charge secs h V Q
  · rintro rfl
    obtain ⟨Q', hQ'⟩ := ladder_exists secs h V
    have := ladder_charge secs h V Q' hQ'
    rwa [this] at hQ'

/-- **C09 (open output).** If the output is left open (draws no charge) and the array has any capacitance,
its voltage is exactly the weighted sum of the bottom-plate voltages. -/
theorem C09_open_output_voltage (secs : List (Section K))
    (h : ∀ s ∈ secs, 0 ≤ s.cd ∧ 0 ≤ s.cb ∧ 0 ≤ s.cp) (w : List K) (c : K)
    (hr : convertCapToWeight (secs.map (·.cd)) (secs.map (·.cb)) (secs.map (·.cp)) = .ok (w, c))
    (hc : c ≠ 0) (V : K) : Ladder secs V 0 ↔ V = dot w (secs.map (·.b)) := by
  obtain ⟨w', c', hr', hspec⟩ := C09_cap_weights_are_thevenin secs h
  rw [hr'] at hr
  simp only [Except.ok.injEq, Prod.mk.injEq] at hr
  obtain ⟨rfl, rfl⟩ := hr
  rw [hspec V 0]
  constructor
  · intro h0
    rcases mul_eq_zero.mp h0.symm with h1 | h1
    · exact absurd h1 hc
    · linarith
  · rintro rfl; simp

/-- **C09 (range).** Weights are non-negative, one per bit, and sum to at most 1. -/
theorem C09_cap_weights_range (secs : List (Section K))
    (h : ∀ s ∈ secs, 0 ≤ s.cd ∧ 0 ≤ s.cb ∧ 0 ≤ s.cp) (w : List K) (c : K)
    (hr : convertCapToWeight (secs.map (·.cd)) (secs.map (·.cb)) (secs.map (·.cp)) = .ok (w, c)) :
    w.length = secs.length ∧ (∀ x ∈ w, 0 ≤ x) ∧ w.sum ≤ 1 ∧ 0 ≤ c := by
  rw [convertCap_eq] at hr
  simp only [Except.ok.injEq] at hr
  have := capRun_nonneg secs h
  rw [hr] at this
  have hl := capRun_length secs
  rw [hr] at hl
  exact ⟨hl, this.2.1, this.2.2, this.1⟩

/-- **C09 (errors).** `ValueError` exactly when the three vectors differ in length. -/
theorem C09_cap_weights_error_iff (cd cb cp : List K) :
    convertCapToWeight cd cb cp = .error .valueError ↔ ¬ (cd.length = cb.length ∧ cb.length = cp.length) := by
  unfold convertCapToWeight
  by_cases h : cd.length = cb.length ∧ cb.length = cp.length
  · simp [h]
  · rw [if_pos h]; simp only [true_iff]; exact h

/-- **C09 (plain binary array).** Without bridges and parasitics each weight is the capacitor's share of the
total, so the weights sum to one. -/
theorem C09_no_bridge_share (caps : List K) (hpos : ∀ x ∈ caps, 0 < x) :
    convertCapToWeight caps (caps.map fun _ => 0) (caps.map fun _ => 0) =
      .ok (caps.map (· / caps.sum), caps.sum) := by
  have key : ∀ l : List K, (∀ x ∈ l, 0 < x) →
      capRun (l.map fun x => (⟨x, 0, 0, 0⟩ : Section K)) = (l.map (· / l.sum), l.sum) := by
    intro l hl
    induction l using List.reverseRecOn with
    | nil => simp [capRun]
    | append_singleton l x ih =>
      have hl' : ∀ y ∈ l, 0 < y := fun y hy => hl y (by simp [hy])
      have hx : 0 < x := hl x (by simp)
      have hs : 0 ≤ l.sum := List.sum_nonneg (fun y hy => (hl' y hy).le)
      rw [List.map_append, List.map_singleton, capRun_snoc, ih hl']
      unfold capStep
      have hne : l.sum + x ≠ 0 := (by positivity : (0:K) < l.sum + x).ne'
      simp only [ gt_iff_lt, lt_irrefl, if_false, List.sum_append, List.sum_singleton,
        List.map_append, List.map_singleton, List.map_map, add_zero]
      rw [add_comm x l.sum, if_neg hne]
      congr 1
      congr 1
      apply List.map_congr_left
      intro y hy
      have hsp : 0 < l.sum := lt_of_lt_of_le (hl' y hy)
        (List.single_le_sum (fun z hz => (hl' z hz).le) y hy)
      have : l.sum + x ≠ 0 := by positivity
      simp only [Function.comp]
      field_simp
  have := convertCap_eq (caps.map fun x => (⟨x, 0, 0, 0⟩ : Section K))
  rw [key caps hpos] at this
  simpa [List.map_map, Function.comp_def] using this

/-- Non-vacuity: a two-section array with a bridge and a parasitic. -/
example : ∀ s ∈ ([⟨1, 2, 1, 1⟩, ⟨2, 0, 0, 0⟩] : List (Section ℚ)), 0 ≤ s.cd ∧ 0 ≤ s.cb ∧ 0 ≤ s.cp := by
  decide +kernel
example : convertCapToWeight [(1 : ℚ), 2] [2, 0] [1, 0] = .ok ([1 / 6, 2 / 3], 3) := by decide +kernel

end Verif
