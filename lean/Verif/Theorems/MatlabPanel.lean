import Verif.Model.MatlabPanel
import Verif.Theorems.SineInl
import Mathlib.Data.Nat.Log
import Mathlib.Data.Int.Log
import Mathlib.Data.Nat.Size

/-!
# C153: the MATLAB dashboard `adcpanel`

For every behaviour of the analysis functions it calls.
-/

namespace Verif

open Model Finset

namespace Spec

/-- Value of a row of binary digits, first digit most significant. -/
noncomputable def binaryValue (b : List ℝ) : ℝ := ∑ j ∈ range b.length, b.getD j 0 * 2 ^ (b.length - 1 - j)

/-- Value of a row of binary digits in two's complement. -/
noncomputable def twosComplement (b : List ℝ) : ℝ := binaryValue b - 2 ^ b.length * b.getD 0 0

end Spec

open Spec

/-! ## Integer codes as bits -/

private theorem digits_sum (d w : ℕ) : ∑ i ∈ range w, d / 2 ^ i % 2 * 2 ^ i = d % 2 ^ w := by
  induction w with
  | zero => simp [Nat.mod_one]
  | succ w ih => rw [sum_range_succ, ih, Nat.mod_pow_succ]; ring

private theorem row_length (w d : ℕ) : (dec2binRow w d).length = w := by simp [dec2binRow]

private theorem row_getD (w d j : ℕ) (hj : j < w) : (dec2binRow w d).getD j 0 = ((d / 2 ^ (w - 1 - j) % 2 : ℕ) : ℝ) := by
  rw [List.getD_eq_getElem _ _ (by rw [row_length]; exact hj)]
  simp [dec2binRow]

private theorem row_value (w d : ℕ) (h : d < 2 ^ w) : binaryValue (dec2binRow w d) = d := by
  unfold binaryValue
  rw [row_length]
  have : ∀ j ∈ range w, (dec2binRow w d).getD j 0 * 2 ^ (w - 1 - j) = ((d / 2 ^ (w - 1 - j) % 2 * 2 ^ (w - 1 - j) : ℕ) : ℝ) := by
    intro j hj
    rw [row_getD w d j (mem_range.mp hj)]
    push_cast
    ring
  rw [sum_congr rfl this, ← Nat.cast_sum, sum_range_reflect (fun i => d / 2 ^ i % 2 * 2 ^ i) w, digits_sum, Nat.mod_eq_of_lt h]

private theorem row_top (w d : ℕ) (hw : 0 < w) (h : d < 2 ^ w) : (dec2binRow w d).getD 0 0 = if 2 ^ (w - 1) ≤ d then 1 else 0 := by
  rw [row_getD w d 0 hw, Nat.sub_zero]
  have h2 : 2 ^ w = 2 * 2 ^ (w - 1) := by rw [← pow_succ', Nat.sub_add_cancel hw]
  split_ifs with hc
  · have : d / 2 ^ (w - 1) = 1 := by
      apply Nat.div_eq_of_lt_le <;> omega
    rw [this]
    norm_num
  · rw [Nat.div_eq_of_lt (by omega)]
    norm_num

private theorem foldl_max_eq (n : ℕ) (l : List ℕ) (h : ∀ x ∈ l, x ≤ n) : l.foldl max n = n := by
  induction l with
  | nil => rfl
  | cons x l ih =>
    rw [List.foldl_cons, max_eq_left (h x (by simp))]
    exact ih fun y hy => h y (by simp [hy])

private theorem dec2bin_eq (n : ℕ) (ds : List ℕ) (h : ∀ d ∈ ds, d < 2 ^ n) : dec2bin n ds = ds.map (dec2binRow n) := by
  unfold dec2bin
  rw [foldl_max_eq]
  intro x hx
  obtain ⟨d, hd, rfl⟩ := List.mem_map.mp hx
  exact Nat.size_le.mpr (h d hd)

private theorem ceil_log (m : ℤ) (hm : 1 ≤ m) : ∃ k : ℕ, ⌈Real.logb 2 (m : ℝ)⌉ = k ∧ m ≤ 2 ^ k ∧ (k = 0 ∨ 2 ^ (k - 1) < m) := by
  obtain ⟨n, rfl⟩ := Int.eq_ofNat_of_zero_le (by omega : 0 ≤ m)
  refine ⟨Nat.clog 2 n, ?_, ?_, ?_⟩
  · have := Real.ceil_logb_natCast (b := 2) (r := ((n : ℕ) : ℝ)) (by positivity)
    rw [Int.clog_natCast] at this
    simpa using this
  · exact_mod_cast Nat.le_pow_clog (by norm_num) n
  · rcases Nat.lt_or_ge 1 n with h | h
    · right
      have := Nat.pow_pred_clog_lt_self (b := 2) (by norm_num) h
      rw [Nat.pred_eq_sub_one] at this
      exact_mod_cast this
    · left
      rw [Nat.clog_of_right_le_one h]

/-- **C153 (codes, unsigned).** Non-negative integer codes passed as `'bits'` become binary digits of equal width that give every code back, with no more digits than the largest
code needs. -/
theorem C153_codes_unsigned (codes : List ℤ) (hne : codes ≠ []) (hpos : ∀ c ∈ codes, 0 ≤ c) : ∃ w, 1 ≤ w ∧ (panelCodes codes).length = codes.length ∧
    (∀ i < codes.length, ((panelCodes codes).getD i []).length = w ∧ (∀ j < w, ((panelCodes codes).getD i []).getD j 0 = 0 ∨ ((panelCodes codes).getD i []).getD j 0 = 1) ∧
      binaryValue ((panelCodes codes).getD i []) = ((codes.getD i 0 : ℤ) : ℝ)) ∧
    (w = 1 ∨ ∃ c ∈ codes, 2 ^ (w - 1) ≤ c) := by
  obtain ⟨hlo, hlo'⟩ := intMin_spec codes hne
  obtain ⟨hhi, hhi'⟩ := intMax_spec codes hne
  obtain ⟨w, hw, hw1, hmax, hmin⟩ : ∃ w : ℕ, codeWidth (intMin codes) (intMax codes) = w ∧ 1 ≤ w ∧ intMax codes < 2 ^ w ∧ (w = 1 ∨ 2 ^ (w - 1) ≤ intMax codes) := by
    unfold codeWidth
    rw [if_pos (hpos _ hlo)]
    split_ifs with h0
    · exact ⟨1, rfl, le_rfl, by rw [h0]; norm_num, Or.inl rfl⟩
    · have h1 : 1 ≤ intMax codes := by have := hpos _ hhi; omega
      obtain ⟨k, e1, e2, e3⟩ := ceil_log (intMax codes + 1) (by omega)
      refine ⟨k, by rw [← e1]; push_cast; rfl, ?_, by omega, ?_⟩
      · rcases Nat.eq_zero_or_pos k with h | h
        · rw [h] at e2; norm_num at e2; omega
        · exact h
      · rcases e3 with e3 | e3
        · rw [e3] at e2; norm_num at e2; omega
        · exact Or.inr (by omega)
  have hlt : ∀ d ∈ codes.map (fun d : ℤ => (if d < 0 then 2 ^ w + d else d).toNat), d < 2 ^ w := by
    intro d hd
    obtain ⟨c, hc, rfl⟩ := List.mem_map.mp hd
    rw [if_neg (by have := hpos c hc; omega), Int.toNat_lt (hpos c hc)]
    push_cast
    exact lt_of_le_of_lt (hhi' c hc) hmax
  have hP : panelCodes codes = (codes.map (fun d : ℤ => (if d < 0 then 2 ^ w + d else d).toNat)).map (dec2binRow w) := by
    unfold panelCodes
    simp only
    rw [hw, Int.toNat_natCast, dec2bin_eq _ _ hlt]
  refine ⟨w, hw1, by rw [hP]; simp, fun i hi => ?_, hmin.imp_right fun h => ⟨_, hhi, h⟩⟩
  have hc := hpos _ (List.getElem_mem hi)
  have hrow : (panelCodes codes).getD i [] = dec2binRow w (codes[i]).toNat := by
    rw [hP, List.getD_eq_getElem _ _ (by simpa using hi)]
    simp only [List.getElem_map]
    rw [if_neg (by omega)]
  rw [hrow]
  refine ⟨row_length _ _, fun j hj => ?_, ?_⟩
  · rw [row_getD _ _ _ hj]
    rcases Nat.mod_two_eq_zero_or_one (codes[i].toNat / 2 ^ (w - 1 - j)) with h | h <;> rw [h] <;> norm_num
  · rw [row_value _ _ ((Int.toNat_lt hc).mpr (by push_cast; exact lt_of_le_of_lt (hhi' _ (List.getElem_mem hi)) hmax)), List.getD_eq_getElem _ _ hi]
    have : ((codes[i].toNat : ℤ) : ℝ) = ((codes[i] : ℤ) : ℝ) := by rw [Int.toNat_of_nonneg hc]
    exact_mod_cast this

/-- **C153 (codes, signed).** With a negative code among them the digits are two's complement: they give every code back, with no more digits than needed. -/
theorem C153_codes_signed (codes : List ℤ) (hneg : ∃ c ∈ codes, c < 0) : ∃ w, 1 ≤ w ∧ (panelCodes codes).length = codes.length ∧
    (∀ i < codes.length, ((panelCodes codes).getD i []).length = w ∧ (∀ j < w, ((panelCodes codes).getD i []).getD j 0 = 0 ∨ ((panelCodes codes).getD i []).getD j 0 = 1) ∧
      twosComplement ((panelCodes codes).getD i []) = ((codes.getD i 0 : ℤ) : ℝ)) ∧
    (w = 1 ∨ ∃ c ∈ codes, c < -2 ^ (w - 2) ∨ 2 ^ (w - 2) ≤ c) := by
  have hne : codes ≠ [] := by rintro rfl; obtain ⟨c, hc, _⟩ := hneg; simp at hc
  obtain ⟨hlo, hlo'⟩ := intMin_spec codes hne
  obtain ⟨hhi, hhi'⟩ := intMax_spec codes hne
  have hl0 : intMin codes < 0 := by obtain ⟨c, hc, h⟩ := hneg; exact lt_of_le_of_lt (hlo' c hc) h
  obtain ⟨w, hw, hw1, hmin, hmax, hsm⟩ : ∃ w : ℕ, codeWidth (intMin codes) (intMax codes) = w ∧ 1 ≤ w ∧ -2 ^ (w - 1) ≤ intMin codes ∧ intMax codes < 2 ^ (w - 1) ∧
      (w = 1 ∨ intMin codes < -2 ^ (w - 2) ∨ 2 ^ (w - 2) ≤ intMax codes) := by
    unfold codeWidth
    rw [if_neg (by omega)]
    obtain ⟨k, e1, e2, e3⟩ := ceil_log (-intMin codes) (by omega)
    have e1' : ⌈Real.logb 2 (-((intMin codes : ℤ) : ℝ))⌉ = k := by rw [← e1]; push_cast; rfl
    rw [e1']
    split_ifs with h0
    · obtain ⟨m, f1, f2, f3⟩ := ceil_log (intMax codes + 1) (by omega)
      have f1' : ⌈Real.logb 2 (((intMax codes : ℤ) : ℝ) + 1)⌉ = m := by rw [← f1]; push_cast; rfl
      rw [f1']
      have hk : (2 : ℤ) ^ k ≤ 2 ^ max k m := pow_le_pow_right₀ (by norm_num) (le_max_left _ _)
      have hm : (2 : ℤ) ^ m ≤ 2 ^ max k m := pow_le_pow_right₀ (by norm_num) (le_max_right _ _)
      refine ⟨max k m + 1, by push_cast; rw [max_add_add_right], by omega, ?_, ?_, ?_⟩
      · rw [Nat.add_sub_cancel]; omega
      · rw [Nat.add_sub_cancel]; omega
      · rw [show max k m + 1 - 2 = max k m - 1 by omega]
        rcases le_total m k with h | h
        · rw [max_eq_left h]
          rcases e3 with e3 | e3
          · left; omega
          · right; left; omega
        · rw [max_eq_right h]
          rcases f3 with f3 | f3
          · left; omega
          · right; right; omega
    · refine ⟨k + 1, by push_cast; rw [max_eq_left (by omega)], by omega, ?_, ?_, ?_⟩
      · rw [Nat.add_sub_cancel]; omega
      · rw [Nat.add_sub_cancel]
        have : (0 : ℤ) < 2 ^ k := by positivity
        omega
      · rw [show k + 1 - 2 = k - 1 by omega]
        rcases e3 with e3 | e3
        · left; omega
        · right; left; omega
  have h2 : (2 : ℤ) ^ w = 2 * 2 ^ (w - 1) := by rw [← pow_succ', Nat.sub_add_cancel hw1]
  have hp : (0 : ℤ) < 2 ^ (w - 1) := by positivity
  have hnum : ∀ c ∈ codes, ∃ d : ℕ, (if c < 0 then 2 ^ w + c else c).toNat = d ∧ (d : ℤ) = (if c < 0 then 2 ^ w + c else c) ∧ d < 2 ^ w := by
    intro c hc
    have a1 := hlo' c hc
    have a2 := hhi' c hc
    have hb : 0 ≤ (if c < 0 then 2 ^ w + c else c) := by split_ifs <;> omega
    refine ⟨_, rfl, Int.toNat_of_nonneg hb, (Int.toNat_lt hb).mpr ?_⟩
    push_cast
    split_ifs <;> omega
  have hP : panelCodes codes = (codes.map (fun d : ℤ => (if d < 0 then 2 ^ w + d else d).toNat)).map (dec2binRow w) := by
    unfold panelCodes
    simp only
    rw [hw, Int.toNat_natCast, dec2bin_eq]
    intro d hd
    obtain ⟨c, hc, rfl⟩ := List.mem_map.mp hd
    obtain ⟨d, d1, _, d3⟩ := hnum c hc
    rw [d1]
    exact d3
  refine ⟨w, hw1, by rw [hP]; simp, fun i hi => ?_, hsm.imp_right fun h => h.elim (fun h => ⟨_, hlo, Or.inl h⟩) fun h => ⟨_, hhi, Or.inr h⟩⟩
  have hm := List.getElem_mem hi
  obtain ⟨d, d1, d2, d3⟩ := hnum _ hm
  have hrow : (panelCodes codes).getD i [] = dec2binRow w d := by
    rw [hP, List.getD_eq_getElem _ _ (by simpa using hi)]
    simp only [List.getElem_map]
    rw [d1]
  rw [hrow]
  refine ⟨row_length _ _, fun j hj => ?_, ?_⟩
  · rw [row_getD _ _ _ hj]
    rcases Nat.mod_two_eq_zero_or_one (d / 2 ^ (w - 1 - j)) with h | h <;> rw [h] <;> norm_num
  · unfold twosComplement
    rw [row_value _ _ d3, row_length, row_top _ _ (by omega) d3, List.getD_eq_getElem _ _ hi]
    have d2' : ((d : ℤ) : ℝ) = ((if codes[i] < 0 then 2 ^ w + codes[i] else codes[i] : ℤ) : ℝ) := by rw [d2]
    have a1 := hlo' _ hm
    have a2 := hhi' _ hm
    by_cases hc : codes[i] < 0
    · rw [if_pos hc] at d2 d2'
      rw [if_pos (by zify; omega)]
      push_cast at d2'
      linarith
    · rw [if_neg hc] at d2 d2'
      rw [if_neg (by zify; omega)]
      push_cast at d2'
      linarith

/-! ## Orientation -/

private theorem transpose_row (xs : List ℝ) : mlTranspose xs.length [xs] = xs.map fun v => [v] := by
  unfold mlTranspose
  apply List.ext_getElem
  · simp
  · intro i h1 h2
    simp only [List.length_map, List.length_range] at h1
    simp [List.getD_eq_getElem, h1]

variable {R : Type} (lib : PanelLib R) (a : PanelArgs)

/-- **C153 (vectors).** A row vector and a column vector with the same samples give the same report, whatever the arguments. -/
theorem C153_vector (xs : List ℝ) : adcpanel lib a xs.length [xs] = adcpanel lib a 1 (xs.map fun v => [v]) := by
  rcases Nat.lt_trichotomy xs.length 1 with h | h | h
  · have : xs = [] := List.length_eq_zero_iff.mp (by omega)
    subst this
    unfold adcpanel panelData
    simp
  · obtain ⟨v, rfl⟩ := List.length_eq_one_iff.mp h
    rfl
  · unfold adcpanel panelData
    have h0 : xs.length ≠ 0 := by omega
    have h1 : xs.length ≠ 1 := by omega
    have h3 : ¬ xs.length < 1 := by omega
    have hx : xs ≠ [] := by rintro rfl; simp at h
    simp only [List.length_cons, List.length_nil, List.length_map, transpose_row, zero_add, h, h0, h1, h3, one_ne_zero, if_true, if_false, or_false, or_true, and_true, false_or, true_or, true_and, and_false, false_and]
    by_cases e1 : a.dataType = "auto"
    · simp [e1]
    · by_cases e2 : a.dataType = "bits"
      · simp [e2]
      · by_cases e3 : a.dataType = "values"
        · simp [e3]
        · simp [e1, e2, e3]

private theorem transpose_length (M : ℕ) (rows : List (List ℝ)) : (mlTranspose M rows).length = M := by simp [mlTranspose]

/-- **C153 (matrices).** A bit matrix lying on its side gives the report of the upright one. -/
theorem C153_matrix (M : ℕ) (rows : List (List ℝ)) (h2 : 2 ≤ rows.length) (hM : rows.length < M) (hty : a.dataType = "auto" ∨ a.dataType = "bits") :
    adcpanel lib a M rows = adcpanel lib a rows.length (mlTranspose M rows) := by
  unfold adcpanel panelData
  have h0 : rows.length ≠ 0 := by omega
  have h1 : rows.length ≠ 1 := by omega
  have g0 : M ≠ 0 := by omega
  have g1 : M ≠ 1 := by omega
  have g2 : ¬ M < rows.length := by omega
  rcases hty with e | e <;> simp [e, transpose_length, h0, h1, g0, g1, g2, hM]

/-- **C153 (codes are their bits).** Integer codes given as `'bits'` are analysed like their matrix of binary digits, when that matrix has at least two columns and at least as many rows. -/
theorem C153_codes_route (codes : List ℤ) (hne : codes ≠ []) (hty : a.dataType = "bits") (hw : 2 ≤ ((panelCodes codes).headD []).length)
    (hN : ((panelCodes codes).headD []).length ≤ codes.length) :
    adcpanel lib a 1 (codes.map fun c : ℤ => [(c : ℝ)]) = adcpanel lib a ((panelCodes codes).headD []).length (panelCodes codes) := by
  have hl : (panelCodes codes).length = codes.length := by simp [panelCodes, dec2bin]
  have h0 : codes.length ≠ 0 := by simpa using hne
  have hint : integerColumn (codes.map fun c : ℤ => [(c : ℝ)]) = some codes := by
    unfold integerColumn
    rw [if_pos]
    · congr 1
      rw [List.map_map]
      conv_rhs => rw [← List.map_id codes]
      apply List.map_congr_left
      intro c _
      simp
    · intro r hr
      obtain ⟨c, _, rfl⟩ := List.mem_map.mp hr
      simp
  unfold adcpanel panelData
  have g1 : ¬ codes.length < 1 := by omega
  have g2 : ((panelCodes codes).headD []).length ≠ 0 := by omega
  have g3 : ((panelCodes codes).headD []).length ≠ 1 := by omega
  have g4 : ¬ codes.length < ((panelCodes codes).headD []).length := by omega
  simp only [hty, List.length_map, hl, h0, g1, g2, g3, g4, hint, if_false, if_true, or_false, one_ne_zero, Option.map_some, show ("bits" = "auto") = False by decide]

/-! ## Bits and values -/

private theorem bits_cases {M : ℕ} {rows : List (List ℝ)} {rep : PanelReport R} (h : adcpanel lib a M rows = some rep) {b : PanelBits R} (hb : rep.bits = some b) :
    ∃ d, panelData a.dataType M rows = some d ∧ d.1 = "bits" ∧
      ((∃ c mc, panelCal lib a d.2.2 = some (c, mc) ∧ b.cal = some c ∧ rep = panelSine lib a d.2.2.length mc c.freqcal (some c.postcal) (some (c.postcal.map fun v => [v])) "bits" (some b)) ∨
       (panelCal lib a d.2.2 = none ∧ b.cal = none ∧ rep = panelSine lib a d.2.2.length (a.maxCode.getD (panelSpan d.2.2)) a.fin none none "bits" (some b))) := by
  unfold adcpanel at h
  split at h
  · exact absurd h (by simp)
  · rename_i ty m d hd
    split_ifs at h with h1 h2 h3
    · subst h1
      refine ⟨_, hd, rfl, ?_⟩
      split at h
      · rename_i c mc hc
        injection h with h
        subst h
        injection hb with hb
        subst hb
        exact Or.inl ⟨c, mc, hc, rfl, rfl⟩
      · rename_i hc
        injection h with h
        subst h
        injection hb with hb
        subst hb
        exact Or.inr ⟨hc, rfl, rfl⟩
    all_goals
      injection h with h
      subst h
      exact absurd hb (by simp [panelSine, panelOther])

private theorem data_ne {ty : String} {M : ℕ} {rows : List (List ℝ)} {d : String × ℕ × List (List ℝ)} (h : panelData ty M rows = some d) : d.2.2.length ≠ 0 := by
  unfold panelData at h
  simp only at h
  have key : ∀ codes : List ℤ, (panelCodes codes).length = codes.length := fun codes => by simp [panelCodes, dec2bin]
  have kint : ∀ (r : List (List ℝ)) codes, integerColumn r = some codes → codes.length = r.length := by
    intro r codes hc
    unfold integerColumn at hc
    split_ifs at hc
    injection hc with hc
    rw [← hc, List.length_map]
  by_cases h0 : rows.length = 0 ∨ M = 0
  · rw [if_pos h0] at h
    exact absurd h (by simp)
  · rw [if_neg h0] at h
    push Not at h0
    have hM : rows.length ≠ 0 ∧ (mlTranspose M rows).length ≠ 0 := ⟨h0.1, by rw [transpose_length]; exact h0.2⟩
    split_ifs at h
    all_goals first
      | (injection h with h; subst h; first | exact hM.1 | exact hM.2)
      | (obtain ⟨codes, hc, rfl⟩ := Option.map_eq_some_iff.mp h
         have := kint _ _ hc
         simp only [key]
         rw [this]
         first | exact hM.1 | exact hM.2)

private theorem cal_cases {bits : List (List ℝ)} {c : PanelCal} {mc : ℝ} (h : panelCal lib a bits = some (c, mc)) : ∃ w off f s e, lib.wcalsin bits a.fin a.harmonic = some (w, off, f) ∧
    lib.plotwgt w = some (s, e) ∧ c.freqcal = f ∧ c.postcal = panelDot bits c.weights ∧
    ((a.maxCode = none ∧ c.weights = w.map (fun x => x * s) ∧ mc = (w.map fun x => |x|).sum * s) ∨
      ∃ m, a.maxCode = some m ∧ c.weights = w.map (fun x => x * (m / w.sum)) ∧ mc = m) := by
  unfold panelCal at h
  split at h
  · exact absurd h (by simp)
  · rename_i w off f hw
    split at h
    · exact absurd h (by simp)
    · rename_i s e hp
      injection h with h
      obtain ⟨rfl, rfl⟩ := Prod.mk.inj h
      refine ⟨w, off, f, s, e, hw, hp, rfl, rfl, ?_⟩
      cases hm : a.maxCode with
      | none => exact Or.inl ⟨rfl, rfl, rfl⟩
      | some m => exact Or.inr ⟨m, rfl, rfl, rfl⟩

/-- **C153 (bits are values).** After a successful calibration the analysis of a bit matrix is the sine-wave analysis of the calibrated record, at the calibrated frequency and the full
scale of the calibration: a separate call with these values gives the same results, whatever `signalType` said. -/
theorem C153_bits_are_values (M : ℕ) (rows : List (List ℝ)) (rep : PanelReport R) (h : adcpanel lib a M rows = some rep) (b : PanelBits R) (hb : rep.bits = some b)
    (c : PanelCal) (hc : b.cal = some c) : ∃ mc rep', rep.fullScale = some mc ∧
      adcpanel lib { a with dataType := "values", signalType := "sinewave", fin := c.freqcal, maxCode := some mc } 1 (c.postcal.map fun v => [v]) = some rep' ∧
      rep'.decomp = rep.decomp ∧ rep'.errorPhase = rep.errorPhase ∧ rep'.spectrum = rep.spectrum ∧ rep'.errorValue = rep.errorValue ∧ rep'.phaseFFT = rep.phaseFFT ∧
      rep'.linearity = rep.linearity ∧ rep'.phaseLMS = rep.phaseLMS ∧ rep'.osr = rep.osr ∧ rep'.fewSamples = rep.fewSamples := by
  obtain ⟨d, hd, _, h1 | h1⟩ := bits_cases lib a h hb
  · obtain ⟨c', mc, e1, e2, e3⟩ := h1
    rw [hc] at e2
    injection e2 with e2
    subst e2
    obtain ⟨w, off, f, s, e, _, _, _, hpc, _⟩ := cal_cases lib a e1
    have hlen : c.postcal.length = d.2.2.length := by rw [hpc]; simp [panelDot]
    have hne : d.2.2.length ≠ 0 := data_ne hd
    refine ⟨mc, panelSine lib { a with dataType := "values", signalType := "sinewave", fin := c.freqcal, maxCode := some mc } d.2.2.length mc c.freqcal (some c.postcal)
      (some (c.postcal.map fun v => [v])) "values" none, by rw [e3]; rfl, ?_, ?_⟩
    · unfold adcpanel panelData
      simp [hlen, hne, Function.comp_def]
    · rw [e3]
      exact ⟨rfl, rfl, rfl, rfl, rfl, rfl, rfl, rfl, rfl⟩
  · rw [h1.2.1] at hc
    exact absurd hc (by simp)

/-! ## Scaling of the calibrated record -/

private theorem dot_bounds (b w : List ℝ) (hb : ∀ x ∈ b, 0 ≤ x ∧ x ≤ 1) :
    -(w.map fun x => max (-x) 0).sum ≤ (List.zipWith (· * ·) b w).sum ∧ (List.zipWith (· * ·) b w).sum ≤ (w.map fun x => max x 0).sum := by
  induction w generalizing b with
  | nil => simp
  | cons y w ih =>
    cases b with
    | nil =>
      have h1 : 0 ≤ ((y :: w).map fun x => max (-x) 0).sum := List.sum_nonneg (by simp)
      have h2 : 0 ≤ ((y :: w).map fun x => max x 0).sum := List.sum_nonneg (by simp)
      simp only [List.zipWith_nil_left, List.sum_nil]
      constructor <;> linarith
    | cons x b =>
      obtain ⟨i1, i2⟩ := ih b fun z hz => hb z (by simp [hz])
      obtain ⟨x0, x1⟩ := hb x (by simp)
      simp only [List.zipWith_cons_cons, List.map_cons, List.sum_cons]
      have u1 : x * y ≤ max y 0 := by
        rcases le_total 0 y with h | h
        · exact (mul_le_of_le_one_left h x1).trans (le_max_left _ _)
        · exact (mul_nonpos_of_nonneg_of_nonpos x0 h).trans (le_max_right _ _)
      have u2 : -max (-y) 0 ≤ x * y := by
        rcases le_total 0 y with h | h
        · exact le_trans (neg_nonpos.mpr (le_max_right _ _)) (mul_nonneg x0 h)
        · have := le_max_left (-y) 0
          nlinarith
      constructor <;> linarith

private theorem parts_sum (w : List ℝ) : (w.map fun x => max x 0).sum + (w.map fun x => max (-x) 0).sum = (w.map fun x => |x|).sum := by
  induction w with
  | nil => simp
  | cons y w ih =>
    simp only [List.map_cons, List.sum_cons]
    have : max y 0 + max (-y) 0 = |y| := by
      rcases le_total 0 y with h | h
      · rw [max_eq_left h, max_eq_right (by linarith), abs_of_nonneg h, add_zero]
      · rw [max_eq_right h, max_eq_left (by linarith), abs_of_nonpos h, zero_add]
    linarith

/-- **C153 (full scale).** Without `maxCode` the full scale is the sum of the magnitudes of the reported weights (for a scaling of `plotwgt` that is not negative), and no two samples of the
calibrated record of 0/1 bits are further apart. With `maxCode` the reported weights add up to it (unless they add up to zero). -/
theorem C153_full_scale (M : ℕ) (rows : List (List ℝ)) (rep : PanelReport R) (h : adcpanel lib a M rows = some rep) (b : PanelBits R) (hb : rep.bits = some b)
    (c : PanelCal) (hc : b.cal = some c) :
    (a.maxCode = none → (∀ w s e, lib.plotwgt w = some (s, e) → 0 ≤ s) → rep.fullScale = some (c.weights.map fun x => |x|).sum ∧
      ((∀ r ∈ rows, ∀ x ∈ r, x = 0 ∨ x = 1) → 2 ≤ M → 2 ≤ rows.length → ∀ u ∈ c.postcal, ∀ v ∈ c.postcal, |u - v| ≤ (c.weights.map fun x => |x|).sum)) ∧
    (∀ m, a.maxCode = some m → rep.fullScale = some m ∧ (c.weights.sum ≠ 0 → c.weights.sum = m)) := by
  obtain ⟨d, hd, hty, h1 | h1⟩ := bits_cases lib a h hb
  · obtain ⟨c', mc, e1, e2, e3⟩ := h1
    rw [hc] at e2
    injection e2 with e2
    subst e2
    have hfs : rep.fullScale = some mc := by rw [e3]; rfl
    obtain ⟨w, off, f, s, e, k1, k2, _, hpc, k3⟩ := cal_cases lib a e1
    refine ⟨fun hm hs => ?_, fun m hm => ?_⟩
    · rcases k3 with ⟨_, k4, k5⟩ | ⟨m, k4, _⟩
      · refine ⟨?_, fun hbin hM hN => ?_⟩
        · rw [hfs, k5, k4, List.map_map, ← List.sum_map_mul_right]
          congr 2
          apply List.map_congr_left
          intro x _
          simp [abs_mul, abs_of_nonneg (hs _ _ _ k2)]
        · have hbits : ∀ r ∈ d.2.2, ∀ x ∈ r, 0 ≤ x ∧ x ≤ 1 := by
            have hz : ∀ x : ℝ, x = 0 ∨ x = 1 → 0 ≤ x ∧ x ≤ 1 := by rintro x (rfl | rfl) <;> norm_num
            have ht : ∀ r ∈ mlTranspose M rows, ∀ x ∈ r, 0 ≤ x ∧ x ≤ 1 := by
              intro r hr x hx
              unfold mlTranspose at hr
              obtain ⟨j, _, rfl⟩ := List.mem_map.mp hr
              obtain ⟨r', hr', rfl⟩ := List.mem_map.mp hx
              by_cases hj : j < r'.length
              · rw [List.getD_eq_getElem _ _ hj]
                exact hz _ (hbin r' hr' _ (List.getElem_mem hj))
              · rw [List.getD_eq_default _ _ (by omega)]
                norm_num
            have hr : ∀ r ∈ rows, ∀ x ∈ r, 0 ≤ x ∧ x ≤ 1 := fun r hr x hx => hz x (hbin r hr x hx)
            have g1 : rows.length ≠ 1 := by omega
            have g2 : M ≠ 1 := by omega
            have g3 : ¬ (rows.length = 0 ∨ M = 0) := by omega
            unfold panelData at hd
            simp only at hd
            rw [if_neg g3] at hd
            split_ifs at hd
            all_goals first
              | omega
              | (injection hd with hd; subst hd; first | exact hr | exact ht | exact absurd hty (by decide) | exact absurd hty (by assumption))
          rw [hpc]
          intro u hu v hv
          obtain ⟨r1, hr1, rfl⟩ := List.mem_map.mp hu
          obtain ⟨r2, hr2, rfl⟩ := List.mem_map.mp hv
          have d1 := dot_bounds r1 c.weights (hbits r1 hr1)
          have d2 := dot_bounds r2 c.weights (hbits r2 hr2)
          rw [← parts_sum, abs_le]
          constructor <;> linarith [d1.1, d1.2, d2.1, d2.2]
      · rw [hm] at k4
        exact absurd k4 (by simp)
    · rcases k3 with ⟨k4, _⟩ | ⟨m', k4, k5, k6⟩
      · rw [hm] at k4
        exact absurd k4 (by simp)
      · rw [hm] at k4
        injection k4 with k4
        subst k4
        refine ⟨by rw [hfs, k6], fun hne => ?_⟩
        have : c.weights.sum = w.sum * (m / w.sum) := by rw [k5, List.sum_map_mul_right, List.map_id']
        rw [this] at hne ⊢
        rw [mul_div_cancel₀ m (left_ne_zero_of_mul hne)]
  · rw [h1.2.1] at hc
    exact absurd hc (by simp)

/-- **C153 (failed calibration).** If the calibration fails, the panel still returns a report, in which no analysis has a result. -/
theorem C153_failed_calibration (M : ℕ) (rows : List (List ℝ)) (rep : PanelReport R) (h : adcpanel lib a M rows = some rep) (b : PanelBits R) (hb : rep.bits = some b) (hc : b.cal = none) :
    rep.decomp = .error ∧ rep.errorPhase = .error ∧ rep.spectrum = .error ∧ rep.errorValue = .error ∧ rep.linearity = .error ∧ rep.osr = .error ∧
    (∀ r, rep.phaseFFT ≠ .value r) ∧ ∀ r, rep.phaseLMS ≠ .value r := by
  obtain ⟨d, hd, _, h1 | h1⟩ := bits_cases lib a h hb
  · obtain ⟨c', mc, _, e2, _⟩ := h1
    rw [hc] at e2
    exact absurd e2 (by simp)
  · rw [h1.2.2]
    refine ⟨rfl, rfl, rfl, rfl, rfl, rfl, fun r => ?_, fun r => ?_⟩
    all_goals
      unfold panelSine
      simp only [Option.bind_none]
      split_ifs <;> simp [PanelField.ofTry]

/-- **C153 (isolation).** What one analysis does, fail or not, changes no field but its own; `tomdec` changes no other field when the frequency is known (given, or found not zero by the
calibration). -/
theorem C153_isolation (M : ℕ) (rows : List (List ℝ)) :
    (∀ f, (adcpanel { lib with plotspec := f } a M rows).map (fun r => { r with spectrum := .absent }) = (adcpanel lib a M rows).map (fun r => { r with spectrum := .absent })) ∧
    (∀ f, (adcpanel { lib with inlsin := f } a M rows).map (fun r => { r with linearity := .absent }) = (adcpanel lib a M rows).map (fun r => { r with linearity := .absent })) ∧
    (∀ f, (adcpanel { lib with perfosr := f } a M rows).map (fun r => { r with osr := .absent }) = (adcpanel lib a M rows).map (fun r => { r with osr := .absent })) ∧
    (∀ f, (adcpanel { lib with errsin := f } a M rows).map (fun r => { r with errorPhase := .absent, errorValue := .absent })
      = (adcpanel lib a M rows).map (fun r => { r with errorPhase := .absent, errorValue := .absent })) ∧
    (∀ f, (adcpanel { lib with plotphase := f } a M rows).map (fun r => { r with phaseFFT := .absent, phaseLMS := .absent })
      = (adcpanel lib a M rows).map (fun r => { r with phaseFFT := .absent, phaseLMS := .absent })) ∧
    (∀ f, (adcpanel { lib with bitchk := f } a M rows).map (fun r : PanelReport R => { r with bits := r.bits.map fun b : PanelBits R => ({ b with overflow := .absent } : PanelBits R) })
      = (adcpanel lib a M rows).map (fun r : PanelReport R => { r with bits := r.bits.map fun b : PanelBits R => ({ b with overflow := .absent } : PanelBits R) })) ∧
    (∀ f, a.fin ≠ 0 → (∀ d n w o g, lib.wcalsin d a.fin n = some (w, o, g) → g ≠ 0) →
      (adcpanel { lib with tomdec := f } a M rows).map (fun r => { r with decomp := .absent }) = (adcpanel lib a M rows).map (fun r => { r with decomp := .absent })) := by
  have hcal : ∀ lib' : PanelLib R, lib'.wcalsin = lib.wcalsin → lib'.plotwgt = lib.plotwgt → ∀ d, panelCal lib' a d = panelCal lib a d := by
    intro lib' h1 h2 d
    unfold panelCal
    rw [h1, h2]
  refine ⟨fun f => ?_, fun f => ?_, fun f => ?_, fun f => ?_, fun f => ?_, fun f => ?_, fun f hfin hw => ?_⟩
  · unfold adcpanel
    rw [funext (hcal { lib with plotspec := f } rfl rfl)]
    split
    · rfl
    · split_ifs
      · split <;> rfl
      all_goals rfl
  · unfold adcpanel
    rw [funext (hcal { lib with inlsin := f } rfl rfl)]
    split
    · rfl
    · split_ifs
      · split <;> rfl
      all_goals rfl
  · unfold adcpanel
    rw [funext (hcal { lib with perfosr := f } rfl rfl)]
    split
    · rfl
    · split_ifs
      · split <;> rfl
      all_goals rfl
  · unfold adcpanel
    rw [funext (hcal { lib with errsin := f } rfl rfl)]
    split
    · rfl
    · split_ifs
      · split <;> rfl
      all_goals rfl
  · unfold adcpanel
    rw [funext (hcal { lib with plotphase := f } rfl rfl)]
    split
    · rfl
    · split_ifs
      · split <;> simp [panelSine]
      all_goals simp [panelSine, panelOther]
  · unfold adcpanel
    rw [funext (hcal { lib with bitchk := f } rfl rfl)]
    split
    · rfl
    · split_ifs
      · split <;> rfl
      all_goals rfl
  · have hs : ∀ N mc fin sig full ty b, fin ≠ 0 → ({ panelSine { lib with tomdec := f } a N mc fin sig full ty b with decomp := .absent } : PanelReport R)
        = { panelSine lib a N mc fin sig full ty b with decomp := .absent } := by
      intro N mc fin sig full ty b h0
      unfold panelSine
      rcases e1 : (sig.bind fun s => f s fin a.harmonic) with _ | r <;> rcases e2 : (sig.bind fun s => lib.tomdec s fin a.harmonic) with _ | r' <;> simp [h0]
    unfold adcpanel
    rw [funext (hcal { lib with tomdec := f } rfl rfl)]
    split
    · rfl
    · split_ifs
      · split
        · rename_i c mc hc
          obtain ⟨w, off, g, s, e, k1, _, k3, _⟩ := cal_cases lib a hc
          simp only [Option.map_some]
          rw [hs _ _ _ _ _ _ _ (by rw [k3]; exact hw _ _ _ _ _ k1)]
        · simp only [Option.map_some]
          rw [hs _ _ _ _ _ _ _ hfin]
      · simp only [Option.map_some]
        rw [hs _ _ _ _ _ _ _ hfin]
      all_goals rfl

/-- **C153 (other signals).** For values with `signalType` other than `"sinewave"` the report never contains the numbers of the spectrum. -/
theorem C153_other (M : ℕ) (rows : List (List ℝ)) (rep : PanelReport R) (h : adcpanel lib a M rows = some rep) (hb : rep.bits = none) (hs : a.signalType ≠ "sinewave") (r : R) :
    rep.spectrum ≠ .value r := by
  unfold adcpanel at h
  split at h
  · exact absurd h (by simp)
  · split_ifs at h with h1 h2
    · split at h
      all_goals
        injection h with h
        subst h
        exact absurd hb (by simp [panelSine])
    · injection h with h
      subst h
      unfold panelOther
      simp only
      split <;> simp
    · injection h with h
      subst h
      simp

/-- **C153 (unknown type).** A misspelt `dataType` is no error: the report comes back without any analysis. -/
theorem C153_unknown_type (M : ℕ) (rows : List (List ℝ)) (hN : rows ≠ []) (hM : M ≠ 0) (h1 : a.dataType ≠ "auto") (h2 : a.dataType ≠ "bits") (h3 : a.dataType ≠ "values") :
    ∃ rep, adcpanel lib a M rows = some rep ∧ rep.dataType = a.dataType ∧ rep.bits = none ∧ rep.decomp = .absent ∧ rep.errorPhase = .absent ∧ rep.spectrum = .absent ∧
      rep.errorValue = .absent ∧ rep.linearity = .absent ∧ rep.osr = .absent ∧ rep.phaseFFT = .absent ∧ rep.phaseLMS = .absent := by
  unfold adcpanel panelData
  simp [hN, hM, h1, h2, h3]

/-! ## The time-domain tile -/

private theorem mlRound_near (x : ℝ) : |(mlRound x : ℝ) - x| ≤ 1 / 2 := by
  unfold mlRound
  rw [abs_le]
  split_ifs with h
  · have h1 := Int.floor_le (x + 1 / 2)
    have h2 := Int.lt_floor_add_one (x + 1 / 2)
    constructor <;> linarith
  · have h1 := Int.le_ceil (x - 1 / 2)
    have h2 := Int.ceil_lt_add_one (x - 1 / 2)
    constructor <;> linarith

private theorem window_aux (N idx : ℕ) (h1 : 1 ≤ idx) (h2 : idx ≤ N) (p : ℝ) (spc : ℤ) (hs : |(spc : ℝ) - p| ≤ 1 / 2) :
    1 ≤ max 1 (mlRound ((idx : ℝ) - max (3 / 2 * (spc : ℝ)) 50)) ∧ max 1 (mlRound ((idx : ℝ) - max (3 / 2 * (spc : ℝ)) 50)) ≤ idx ∧
    (idx : ℤ) ≤ min (N : ℤ) (mlRound ((idx : ℝ) + max (3 / 2 * (spc : ℝ)) 50)) ∧ min (N : ℤ) (mlRound ((idx : ℝ) + max (3 / 2 * (spc : ℝ)) 50)) ≤ N ∧
    (max 1 (mlRound ((idx : ℝ) - max (3 / 2 * (spc : ℝ)) 50)) = 1 ∨ 50 ≤ (idx : ℤ) - max 1 (mlRound ((idx : ℝ) - max (3 / 2 * (spc : ℝ)) 50)) ∧
      3 / 2 * p - 2 ≤ (idx : ℝ) - ((max 1 (mlRound ((idx : ℝ) - max (3 / 2 * (spc : ℝ)) 50)) : ℤ) : ℝ)) ∧
    (min (N : ℤ) (mlRound ((idx : ℝ) + max (3 / 2 * (spc : ℝ)) 50)) = N ∨ 50 ≤ min (N : ℤ) (mlRound ((idx : ℝ) + max (3 / 2 * (spc : ℝ)) 50)) - idx ∧
      3 / 2 * p - 2 ≤ ((min (N : ℤ) (mlRound ((idx : ℝ) + max (3 / 2 * (spc : ℝ)) 50)) : ℤ) : ℝ) - idx) := by
  obtain ⟨m, hm⟩ : ∃ m : ℝ, m = max (3 / 2 * (spc : ℝ)) 50 := ⟨_, rfl⟩
  have m1 : 3 / 2 * (spc : ℝ) ≤ m := hm ▸ le_max_left _ _
  have m2 : 50 ≤ m := hm ▸ le_max_right _ _
  rw [← hm]
  obtain ⟨lo, hlo⟩ : ∃ z, z = mlRound ((idx : ℝ) - m) := ⟨_, rfl⟩
  obtain ⟨hi, hhi⟩ : ∃ z, z = mlRound ((idx : ℝ) + m) := ⟨_, rfl⟩
  have nl := abs_le.mp (mlRound_near ((idx : ℝ) - m))
  have nh := abs_le.mp (mlRound_near ((idx : ℝ) + m))
  rw [← hlo] at nl ⊢
  rw [← hhi] at nh ⊢
  have hs' := abs_le.mp hs
  have l50 : lo ≤ idx - 50 := by
    have : (lo : ℝ) < ((idx - 50 + 1 : ℤ) : ℝ) := by push_cast; linarith [nl.2]
    have := Int.cast_lt.mp this
    omega
  have h50 : (idx : ℤ) + 50 ≤ hi := by
    have : (((idx : ℤ) + 50 - 1 : ℤ) : ℝ) < (hi : ℝ) := by push_cast; linarith [nh.1]
    have := Int.cast_lt.mp this
    omega
  refine ⟨le_max_left _ _, by omega, by omega, min_le_left _ _, ?_, ?_⟩
  · rcases le_total lo 1 with h | h
    · exact Or.inl (max_eq_left h)
    · rw [max_eq_right h]
      exact Or.inr ⟨by omega, by linarith [nl.2, hs'.1, hs'.2]⟩
  · rcases le_total (N : ℤ) hi with h | h
    · exact Or.inl (min_eq_left h)
    · rw [min_eq_right h]
      exact Or.inr ⟨by omega, by linarith [nh.1, hs'.1, hs'.2]⟩

/-- **C153 (time-domain tile).** The part shown lies in the record and contains the largest error; on either side it ends at the end of the record or at least 50 samples, and one and a half
periods (of the signal, or above a quarter of the rate of its distance from Nyquist) less two samples, away from it. -/
theorem C153_window (N idx : ℕ) (h1 : 1 ≤ idx) (h2 : idx ≤ N) (f : ℝ) (hf0 : 0 < f) (hf : f ≤ 1 / 2) :
    1 ≤ (panelWindow N idx f).1 ∧ (panelWindow N idx f).1 ≤ idx ∧ (idx : ℤ) ≤ (panelWindow N idx f).2 ∧ (panelWindow N idx f).2 ≤ N ∧
    ((panelWindow N idx f).1 = 1 ∨ 50 ≤ (idx : ℤ) - (panelWindow N idx f).1 ∧ 3 / 2 * (1 / (if 1 / 4 < f then 1 / 2 - f else f)) - 2 ≤ (idx : ℝ) - (panelWindow N idx f).1) ∧
    ((panelWindow N idx f).2 = N ∨ 50 ≤ (panelWindow N idx f).2 - idx ∧ 3 / 2 * (1 / (if 1 / 4 < f then 1 / 2 - f else f)) - 2 ≤ (panelWindow N idx f).2 - (idx : ℝ)) := by
  unfold panelWindow
  by_cases e1 : f = 1 / 2
  · simp only [if_pos e1]
    exact ⟨le_rfl, by exact_mod_cast h1, by exact_mod_cast h2, le_rfl, Or.inl trivial, Or.inl trivial⟩
  · by_cases e2 : 1 / 4 < f
    · simp only [if_neg e1, if_pos e2]
      exact window_aux N idx h1 h2 _ (mlRound (1 / (1 / 2 - f))) (mlRound_near _)
    · simp only [if_neg e1, if_neg e2]
      exact window_aux N idx h1 h2 _ (mlRound (1 / f)) (mlRound_near _)

/-! ## Concrete cases -/

/-- Functions that report how many samples they were given; `wcalsin` finds the weights 2 and -1. -/
private noncomputable def demoLib : PanelLib ℕ where
  bitchk b := some b.length
  wcalsin _ _ _ := some ([2, -1], 0, 1 / 4)
  plotwgt _ := some (1, 2)
  tomdec s _ _ := some (s.length, 1 / 8)
  errsin s _ _ _ _ := some s.length
  plotspec s _ _ _ _ _ := some s.length
  plotphase _ _ _ _ _ _ _ := none
  inlsin s := some s.length
  perfosr _ _ := none

private noncomputable def demoCal (k : ℝ) : PanelCal := { weights := [2 * k, -1 * k], offset := 0 * k, freqcal := 1 / 4, postcal := [2 * k, -1 * k, 0], effres := 2 }

private theorem demo_cal (a : PanelArgs) (m : ℝ) (hm : a.maxCode = some m) : panelCal demoLib a [[1, 0], [0, 1], [0, 0]] = some (demoCal m, m) := by
  have e : (2 : ℝ) + -1 = 1 := by norm_num
  simp [panelCal, demoLib, demoCal, hm, panelDot, e]

private theorem demo_data : panelData "auto" 2 [[1, 0], [0, 1], [0, 0]] = some ("bits", 2, [[1, 0], [0, 1], [0, 0]]) := by
  unfold panelData
  simp

/-- **C153 (given full scale).** With a given `maxCode` and weights of both signs the calibrated record goes beyond the full scale it is judged against: here by a factor of three. -/
theorem C153_full_scale_false : ∃ (lib : PanelLib ℕ) (a : PanelArgs) (rep : PanelReport ℕ) (b : PanelBits ℕ) (c : PanelCal),
    adcpanel lib a 2 [[1, 0], [0, 1], [0, 0]] = some rep ∧ rep.bits = some b ∧ b.cal = some c ∧ rep.fullScale = some 1 ∧ ∃ u ∈ c.postcal, ∃ v ∈ c.postcal, u - v = 3 := by
  have hmem : ∃ u ∈ (demoCal 1).postcal, ∃ v ∈ (demoCal 1).postcal, u - v = 3 := ⟨2 * 1, by simp [demoCal], -1 * 1, by simp [demoCal], by norm_num⟩
  have key : ∃ (rep : PanelReport ℕ) (b : PanelBits ℕ), adcpanel demoLib { maxCode := some 1 } 2 [[1, 0], [0, 1], [0, 0]] = some rep ∧ rep.bits = some b ∧ b.cal = some (demoCal 1) ∧ rep.fullScale = some 1 := by
    unfold adcpanel
    simp only [demo_data]
    rw [if_pos trivial, demo_cal _ 1 rfl]
    exact ⟨_, _, rfl, rfl, rfl, rfl⟩
  obtain ⟨rep, b, h1, h2, h3, h4⟩ := key
  exact ⟨demoLib, _, rep, b, demoCal 1, h1, h2, h3, h4, hmem⟩

/-- The same panel, without `maxCode`, on its side: `plotphase` and `perfosr` fail, the other fields are there. -/
example : ∃ rep : PanelReport ℕ, adcpanel demoLib { signalType := "other" } 3 [[1, 0, 0], [0, 1, 0]] = some rep ∧ rep.fullScale = some 3 ∧ rep.spectrum = .value 3 ∧
    rep.osr = .error ∧ rep.phaseFFT = .error ∧ rep.decomp = .value 3 ∧ rep.bits.isSome := by
  have hm := C153_matrix demoLib { signalType := "other" } 3 [[1, 0, 0], [0, 1, 0]] (by simp) (by simp) (Or.inl rfl)
  have ht : mlTranspose 3 [[(1 : ℝ), 0, 0], [0, 1, 0]] = [[1, 0], [0, 1], [0, 0]] := by simp [mlTranspose, List.range_succ]
  rw [hm, ht]
  unfold adcpanel
  simp only [List.length_cons, List.length_nil, zero_add, Nat.reduceAdd, demo_data]
  rw [if_pos trivial]
  have hc : panelCal demoLib { signalType := "other" } [[1, 0], [0, 1], [0, 0]] = some (demoCal 1, 3) := by
    have e : (2 : ℝ) + 1 = 3 := by norm_num
    simp [panelCal, demoLib, demoCal, panelDot, e]
  rw [hc]
  exact ⟨_, rfl, rfl, rfl, rfl, rfl, rfl, rfl⟩

/-- Codes -3, 0 and 5 need four digits; -3 is 1101. -/
example : ∃ w, (panelCodes [-3, 0, 5]).length = 3 ∧ ((panelCodes [-3, 0, 5]).getD 0 []).length = w ∧ twosComplement ((panelCodes [-3, 0, 5]).getD 0 []) = -3 ∧
    twosComplement ((panelCodes [-3, 0, 5]).getD 2 []) = 5 ∧ (w = 1 ∨ ∃ c ∈ [-3, 0, 5], c < -2 ^ (w - 2) ∨ (2 : ℤ) ^ (w - 2) ≤ c) := by
  obtain ⟨w, _, h1, h2, h3⟩ := C153_codes_signed [-3, 0, 5] ⟨-3, by simp, by norm_num⟩
  obtain ⟨l0, _, v0⟩ := h2 0 (by simp)
  obtain ⟨_, _, v2⟩ := h2 2 (by simp)
  exact ⟨w, h1, l0, by rw [v0]; norm_num, by rw [v2]; norm_num, h3⟩

/-- A quarter of a thousand samples, largest error at 100, frequency a tenth. -/
example : (panelWindow 250 100 (1 / 10)).1 ≤ 100 ∧ 100 ≤ (panelWindow 250 100 (1 / 10)).2 :=
  ⟨(C153_window 250 100 (by norm_num) (by norm_num) (1 / 10) (by norm_num) (by norm_num)).2.1, (C153_window 250 100 (by norm_num) (by norm_num) (1 / 10) (by norm_num) (by norm_num)).2.2.1⟩

end Verif
