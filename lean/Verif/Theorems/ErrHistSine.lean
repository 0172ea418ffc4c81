import Verif.Model.ErrHistSine
import Mathlib.Tactic.Common

/-! # C170: the legacy call `errHistSine` and the call `errsin` it turns into -/

namespace Verif

open Model

namespace Spec

/-- The argument is the word `mode`, in any case of letters. -/
def IsModeWord (a : MlArg) : Prop := ∃ s : String, a = .text s ∧ s.toLower = "mode"

/-- A call written as positional arguments followed by names with values. -/
def callArgs (pos : List MlArg) (pairs : List (MlArg × MlArg)) : List MlArg := pos ++ pairs.flatMap fun p => [p.1, p.2]

open Classical in
/-- What the help text says of one pair: `'mode'` becomes `'xaxis'`, phase for 0 and value otherwise; every other pair stays. -/
noncomputable def renamed (p : MlArg × MlArg) : MlArg × MlArg :=
  if IsModeWord p.1 then (.text "xaxis", .text (if p.2 = .num 0 then "phase" else "value")) else p

end Spec

open Spec

private theorem isMode_iff (a : MlArg) : a.isMode = true ↔ IsModeWord a := by
  unfold IsModeWord
  cases a <;> simp [MlArg.isMode]

private theorem isMode_false {a : MlArg} (h : ¬ IsModeWord a) : a.isMode = false := by
  rw [← isMode_iff] at h
  simpa using h

private theorem hist_cons (a : MlArg) (ha : ¬ IsModeWord a) (l : List MlArg) : histArgs (a :: l) = (histArgs l).map fun r => a :: r := by
  have ha := isMode_false ha
  cases l with
  | nil => simp [histArgs, ha]
  | cons b l => rw [histArgs, ha]; rfl

private theorem hist_call (pos : List MlArg) (pairs : List (MlArg × MlArg)) (tail : List MlArg) (hpos : ∀ a ∈ pos, ¬ IsModeWord a)
    (hval : ∀ p ∈ pairs, IsModeWord p.1 ∨ ¬ IsModeWord p.2) :
    histArgs (callArgs pos pairs ++ tail) = (histArgs tail).map fun r => callArgs pos (pairs.map renamed) ++ r := by
  unfold callArgs
  induction pos with
  | cons a pos ih =>
    have h := ih fun b hb => hpos b (List.mem_cons_of_mem _ hb)
    rw [List.cons_append, List.cons_append, hist_cons a (hpos a List.mem_cons_self), h, Option.map_map]
    rfl
  | nil =>
    rw [List.nil_append, List.nil_append]
    induction pairs with
    | nil => simp
    | cons p pairs ih =>
      have h := ih fun q hq => hval q (List.mem_cons_of_mem _ hq)
      have hp := hval p List.mem_cons_self
      simp only [List.flatMap_cons, List.map_cons, List.cons_append, List.nil_append]
      by_cases hm : IsModeWord p.1
      · have hr : renamed p = (.text "xaxis", .text (if p.2 = .num 0 then "phase" else "value")) := if_pos hm
        rw [histArgs, if_pos ((isMode_iff _).mpr hm), h, hr, Option.map_map]
        unfold modeCells
        split_ifs <;> rfl
      · have hr : renamed p = p := if_neg hm
        rw [hist_cons _ hm, hist_cons _ (hp.resolve_left hm), h, hr, Option.map_map, Option.map_map]
        rfl

/-- **C170 (conversion).** In a call of positional arguments and pairs where `mode` occurs only as a name (or as the value of `mode` itself), exactly the `'mode'` pairs are renamed;
order, names and values of all others are kept. -/
theorem C170_pairs (pos : List MlArg) (pairs : List (MlArg × MlArg)) (hpos : ∀ a ∈ pos, ¬ IsModeWord a) (hval : ∀ p ∈ pairs, IsModeWord p.1 ∨ ¬ IsModeWord p.2) :
    histArgs (callArgs pos pairs) = some (callArgs pos (pairs.map renamed)) := by
  have h := hist_call pos pairs [] hpos hval
  simpa [histArgs] using h

/-- **C170 (refusal).** Such a call followed by one more argument is refused exactly when that argument is `'mode'`. -/
theorem C170_refused (pos : List MlArg) (pairs : List (MlArg × MlArg)) (hpos : ∀ a ∈ pos, ¬ IsModeWord a) (hval : ∀ p ∈ pairs, IsModeWord p.1 ∨ ¬ IsModeWord p.2) (last : MlArg) :
    histArgs (callArgs pos pairs ++ [last]) = none ↔ IsModeWord last := by
  rw [hist_call pos pairs [last] hpos hval, ← isMode_iff]
  by_cases h : last.isMode <;> simp [histArgs, h]

/-- **C170 (no trace of mode).** Whatever the call, no argument passed on is the word `mode`: `errsin`, which has no such parameter, never sees it. -/
theorem C170_gone (args out : List MlArg) (h : histArgs args = some out) : ∀ a ∈ out, ¬ IsModeWord a := by
  have key : ∀ a ∈ out, a.isMode = false := by
    induction args using histArgs.induct generalizing out with
    | case1 => simp only [histArgs, Option.some.injEq] at h; subst h; simp
    | case2 a ha => simp [histArgs, ha] at h
    | case3 a ha =>
      simp [histArgs, ha] at h
      subst h
      simpa using ha
    | case4 a b rest ha ih =>
      rw [histArgs, if_pos ha] at h
      obtain ⟨r, hr, rfl⟩ := Option.map_eq_some_iff.mp h
      intro x hx
      rcases List.mem_append.mp hx with hx | hx
      · unfold modeCells at hx
        split_ifs at hx <;> rcases List.mem_cons.mp hx with rfl | hx
        · decide +kernel
        · rw [List.mem_singleton.mp hx]; decide +kernel
        · decide +kernel
        · rw [List.mem_singleton.mp hx]; decide +kernel
      · exact ih r hr x hx
    | case5 a b rest ha ih =>
      rw [histArgs, if_neg ha] at h
      obtain ⟨r, hr, rfl⟩ := Option.map_eq_some_iff.mp h
      intro x hx
      rcases List.mem_cons.mp hx with rfl | hx
      · simpa using ha
      · exact ih r hr x hx
  intro a ha hm
  rw [← isMode_iff, key a ha] at hm
  cases hm

/-- **C170 (text modes).** A mode given in words always selects the value axis: `'mode', 'phase'` plots against the value. -/
theorem C170_text (s : String) (rest : List MlArg) : histArgs (.text "mode" :: .text s :: rest) = (histArgs rest).map fun r => .text "xaxis" :: .text "value" :: r := by
  rw [histArgs, if_pos (by decide +kernel)]
  unfold modeCells
  rw [if_neg (by simp)]
  rfl

/-- **C170 (a value spelt mode).** Where the word stands as the value of another name, it is taken for the name: the next name is swallowed as its value. -/
theorem C170_value (name next v : MlArg) (hn : ¬ IsModeWord name) (hv : ¬ IsModeWord v) (hnext : next ≠ .num 0) :
    histArgs [name, .text "mode", next, v] = some [name, .text "xaxis", .text "value", v] := by
  rw [hist_cons _ hn, histArgs, if_pos (by decide +kernel), hist_cons _ hv]
  unfold modeCells
  rw [if_neg hnext]
  simp [histArgs]

/-- The call `errHistSine(data, 50, 'Mode', 1, 'fin', 0.25)` meets the hypotheses and becomes `errsin(data, 50, 'xaxis', 'value', 'fin', 0.25)`. -/
example : histArgs (callArgs [.num 50] [(.text "Mode", .num 1), (.text "fin", .num (1 / 4))])
    = some [.num 50, .text "xaxis", .text "value", .text "fin", .num (1 / 4)] := by
  have hm : IsModeWord (.text "Mode") := ⟨_, rfl, by decide +kernel⟩
  have hf : ¬ IsModeWord (.text "fin") := by
    rintro ⟨s, hs, h⟩
    cases hs
    exact absurd h (by decide +kernel)
  have hnum : ∀ q : ℚ, ¬ IsModeWord (.num q) := by
    rintro q ⟨s, hs, -⟩
    cases hs
  rw [C170_pairs _ _ (by simpa using hnum 50) (by simpa using ⟨Or.inl hm, Or.inr (hnum _)⟩)]
  simp [callArgs, renamed, hm, hf]

/-- `'window', 'mode', 'bin', 8` meets the hypotheses of the last theorem: the name `bin` is lost. -/
example : histArgs [.text "window", .text "mode", .text "bin", .num 8] = some [.text "window", .text "xaxis", .text "value", .num 8] := by
  refine C170_value _ _ _ ?_ ?_ (by simp)
  · rintro ⟨s, hs, h⟩
    cases hs
    exact absurd h (by decide +kernel)
  · rintro ⟨s, hs, -⟩
    cases hs

end Verif
