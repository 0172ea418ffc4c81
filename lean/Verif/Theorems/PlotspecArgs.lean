import Verif.Model.PlotspecArgs
import Mathlib.Tactic.Common
import Mathlib.Tactic.NormNum

/-! # C173: old and new parameter names of `plotspec.m` -/

namespace Verif

open Model

namespace Spec

/-- What the comments promise: the new name if it is passed, else the old one if it is passed, else the default. -/
def newOldDefault {α : Type} (new old : Option α) (d : α) : α :=
  match new, old with
  | some x, _ => x
  | none, some y => y
  | none, none => d

/-- An averaging mode as on or off. -/
def AvgMeans : AvgModeArg → Bool
  | .normal => false
  | .coherent => true
  | .number b => b

end Spec

open Spec

/-- **C173 (refusal).** A call is refused exactly when a full scale or a cutoff frequency that is passed, under either name, is not positive; in particular the documented default 0 of
`cutoff` cannot be passed. -/
theorem C173_refused (range : ℝ) (a : PlotspecArgs) :
    plotspecVars range a = none ↔ ∃ x ≤ 0, a.maxSignal = some x ∨ a.maxCode = some x ∨ a.cutoff = some x ∨ a.noFlicker = some x := by
  have key : ∀ o : Option ℝ, passesPos o ↔ ∀ x, o = some x → 0 < x := by
    intro o
    cases o <;> simp [passesPos]
  unfold plotspecVars
  split_ifs with h
  · simp only [key] at h
    refine ⟨fun e => by simp at e, ?_⟩
    rintro ⟨x, hx, e | e | e | e⟩
    · exact absurd (h.1 x e) (not_lt.mpr hx)
    · exact absurd (h.2.1 x e) (not_lt.mpr hx)
    · exact absurd (h.2.2.1 x e) (not_lt.mpr hx)
    · exact absurd (h.2.2.2 x e) (not_lt.mpr hx)
  · refine ⟨fun _ => ?_, fun _ => rfl⟩
    by_contra hc
    push Not at hc
    refine h ⟨(key _).mpr fun x e => ?_, (key _).mpr fun x e => ?_, (key _).mpr fun x e => ?_, (key _).mpr fun x e => ?_⟩ <;> by_contra hx
    · exact (hc x (not_lt.mp hx)).1 e
    · exact (hc x (not_lt.mp hx)).2.1 e
    · exact (hc x (not_lt.mp hx)).2.2.1 e
    · exact (hc x (not_lt.mp hx)).2.2.2 e

private theorem vars_eq {range : ℝ} {a : PlotspecArgs} {v : PlotspecVars} (h : plotspecVars range a = some v) :
    (passesPos a.maxSignal ∧ passesPos a.maxCode ∧ passesPos a.cutoff ∧ passesPos a.noFlicker) ∧ v = ⟨avgVar a, signalVar range a, windowVar a, dispVar a, cutoffVar a⟩ := by
  unfold plotspecVars at h
  split_ifs at h with hc
  exact ⟨hc, (Option.some.inj h).symm⟩

/-- **C173 (three pairs).** In every accepted call full scale, display and cutoff follow the new name if it is passed, else the old one, else the default. -/
theorem C173_priority (range : ℝ) (a : PlotspecArgs) (v : PlotspecVars) (h : plotspecVars range a = some v) :
    v.maxSignal = newOldDefault a.maxSignal a.maxCode range ∧ v.dispPlot = newOldDefault a.disp a.isPlot true ∧ v.cutoffFreq = newOldDefault a.cutoff a.noFlicker 0 := by
  obtain ⟨⟨-, -, hc, -⟩, rfl⟩ := vars_eq h
  obtain ⟨am, ca, ms, mc, w, wt, d, ip, c, nf⟩ := a
  refine ⟨?_, ?_, ?_⟩
  · cases ms <;> cases mc <;> rfl
  · cases d <;> cases ip <;> rfl
  · cases c with
    | none => cases nf <;> simp [cutoffVar, newOldDefault]
    | some x =>
      have hx : 0 < x := hc
      simp [cutoffVar, newOldDefault, hx]

/-- **C173 (averaging and window).** For these two pairs the same holds exactly unless the new name is passed with its default word while the old name asks for something else; then the
old name wins. -/
theorem C173_exceptions (range : ℝ) (a : PlotspecArgs) (v : PlotspecVars) (h : plotspecVars range a = some v) :
    (v.coAvg = newOldDefault (a.averageMode.map AvgMeans) a.coAvg false ↔ ¬ (a.averageMode = some .normal ∧ a.coAvg = some true)) ∧
    (v.windowFunc = newOldDefault a.window a.winType .hann ↔ ¬ (a.window = some .hann ∧ ∃ w, a.winType = some w ∧ w ≠ .hann)) ∧
    (a.averageMode = some .normal ∧ a.coAvg = some true → v.coAvg = true) ∧
    (∀ w, a.window = some .hann → a.winType = some w → v.windowFunc = w) := by
  obtain ⟨-, rfl⟩ := vars_eq h
  obtain ⟨am, ca, ms, mc, w, wt, d, ip, c, nf⟩ := a
  refine ⟨?_, ?_, ?_, ?_⟩
  · rcases am with _ | (_ | _ | b) <;> rcases ca with _ | (_ | _) <;> simp [avgVar, newOldDefault, AvgMeans]
  · rcases w with _ | (_ | _ | i) <;> rcases wt with _ | (_ | _ | j) <;> simp [windowVar, newOldDefault]
  · rintro ⟨rfl, rfl⟩
    rfl
  · rintro u rfl rfl
    rfl

/-- The averaging mode 0 overrides `coAvg`, the same mode by its name does not; and `cutoff` 0 is refused. -/
example : (plotspecVars 2 { averageMode := some (.number false), coAvg := some true }).map (·.coAvg) = some false ∧
    (plotspecVars 2 { averageMode := some .normal, coAvg := some true }).map (·.coAvg) = some true ∧
    (plotspecVars 2 { window := some .hann, winType := some .rect, maxSignal := some 3, maxCode := some 5 }).map (fun v => (v.windowFunc, v.maxSignal)) = some (.rect, 3) ∧
    (plotspecVars 2 { cutoff := some 0 }).isNone := by
  refine ⟨?_, ?_, ?_, ?_⟩ <;> simp [plotspecVars, passesPos, avgVar, windowVar, signalVar]

end Verif
