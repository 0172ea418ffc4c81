import Verif.Model.SkillCli
import Verif.Theorems.Skills
import Verif.Theorems.SkillStatus

/-!
# C156: the skill command as typed: which words do what, and what is printed
-/

namespace Verif

open Model

/-! ## Specification -/

/-- The words that mean an option. -/
def Spec.spellings : CliOpt → List String
  | .help => ["-h", "--h", "--he", "--hel", "--help"]
  | .list => ["--l", "--li", "--lis", "--list"]
  | .status => ["--s", "--st", "--sta", "--stat", "--statu", "--status"]
  | .dev => ["--dev"]
  | .all => ["--a", "--al", "--all"]
  | .dest => ["--des", "--dest"]
  | .force => ["--f", "--fo", "--for", "--forc", "--force", "--u", "--up", "--upg", "--upgr", "--upgra", "--upgrad", "--upgrade"]
  | .editable => ["--e", "--ed", "--edi", "--edit", "--edita", "--editab", "--editabl", "--editable"]

/-- A word that can be a name or a path: no leading dash, or a lone dash, a negative number, or something with a space. -/
def Spec.ValueWord (s : String) : Prop :=
  s.toList.head? ≠ some '-' ∨ s = "-" ∨ looksNegative s.toList = true ∨ ' ' ∈ s.toList

/-- An option as typed: a flag, `--dest path`, or `--dest=path`. -/
inductive Spec.OptWord where
  | flag (o : CliOpt) (s : String)
  | destSep (s v : String)
  | destEq (s v : String)

/-- The words of an option. -/
def Spec.OptWord.words : Spec.OptWord → List String
  | .flag _ s => [s]
  | .destSep s v => [s, v]
  | .destEq s v => [s ++ "=" ++ v]

/-- The option is spelled correctly. -/
def Spec.OptWord.Valid : Spec.OptWord → Prop
  | .flag o s => o ≠ .help ∧ o ≠ .dest ∧ s ∈ Spec.spellings o
  | .destSep s v => s ∈ Spec.spellings .dest ∧ Spec.ValueWord v
  | .destEq s _ => s ∈ Spec.spellings .dest

/-- The option is the flag `o`. -/
def Spec.OptWord.isFlag (o : CliOpt) : Spec.OptWord → Bool
  | .flag o' _ => decide (o' = o)
  | _ => false

/-- The path given by an option. -/
def Spec.OptWord.path : Spec.OptWord → Option String
  | .flag _ _ => none
  | .destSep _ v => some v
  | .destEq _ v => some v

/-- All words of a list of options. -/
def Spec.wordsOf (ws : List Spec.OptWord) : List String := ws.flatMap Spec.OptWord.words

/-- What options and names mean: a flag holds if it is typed anywhere, the last path counts. -/
def Spec.meaning (ws : List Spec.OptWord) (names : List String) : SkillArgs where
  skills := names
  list := ws.any (·.isFlag .list)
  status := ws.any (·.isFlag .status)
  dev := ws.any (·.isFlag .dev)
  all := ws.any (·.isFlag .all)
  dest := (ws.filterMap Spec.OptWord.path).getLast?
  force := ws.any (·.isFlag .force)
  editable := ws.any (·.isFlag .editable)

/-- A word without a leading dash. -/
def Spec.Plain (s : String) : Prop := s.toList.head? ≠ some '-'

/-- The path given separately has no leading dash. -/
def Spec.OptWord.PlainPath : Spec.OptWord → Prop
  | .destSep _ v => Spec.Plain v
  | _ => True

open Spec

/-! ## Single words -/

private theorem cutEq_some (l v : List Char) (h : (cutEq l).2 = some v) : l = (cutEq l).1 ++ '=' :: v := by
  induction l with
  | nil => simp [cutEq] at h
  | cons c cs ih =>
    by_cases hc : c = '='
    · subst hc
      simp only [cutEq, if_true, Option.some.injEq] at h ⊢
      rw [h, List.nil_append]
    · simp only [cutEq, if_neg hc] at h ⊢
      rw [List.cons_append, ← ih h]

private theorem cutEq_none (l : List Char) (h : (cutEq l).2 = none) : (cutEq l).1 = l := by
  induction l with
  | nil => rfl
  | cons c cs ih =>
    by_cases hc : c = '='
    · subst hc
      simp [cutEq] at h
    · simp only [cutEq, if_neg hc] at h ⊢
      rw [ih h]

private theorem cutEq_append (p v : List Char) (h : '=' ∉ p) : cutEq (p ++ '=' :: v) = (p, some v) := by
  induction p with
  | nil => simp [cutEq]
  | cons c cs ih =>
    rw [List.mem_cons, not_or] at h
    simp only [List.cons_append, cutEq, if_neg (Ne.symm h.1), ih h.2]

private theorem toList_inj {s t : String} (h : s.toList = t.toList) : s = t := by
  rw [← String.ofList_toList (s := s), h, String.ofList_toList]

/-- The options one abbreviation can stand for. -/
private theorem filter_single (p : List Char) (o : String × CliOpt) (hp : ['-', '-'] <+: p) (h : optionStrings.filter (fun o => p.isPrefixOf o.1.toList) = [o]) :
    String.ofList p ∈ spellings o.2 := by
  have hm : o ∈ optionStrings.filter (fun o => p.isPrefixOf o.1.toList) := by rw [h]; exact List.mem_singleton_self o
  rw [List.mem_filter, List.isPrefixOf_iff_prefix] at hm
  obtain ⟨h1, h2⟩ := hm
  have hin : p ∈ o.1.toList.inits := List.mem_inits _ _ |>.mpr h2
  have key : ∀ o ∈ optionStrings, ∀ p ∈ o.1.toList.inits, ['-', '-'].isPrefixOf p = true → optionStrings.filter (fun o => p.isPrefixOf o.1.toList) = [o] → String.ofList p ∈ spellings o.2 := by
    decide +kernel
  exact key o h1 p hin (List.isPrefixOf_iff_prefix.mpr hp) h

private theorem spelled_table (o : CliOpt) : ∀ p ∈ spellings o, classify p = .opt o none ∧ '=' ∉ p.toList ∧ p.toList.head? = some '-' ∧
    ((optionStrings.find? (fun q => decide (q.1.toList = p.toList))).map (·.2) = some o ∨
      (optionStrings.find? (fun q => decide (q.1.toList = p.toList)) = none ∧ ['-', '-'].isPrefixOf p.toList = true ∧
        (optionStrings.filter (fun q => p.toList.isPrefixOf q.1.toList)).map (·.2) = [o])) := by
  cases o <;> decide +kernel

private theorem option_names : ∀ q ∈ optionStrings, q.1 ∈ spellings q.2 ∧ '=' ∉ q.1.toList := by decide +kernel

/-- **C156 (spelling).** The words that mean an option are exactly those of the table, with or without `=value`. -/
theorem C156_spelling (s : String) (o : CliOpt) :
    (classify s = .opt o none ↔ s ∈ spellings o) ∧
    ∀ v : String, classify s = .opt o (some v) ↔ ∃ p ∈ spellings o, s = p ++ "=" ++ v := by
  have fwd : ∀ w : Option String, classify s = .opt o w → (w = none ∧ s ∈ spellings o) ∨ ∃ v, w = some v ∧ ∃ p ∈ spellings o, s = p ++ "=" ++ v := by
    intro w h
    have build : ∀ q : String, q.toList = (cutEq s.toList).1 → ∀ v, (cutEq s.toList).2 = some v → s = q ++ "=" ++ String.ofList v := by
      intro q hq v hv
      apply toList_inj
      rw [String.toList_append, String.toList_append, String.toList_ofList, hq]
      have := cutEq_some _ _ hv
      simpa using this
    unfold classify at h
    by_cases h1 : s.toList.head? ≠ some '-'
    · rw [if_pos h1] at h
      cases h
    rw [if_neg h1] at h
    cases hf : optionStrings.find? (fun o => decide (o.1 = s)) with
    | some q =>
      rw [hf] at h
      simp only [Tok.opt.injEq] at h
      have hm := List.mem_of_find?_eq_some hf
      have he := List.find?_some hf
      simp only [decide_eq_true_eq] at he
      left
      rw [← h.1, ← h.2, ← he]
      exact ⟨rfl, (option_names q hm).1⟩
    | none =>
      rw [hf] at h
      simp only at h
      by_cases h2 : s = "-"
      · rw [if_pos h2] at h
        cases h
      rw [if_neg h2] at h
      cases hg : (if (cutEq s.toList).2.isSome then optionStrings.find? (fun o => decide (o.1.toList = (cutEq s.toList).1)) else none) with
      | some q =>
        rw [hg] at h
        simp only [Tok.opt.injEq] at h
        split_ifs at hg with h3
        obtain ⟨v, hv⟩ := Option.isSome_iff_exists.mp h3
        have hm := List.mem_of_find?_eq_some hg
        have he := List.find?_some hg
        simp only [decide_eq_true_eq] at he
        right
        refine ⟨String.ofList v, ?_, q.1, ?_, build q.1 he v hv⟩
        · rw [← h.2, hv]; rfl
        · rw [← h.1]; exact (option_names q hm).1
      | none =>
        rw [hg] at h
        simp only at h
        by_cases h4 : ['-', '-'].isPrefixOf s.toList = true
        · rw [if_pos h4] at h
          cases hl : optionStrings.filter (fun o => (cutEq s.toList).1.isPrefixOf o.1.toList) with
          | nil =>
            rw [hl] at h
            simp only at h
            split_ifs at h
          | cons q t =>
            rw [hl] at h
            cases t with
            | cons _ _ => simp at h
            | nil =>
              simp only [Tok.opt.injEq] at h
              cases hv : (cutEq s.toList).2 with
              | none =>
                have e := cutEq_none _ hv
                left
                refine ⟨by rw [← h.2, hv]; rfl, ?_⟩
                rw [e] at hl
                have := filter_single s.toList q (List.isPrefixOf_iff_prefix.mp h4) hl
                rwa [String.ofList_toList, h.1] at this
              | some v =>
                right
                have e := cutEq_some _ _ hv
                have hpre : ['-', '-'] <+: (cutEq s.toList).1 := by
                  have h5 := List.isPrefixOf_iff_prefix.mp h4
                  cases hp : (cutEq s.toList).1 with
                  | nil =>
                    rw [hp] at e
                    rw [e] at h5
                    simp at h5
                  | cons a as =>
                    cases as with
                    | nil =>
                      rw [hp] at e
                      rw [e] at h5
                      simp at h5
                    | cons b bs =>
                      rw [hp] at e
                      rw [e] at h5
                      simp only [List.cons_append, List.cons_prefix_cons] at h5 ⊢
                      exact ⟨h5.1, h5.2.1, List.nil_prefix⟩
                have := filter_single _ q hpre hl
                refine ⟨String.ofList v, by rw [← h.2, hv]; rfl, String.ofList (cutEq s.toList).1, by rwa [h.1] at this, build _ (String.toList_ofList) v hv⟩
        · rw [if_neg h4] at h
          simp only at h
          split_ifs at h
  refine ⟨⟨fun h => ?_, fun h => (spelled_table o s h).1⟩, fun v => ⟨fun h => ?_, ?_⟩⟩
  · rcases fwd none h with h | ⟨v, h, _⟩
    · exact h.2
    · cases h
  · rcases fwd (some v) h with h | ⟨v', h, hp⟩
    · cases h.1
    · cases h; exact hp
  · rintro ⟨p, hp, rfl⟩
    obtain ⟨_, t2, t3, t4⟩ := spelled_table o p hp
    have e : (p ++ "=" ++ v).toList = p.toList ++ '=' :: v.toList := by
      rw [String.toList_append, String.toList_append]
      simp
    have hcut : cutEq (p ++ "=" ++ v).toList = (p.toList, some v.toList) := by rw [e, cutEq_append _ _ t2]
    have hmem : '=' ∈ (p ++ "=" ++ v).toList := by rw [e]; simp
    have hhead : (p ++ "=" ++ v).toList.head? = some '-' := by
      rw [e]
      cases hl : p.toList with
      | nil => rw [hl] at t3; cases t3
      | cons c cs => rw [hl] at t3; exact t3
    have hf : optionStrings.find? (fun q => decide (q.1 = p ++ "=" ++ v)) = none := by
      rw [List.find?_eq_none]
      intro q hq he
      exact (option_names q hq).2 (of_decide_eq_true he ▸ hmem)
    have hd : p ++ "=" ++ v ≠ "-" := by
      intro h
      rw [h] at hmem
      revert hmem
      decide
    unfold classify
    rw [if_neg (not_not.mpr hhead), hf]
    simp only [hcut, if_neg hd, Option.isSome_some, if_true, Option.map_some, String.ofList_toList]
    rcases t4 with h | ⟨h, h', h''⟩
    · obtain ⟨q, hq, hqo⟩ := Option.map_eq_some_iff.mp h
      rw [hq]
      simp only [hqo]
    · rw [h]
      have hpre : ['-', '-'].isPrefixOf (p ++ "=" ++ v).toList = true := by
        rw [List.isPrefixOf_iff_prefix, e]
        exact (List.isPrefixOf_iff_prefix.mp h').trans (List.prefix_append _ _)
      simp only [hpre, if_true]
      obtain ⟨q, hq⟩ : ∃ q, optionStrings.filter (fun q => p.toList.isPrefixOf q.1.toList) = [q] := by
        have := congrArg List.length h''
        rw [List.length_map] at this
        exact List.length_eq_one_iff.mp this
      rw [hq] at h'' ⊢
      simp only [List.map_cons, List.map_nil, List.cons.injEq, and_true] at h''
      simp only [h'']

/-- A word is taken as a value only if it can be one, and then unchanged. -/
private theorem classify_pos (s w : String) (h : classify s = .pos w) : w = s ∧ ValueWord s := by
  unfold classify at h
  by_cases h1 : s.toList.head? ≠ some '-'
  · rw [if_pos h1] at h
    exact ⟨(Tok.pos.inj h).symm, .inl h1⟩
  · rw [if_neg h1] at h
    split at h
    · cases h
    · by_cases h2 : s = "-"
      · rw [if_pos h2] at h
        exact ⟨(Tok.pos.inj h).symm, .inr (.inl h2)⟩
      · rw [if_neg h2] at h
        simp only at h
        split at h
        · cases h
        · split at h
          · cases h
          · cases h
          · split_ifs at h with h3 h4
            · exact ⟨(Tok.pos.inj h).symm, .inr (.inr (.inl h3))⟩
            · exact ⟨(Tok.pos.inj h).symm, .inr (.inr (.inr h4))⟩

private theorem classify_plain (s : String) (h : s.toList.head? ≠ some '-') : classify s = .pos s := by
  unfold classify
  rw [if_pos h]

/-! ## Whole lines -/

/-- Effect of one option. -/
private def effect (a : SkillArgs) : OptWord → SkillArgs
  | .flag o _ => setFlag o a
  | .destSep _ v => { a with dest := some v }
  | .destEq _ v => { a with dest := some v }

private theorem no_args_extra (n : ℕ) : ∀ (ts : List Tok), ts.length ≤ n → ∀ ph a b, parseLoop ph true a ts ≠ .args b := by
  induction n with
  | zero =>
    intro ts h ph a b
    have : ts = [] := List.length_eq_zero_iff.mp (by omega)
    subst this
    cases ph <;> simp [parseLoop]
  | succ n ih =>
    intro ts h ph a b
    match ts, h with
    | [], _ => cases ph <;> simp [parseLoop]
    | .pos s :: ts, h =>
      have := ih ts (by simp only [List.length_cons] at h; omega)
      cases ph <;> simp only [parseLoop] <;> exact this _ _ _
    | .unknown :: ts, h =>
      have := ih ts (by simp only [List.length_cons] at h; omega)
      cases ph <;> simp only [parseLoop] <;> exact this _ _ _
    | .ambiguous :: ts, h => cases ph <;> simp [parseLoop]
    | .opt o (some v) :: ts, h =>
      have := ih ts (by simp only [List.length_cons] at h; omega)
      cases ph <;> cases o <;> simp only [parseLoop] <;> first | exact this _ _ _ | simp
    | .opt .dest none :: .pos v :: ts, h =>
      have := ih ts (by simp only [List.length_cons] at h; omega)
      cases ph <;> simp only [parseLoop] <;> exact this _ _ _
    | .opt .dest none :: [], h => cases ph <;> simp [parseLoop]
    | .opt .dest none :: .unknown :: ts, h => cases ph <;> simp [parseLoop]
    | .opt .dest none :: .ambiguous :: ts, h => cases ph <;> simp [parseLoop]
    | .opt .dest none :: .opt _ _ :: ts, h => cases ph <;> simp [parseLoop]
    | .opt .help none :: ts, h => cases ph <;> simp [parseLoop]
    | .opt .list none :: ts, h | .opt .status none :: ts, h | .opt .dev none :: ts, h | .opt .all none :: ts, h | .opt .force none :: ts, h | .opt .editable none :: ts, h =>
      have := ih ts (by simp only [List.length_cons] at h; omega)
      cases ph <;> simp only [parseLoop] <;> exact this _ _ _

private theorem step_flag (ph : Phase) (ex : Bool) (a : SkillArgs) (o : CliOpt) (ts : List Tok) (h1 : o ≠ .help) (h2 : o ≠ .dest) :
    parseLoop ph ex a (.opt o none :: ts) = parseLoop ph.close ex (setFlag o a) ts := by
  cases o <;> first | exact absurd rfl h1 | exact absurd rfl h2 | (cases ph <;> simp only [parseLoop])

private theorem step_pos (ph : Phase) (ex : Bool) (a : SkillArgs) (s : String) (ts : List Tok) (h : ph ≠ .after) :
    parseLoop ph ex a (.pos s :: ts) = parseLoop .inRun ex { a with skills := a.skills ++ [s] } ts := by
  cases ph <;> first | exact absurd rfl h | simp only [parseLoop]

private theorem step_sep (ph : Phase) (ex : Bool) (a : SkillArgs) (v : String) (ts : List Tok) :
    parseLoop ph ex a (.opt .dest none :: .pos v :: ts) = parseLoop ph.close ex { a with dest := some v } ts := by
  cases ph <;> simp only [parseLoop]

private theorem step_eq (ph : Phase) (ex : Bool) (a : SkillArgs) (v : String) (ts : List Tok) :
    parseLoop ph ex a (.opt .dest (some v) :: ts) = parseLoop ph.close ex { a with dest := some v } ts := by
  cases ph <;> simp only [parseLoop]

/-- One word of an accepted line: a name, or an option. -/
private theorem step (ph : Phase) (a a' : SkillArgs) (s : String) (rest : List String) (h : parseLoop ph false a ((s :: rest).map classify) = .args a') :
    (ph ≠ .after ∧ ValueWord s ∧ parseLoop .inRun false { a with skills := a.skills ++ [s] } (rest.map classify) = .args a') ∨
    ∃ w : OptWord, w.Valid ∧ ∃ rest', s :: rest = w.words ++ rest' ∧ parseLoop ph.close false (effect a w) (rest'.map classify) = .args a' := by
  rw [List.map_cons] at h
  cases hc : classify s with
  | pos w =>
    obtain ⟨rfl, hv⟩ := classify_pos s w hc
    rw [hc] at h
    by_cases hp : ph = .after
    · subst hp
      simp only [parseLoop] at h
      exact absurd h (no_args_extra _ _ le_rfl _ _ _)
    · left
      exact ⟨hp, hv, by rwa [step_pos _ _ _ _ _ hp] at h⟩
  | unknown =>
    rw [hc] at h
    exfalso
    cases ph <;> simp only [parseLoop] at h <;> exact no_args_extra _ _ le_rfl _ _ _ h
  | ambiguous =>
    rw [hc] at h
    exfalso
    cases ph <;> simp [parseLoop] at h
  | opt o v =>
    right
    cases v with
    | some v =>
      obtain ⟨p, hp, rfl⟩ := ((C156_spelling s o).2 v).mp hc
      rw [hc] at h
      by_cases ho : o = .dest
      · subst ho
        rw [step_eq] at h
        exact ⟨.destEq p v, hp, rest, rfl, h⟩
      · exfalso
        cases o <;> first | exact ho rfl | (cases ph <;> simp [parseLoop] at h)
    | none =>
      have hs := (C156_spelling s o).1.mp hc
      rw [hc] at h
      by_cases ho : o = .dest
      · subst ho
        cases rest with
        | nil =>
          exfalso
          cases ph <;> simp [parseLoop] at h
        | cons t rest =>
          rw [List.map_cons] at h
          cases ht : classify t with
          | pos w =>
            obtain ⟨rfl, hv⟩ := classify_pos t w ht
            rw [ht, step_sep] at h
            exact ⟨.destSep s w, ⟨hs, hv⟩, rest, rfl, h⟩
          | unknown => rw [ht] at h; exfalso; cases ph <;> simp [parseLoop] at h
          | ambiguous => rw [ht] at h; exfalso; cases ph <;> simp [parseLoop] at h
          | opt _ _ => rw [ht] at h; exfalso; cases ph <;> simp [parseLoop] at h
      · by_cases hh : o = .help
        · subst hh
          exfalso
          cases ph <;> simp [parseLoop] at h
        · rw [step_flag _ _ _ _ _ hh ho] at h
          exact ⟨.flag o s, ⟨hh, ho, hs⟩, rest, rfl, h⟩

private theorem words_ne (w : OptWord) : 0 < w.words.length := by cases w <;> simp [OptWord.words]

private theorem after_words (n : ℕ) : ∀ argv : List String, argv.length ≤ n → ∀ a a', parseLoop .after false a (argv.map classify) = .args a' →
    ∃ Q : List OptWord, (∀ w ∈ Q, w.Valid) ∧ argv = wordsOf Q ∧ a' = Q.foldl effect a := by
  induction n with
  | zero =>
    intro argv hl a a' h
    have : argv = [] := List.length_eq_zero_iff.mp (by omega)
    subst this
    simp only [List.map_nil, parseLoop, Bool.false_eq_true, if_false, Parsed.args.injEq] at h
    exact ⟨[], by simp, rfl, h.symm⟩
  | succ n ih =>
    intro argv hl a a' h
    cases argv with
    | nil => exact ih [] (by simp) a a' h
    | cons s rest =>
      rcases step _ _ _ _ _ h with ⟨h1, _⟩ | ⟨w, hw, rest', e, h'⟩
      · exact absurd rfl h1
      · have hlen := congrArg List.length e
        have := words_ne w
        rw [List.length_append] at hlen
        obtain ⟨Q, q1, q2, q3⟩ := ih rest' (by omega) _ _ h'
        refine ⟨w :: Q, ?_, ?_, q3⟩
        · intro x hx
          rcases List.mem_cons.mp hx with rfl | hx
          · exact hw
          · exact q1 x hx
        · rw [e, q2]; simp [wordsOf]

private theorem run_words (argv : List String) : ∀ a a', parseLoop .inRun false a (argv.map classify) = .args a' →
    ∃ (N : List String) (Q : List OptWord), (∀ m ∈ N, ValueWord m) ∧ (∀ w ∈ Q, w.Valid) ∧ argv = N ++ wordsOf Q ∧ a' = Q.foldl effect { a with skills := a.skills ++ N } := by
  induction argv with
  | nil =>
    intro a a' h
    simp only [List.map_nil, parseLoop, Bool.false_eq_true, if_false, Parsed.args.injEq] at h
    exact ⟨[], [], by simp, by simp, rfl, by simp [h]⟩
  | cons s rest ih =>
    intro a a' h
    rcases step _ _ _ _ _ h with ⟨_, hv, h'⟩ | ⟨w, hw, rest', e, h'⟩
    · obtain ⟨N, Q, n1, q1, e, q3⟩ := ih _ _ h'
      refine ⟨s :: N, Q, ?_, q1, by rw [e]; rfl, ?_⟩
      · intro x hx
        rcases List.mem_cons.mp hx with rfl | hx
        · exact hv
        · exact n1 x hx
      · rw [q3]; simp
    · obtain ⟨Q, q1, q2, q3⟩ := after_words _ rest' le_rfl _ _ h'
      refine ⟨[], w :: Q, by simp, ?_, by rw [e, q2]; simp [wordsOf], by rw [q3]; simp⟩
      intro x hx
      rcases List.mem_cons.mp hx with rfl | hx
      · exact hw
      · exact q1 x hx

private theorem before_words (n : ℕ) : ∀ argv : List String, argv.length ≤ n → ∀ a a', parseLoop .before false a (argv.map classify) = .args a' →
    ∃ (P : List OptWord) (N : List String) (Q : List OptWord), (∀ w ∈ P, w.Valid) ∧ (∀ m ∈ N, ValueWord m) ∧ (∀ w ∈ Q, w.Valid) ∧ argv = wordsOf P ++ N ++ wordsOf Q ∧
      a' = Q.foldl effect { P.foldl effect a with skills := (P.foldl effect a).skills ++ N } := by
  induction n with
  | zero =>
    intro argv hl a a' h
    have : argv = [] := List.length_eq_zero_iff.mp (by omega)
    subst this
    simp only [List.map_nil, parseLoop, Bool.false_eq_true, if_false, Parsed.args.injEq] at h
    exact ⟨[], [], [], by simp, by simp, by simp, rfl, by simp [h]⟩
  | succ n ih =>
    intro argv hl a a' h
    cases argv with
    | nil => exact ih [] (by simp) a a' h
    | cons s rest =>
      rcases step _ _ _ _ _ h with ⟨_, hv, h'⟩ | ⟨w, hw, rest', e, h'⟩
      · obtain ⟨N, Q, n1, q1, e, q3⟩ := run_words _ _ _ h'
        refine ⟨[], s :: N, Q, by simp, ?_, q1, by rw [e]; rfl, ?_⟩
        · intro x hx
          rcases List.mem_cons.mp hx with rfl | hx
          · exact hv
          · exact n1 x hx
        · rw [q3]; simp
      · have hlen := congrArg List.length e
        have := words_ne w
        rw [List.length_append] at hlen
        obtain ⟨P, N, Q, p1, n1, q1, q2, q3⟩ := ih rest' (by omega) _ _ h'
        refine ⟨w :: P, N, Q, ?_, n1, q1, ?_, q3⟩
        · intro x hx
          rcases List.mem_cons.mp hx with rfl | hx
          · exact hw
          · exact p1 x hx
        · rw [e, q2]; simp [wordsOf]

private theorem foldl_effect (ws : List OptWord) : ∀ a : SkillArgs, (∀ w ∈ ws, w.Valid) → ws.foldl effect a =
    { skills := a.skills, list := a.list || ws.any (·.isFlag .list), status := a.status || ws.any (·.isFlag .status), dev := a.dev || ws.any (·.isFlag .dev), all := a.all || ws.any (·.isFlag .all),
      dest := ((ws.filterMap OptWord.path).getLast?).or a.dest, force := a.force || ws.any (·.isFlag .force), editable := a.editable || ws.any (·.isFlag .editable) } := by
  induction ws with
  | nil => intro a _; simp
  | cons w ws ih =>
    intro a hv
    rw [List.foldl_cons, ih _ fun x hx => hv x (List.mem_cons_of_mem _ hx)]
    have hw := hv w List.mem_cons_self
    have hor : ∀ (v : String) (l : List String), (v :: l).getLast?.or a.dest = l.getLast?.or (some v) := by
      intro v l
      cases l with
      | nil => simp
      | cons x xs => rw [List.getLast?_cons_cons]; cases h : (x :: xs).getLast? <;> simp_all
    cases w with
    | flag o s =>
      obtain ⟨h1, h2, _⟩ := hw
      cases o <;> first | exact absurd rfl h1 | exact absurd rfl h2 | simp [effect, setFlag, OptWord.isFlag, OptWord.path]
    | destSep s v => simp [effect, OptWord.isFlag, OptWord.path, hor]
    | destEq s v => simp [effect, OptWord.isFlag, OptWord.path, hor]

/-- **C156 (accepted lines).** An accepted line is options, one block of names, and options, each spelled as in the table; no word is dropped, a flag holds if it is typed anywhere and the last path
counts. -/
theorem C156_accepted (argv : List String) (a : SkillArgs) (h : parseArgs argv = .args a) :
    ∃ (P : List OptWord) (N : List String) (Q : List OptWord), (∀ w ∈ P ++ Q, w.Valid) ∧ (∀ m ∈ N, ValueWord m) ∧ argv = wordsOf P ++ N ++ wordsOf Q ∧ a = meaning (P ++ Q) N := by
  unfold parseArgs at h
  split_ifs at h
  obtain ⟨P, N, Q, p1, n1, q1, e, ha⟩ := before_words _ argv le_rfl _ _ h
  refine ⟨P, N, Q, ?_, n1, e, ?_⟩
  · intro w hw
    rcases List.mem_append.mp hw with hw | hw
    · exact p1 w hw
    · exact q1 w hw
  · rw [ha, foldl_effect Q _ q1, foldl_effect P _ p1]
    unfold meaning noArgs
    simp only [List.any_append, List.filterMap_append, List.getLast?_append, Bool.false_or, List.nil_append, Option.or_none]

private theorem opts_forward (ws : List OptWord) : ∀ (ph : Phase) (a : SkillArgs) (rest : List String), (∀ w ∈ ws, w.Valid ∧ w.PlainPath) → ph ≠ .inRun →
    parseLoop ph false a ((wordsOf ws ++ rest).map classify) = parseLoop ph false (ws.foldl effect a) (rest.map classify) := by
  induction ws with
  | nil => intro ph a rest _ _; rfl
  | cons w ws ih =>
    intro ph a rest hv hph
    have hcl : ph.close = ph := by cases ph <;> first | rfl | exact absurd rfl hph
    obtain ⟨hw, hp⟩ := hv w List.mem_cons_self
    have ih' := fun b => ih ph b rest (fun x hx => hv x (List.mem_cons_of_mem _ hx)) hph
    have e : wordsOf (w :: ws) ++ rest = w.words ++ (wordsOf ws ++ rest) := by simp [wordsOf]
    rw [e, List.foldl_cons, ← ih']
    cases w with
    | flag o s =>
      obtain ⟨h1, h2, h3⟩ := hw
      simp only [OptWord.words, List.cons_append, List.nil_append, List.map_cons]
      rw [(C156_spelling s o).1.mpr h3, step_flag _ _ _ _ _ h1 h2, hcl]
      rfl
    | destSep s v =>
      simp only [OptWord.words, List.cons_append, List.nil_append, List.map_cons]
      rw [(C156_spelling s .dest).1.mpr hw.1, classify_plain v hp, step_sep, hcl]
      rfl
    | destEq s v =>
      simp only [OptWord.words, List.cons_append, List.nil_append, List.map_cons]
      rw [((C156_spelling (s ++ "=" ++ v) .dest).2 v).mpr ⟨s, hw, rfl⟩, step_eq, hcl]
      rfl

private theorem opts_after_run (ws : List OptWord) (a : SkillArgs) (hv : ∀ w ∈ ws, w.Valid ∧ w.PlainPath) :
    parseLoop .inRun false a ((wordsOf ws).map classify) = .args (ws.foldl effect a) := by
  cases ws with
  | nil => rfl
  | cons w ws =>
    have key := opts_forward (w :: ws) .after a [] hv (by decide)
    rw [List.append_nil] at key
    have e : parseLoop .inRun false a ((wordsOf (w :: ws)).map classify) = parseLoop .after false a ((wordsOf (w :: ws)).map classify) := by
      obtain ⟨hw, hp⟩ := hv w List.mem_cons_self
      have e : wordsOf (w :: ws) = w.words ++ wordsOf ws := by simp [wordsOf]
      rw [e]
      cases w with
      | flag o s =>
        obtain ⟨h1, h2, h3⟩ := hw
        simp only [OptWord.words, List.cons_append, List.nil_append, List.map_cons]
        rw [(C156_spelling s o).1.mpr h3, step_flag _ _ _ _ _ h1 h2, step_flag _ _ _ _ _ h1 h2]
        rfl
      | destSep s v =>
        simp only [OptWord.words, List.cons_append, List.nil_append, List.map_cons]
        rw [(C156_spelling s .dest).1.mpr hw.1, classify_plain v hp, step_sep, step_sep]
        rfl
      | destEq s v =>
        simp only [OptWord.words, List.cons_append, List.nil_append, List.map_cons]
        rw [((C156_spelling (s ++ "=" ++ v) .dest).2 v).mpr ⟨s, hw, rfl⟩, step_eq, step_eq]
        rfl
    rw [e, key]
    simp [parseLoop]

private theorem names_forward (N : List String) : ∀ (ph : Phase) (a : SkillArgs) (rest : List String), (∀ m ∈ N, Plain m) → ph ≠ .after → N ≠ [] →
    parseLoop ph false a ((N ++ rest).map classify) = parseLoop .inRun false { a with skills := a.skills ++ N } (rest.map classify) := by
  induction N with
  | nil => intro ph a rest _ _ h; exact absurd rfl h
  | cons s N ih =>
    intro ph a rest hN hph _
    rw [List.cons_append, List.map_cons, classify_plain s (hN s List.mem_cons_self), step_pos _ _ _ _ _ hph]
    by_cases h : N = []
    · subst h; rfl
    · rw [ih .inRun _ rest (fun x hx => hN x (List.mem_cons_of_mem _ hx)) (by decide) h]
      simp

private theorem not_ambiguous (ws : List OptWord) (hv : ∀ w ∈ ws, w.Valid ∧ w.PlainPath) : Tok.ambiguous ∉ (wordsOf ws).map classify := by
  intro h
  obtain ⟨s, hs, hc⟩ := List.mem_map.mp h
  obtain ⟨w, hw, hs⟩ := List.mem_flatMap.mp hs
  obtain ⟨h1, h2⟩ := hv w hw
  cases w with
  | flag o t =>
    rw [List.mem_singleton.mp hs, (C156_spelling t o).1.mpr h1.2.2] at hc
    cases hc
  | destSep t v =>
    rcases List.mem_cons.mp hs with rfl | hs
    · rw [(C156_spelling _ .dest).1.mpr h1.1] at hc
      cases hc
    · rw [List.mem_singleton.mp hs, classify_plain v h2] at hc
      cases hc
  | destEq t v =>
    rw [List.mem_singleton.mp hs, ((C156_spelling (t ++ "=" ++ v) .dest).2 v).mpr ⟨t, h1, rfl⟩] at hc
    cases hc

/-- **C156 (lines that work).** Options, one block of names and options, names and separate paths without a leading dash, in any order and number, are accepted and mean the same wherever the options
stand. -/
theorem C156_accepts (P Q : List OptWord) (N : List String) (hv : ∀ w ∈ P ++ Q, w.Valid ∧ w.PlainPath) (hN : ∀ m ∈ N, Plain m) :
    parseArgs (wordsOf P ++ N ++ wordsOf Q) = .args (meaning (P ++ Q) N) := by
  have hP : ∀ w ∈ P, w.Valid ∧ w.PlainPath := fun w hw => hv w (List.mem_append_left _ hw)
  have hQ : ∀ w ∈ Q, w.Valid ∧ w.PlainPath := fun w hw => hv w (List.mem_append_right _ hw)
  have hna : Tok.ambiguous ∉ (wordsOf P ++ N ++ wordsOf Q).map classify := by
    rw [List.map_append, List.map_append, List.mem_append, List.mem_append]
    rintro ((h | h) | h)
    · exact not_ambiguous P hP h
    · obtain ⟨s, hs, hc⟩ := List.mem_map.mp h
      rw [classify_plain s (hN s hs)] at hc
      cases hc
    · exact not_ambiguous Q hQ h
  have hm : ∀ b : SkillArgs, b = Q.foldl effect { P.foldl effect noArgs with skills := (P.foldl effect noArgs).skills ++ N } → b = meaning (P ++ Q) N := by
    intro b hb
    rw [hb, foldl_effect Q _ fun w hw => (hQ w hw).1, foldl_effect P _ fun w hw => (hP w hw).1]
    unfold meaning noArgs
    simp only [List.any_append, List.filterMap_append, List.getLast?_append, Bool.false_or, List.nil_append, Option.or_none]
  unfold parseArgs
  rw [if_neg hna, List.append_assoc, opts_forward P .before noArgs _ hP (by decide)]
  by_cases h : N = []
  · subst h
    have key := opts_forward Q .before (P.foldl effect noArgs) [] hQ (by decide)
    rw [List.append_nil] at key
    rw [List.nil_append, key]
    simp only [List.map_nil, parseLoop, Bool.false_eq_true, if_false]
    rw [← hm _ rfl]
    simp
  · rw [names_forward N .before _ _ hN (by decide) h, opts_after_run Q _ hQ, ← hm _ rfl]

private theorem run_closes (w : OptWord) (rest : List String) (a : SkillArgs) (hw : w.Valid) (hp : w.PlainPath) :
    parseLoop .inRun false a ((w.words ++ rest).map classify) = parseLoop .after false a ((w.words ++ rest).map classify) := by
  cases w with
  | flag o s =>
    obtain ⟨h1, h2, h3⟩ := hw
    simp only [OptWord.words, List.cons_append, List.nil_append, List.map_cons]
    rw [(C156_spelling s o).1.mpr h3, step_flag _ _ _ _ _ h1 h2, step_flag _ _ _ _ _ h1 h2]
    rfl
  | destSep s v =>
    simp only [OptWord.words, List.cons_append, List.nil_append, List.map_cons]
    rw [(C156_spelling s .dest).1.mpr hw.1, classify_plain v hp, step_sep, step_sep]
    rfl
  | destEq s v =>
    simp only [OptWord.words, List.cons_append, List.nil_append, List.map_cons]
    rw [((C156_spelling (s ++ "=" ++ v) .dest).2 v).mpr ⟨s, hw, rfl⟩, step_eq, step_eq]
    rfl

/-- **C156 (names in two places).** Names before and after an option: the line is refused (or answered with the help text), whatever else it says, and nothing is changed. -/
theorem C156_split_names (bundle : String) (fs : Fs) (P O : List OptWord) (N : List String) (m : String) (rest : List String) (hv : ∀ w ∈ P ++ O, w.Valid ∧ w.PlainPath) (hN : ∀ x ∈ N, Plain x)
    (hm : Plain m) (hN0 : N ≠ []) (hO : O ≠ []) :
    (∀ a, parseArgs (wordsOf P ++ N ++ wordsOf O ++ m :: rest) ≠ .args a) ∧ (skillCommand bundle (wordsOf P ++ N ++ wordsOf O ++ m :: rest) fs).1 = fs := by
  have key : ∀ a, parseArgs (wordsOf P ++ N ++ wordsOf O ++ m :: rest) ≠ .args a := by
    intro a h
    unfold parseArgs at h
    split_ifs at h
    rw [List.append_assoc, List.append_assoc, opts_forward P .before noArgs _ (fun w hw => hv w (List.mem_append_left _ hw)) (by decide), names_forward N .before _ _ hN (by decide) hN0] at h
    obtain ⟨w, ws, rfl⟩ := List.exists_cons_of_ne_nil hO
    have hw := hv w (List.mem_append_right _ List.mem_cons_self)
    have e : wordsOf (w :: ws) ++ m :: rest = w.words ++ (wordsOf ws ++ m :: rest) := by simp [wordsOf]
    rw [e, run_closes w _ _ hw.1 hw.2, ← e, opts_forward (w :: ws) .after _ _ (fun x hx => hv x (List.mem_append_right _ hx)) (by decide), List.map_cons, classify_plain m hm] at h
    simp only [parseLoop] at h
    exact no_args_extra _ _ le_rfl _ _ _ h
  refine ⟨key, ?_⟩
  unfold skillCommand
  cases h : parseArgs (wordsOf P ++ N ++ wordsOf O ++ m :: rest) with
  | args a => exact absurd h (key a)
  | usage => rfl
  | help => rfl

/-! ## What a line can do -/

/-- **C156 (only --force destroys).** If no word of the line is `--force`, `--upgrade` or a beginning of one, every entry of every directory survives. -/
theorem C156_only_force (bundle : String) (argv : List String) (fs : Fs) (h : ∀ s ∈ argv, s ∉ spellings .force) (p n : String) (e : Entry) (he : fs.entry p n = some e) :
    (skillCommand bundle argv fs).1.entry p n = some e := by
  unfold skillCommand
  cases hp : parseArgs argv with
  | usage => exact he
  | help => exact he
  | args a =>
    obtain ⟨P, N, Q, hv, _, e1, rfl⟩ := C156_accepted argv a hp
    refine (C60_main bundle _ fs).2.2 ?_ p n e he
    show (P ++ Q).any (·.isFlag .force) = false
    rw [List.any_eq_false]
    intro w hw hf
    cases w with
    | flag o s =>
      have ho : o = .force := of_decide_eq_true hf
      subst ho
      refine h s ?_ (hv _ hw).2.2
      rw [e1, List.mem_append, List.mem_append]
      rcases List.mem_append.mp hw with hw | hw
      · exact .inl (.inl (List.mem_flatMap.mpr ⟨_, hw, List.mem_singleton_self s⟩))
      · exact .inr (List.mem_flatMap.mpr ⟨_, hw, List.mem_singleton_self s⟩)
    | destSep _ _ => cases hf
    | destEq _ _ => cases hf

/-- **C156 (no default place).** If no word of the line is `--dest`, `--des`, or one of them followed by `=`, nothing is changed at all. -/
theorem C156_no_default_place (bundle : String) (argv : List String) (fs : Fs) (h : ∀ s ∈ argv, s ∉ spellings .dest ∧ ∀ q ∈ spellings .dest, ∀ v, s ≠ q ++ "=" ++ v) :
    (skillCommand bundle argv fs).1 = fs := by
  unfold skillCommand
  cases hp : parseArgs argv with
  | usage => rfl
  | help => rfl
  | args a =>
    obtain ⟨P, N, Q, hv, _, e1, rfl⟩ := C156_accepted argv a hp
    refine (C60_main bundle _ fs).1 (.inr (.inr ?_))
    show ((P ++ Q).filterMap OptWord.path).getLast? = none
    rw [List.getLast?_eq_none_iff, List.filterMap_eq_nil_iff]
    intro w hw
    have hin : ∀ s ∈ w.words, s ∈ argv := by
      intro s hs
      rw [e1, List.mem_append, List.mem_append]
      rcases List.mem_append.mp hw with hw | hw
      · exact .inl (.inl (List.mem_flatMap.mpr ⟨_, hw, hs⟩))
      · exact .inr (List.mem_flatMap.mpr ⟨_, hw, hs⟩)
    cases w with
    | flag _ _ => rfl
    | destSep s v => exact absurd (hv _ hw).1 (h s (hin s List.mem_cons_self)).1
    | destEq s v => exact absurd rfl ((h _ (hin _ (List.mem_singleton_self _))).2 s (hv _ hw) v)

/-! ## What is printed -/

private theorem flatMap_six {α : Type} (f : α → List String) (hf : ∀ x, (f x).length = 6) (l : List α) (k j : ℕ) (hj : j < 6) (x : α) (hx : l[k]? = some x) :
    (l.flatMap f)[6 * k + j]? = (f x)[j]? := by
  induction l generalizing k with
  | nil => simp at hx
  | cons y l ih =>
    rw [List.flatMap_cons]
    cases k with
    | zero =>
      simp only [List.getElem?_cons_zero, Option.some.injEq] at hx
      subst hx
      rw [List.getElem?_append_left (by rw [hf]; omega), mul_zero, zero_add]
    | succ k =>
      rw [List.getElem?_cons_succ] at hx
      rw [List.getElem?_append_right (by rw [hf]; omega), hf, show 6 * (k + 1) + j - 6 = 6 * k + j by omega]
      exact ih k hx

private theorem mapM_get {α β : Type} (f : α → Py β) (l : List α) (r : List β) (h : l.mapM f = .ok r) : r.length = l.length ∧ ∀ (k : ℕ) a, l[k]? = some a → ∃ b, r[k]? = some b ∧ f a = .ok b := by
  induction l generalizing r with
  | nil =>
    have e : r = [] := by
      rw [List.mapM_nil] at h
      injection h with h
      exact h.symm
    subst e
    exact ⟨rfl, fun k a hk => by simp at hk⟩
  | cons a l ih =>
    rw [List.mapM_cons] at h
    cases ha : f a with
    | error e => rw [ha] at h; cases h
    | ok b =>
      rw [ha] at h
      cases hl : l.mapM f with
      | error e => rw [hl] at h; cases h
      | ok bs =>
        rw [hl] at h
        injection h with h
        subst h
        obtain ⟨h1, h2⟩ := ih bs hl
        refine ⟨by simp [h1], fun k c hk => ?_⟩
        cases k with
        | zero =>
          simp only [List.getElem?_cons_zero, Option.some.injEq] at hk
          subst hk
          exact ⟨b, rfl, ha⟩
        | succ k =>
          rw [List.getElem?_cons_succ] at hk ⊢
          exact h2 k c hk

private theorem yes_iff (pre : String) (b : Bool) : pre ++ yesNo b = pre ++ "yes" ↔ b = true := by
  cases b
  · constructor
    · intro h
      have := congrArg String.toList h
      rw [String.toList_append, String.toList_append] at this
      have := List.append_cancel_left this
      revert this
      decide
    · intro h; cases h
  · simp [yesNo]

/-- **C156 (status text).** `--status` prints a title and six lines per skill; the fourth says `installed: yes` exactly if the destination has an entry of that name, the fifth `mode: missing` exactly
if not, and the last `synced: yes` only for a link to the bundled skill or a copy that compares equal. Nothing is changed. -/
theorem C156_status_text (bundle dest : String) (argv : List String) (a : SkillArgs) (fs : Fs) (ha : parseArgs argv = .args a) (h1 : a.list = false) (h2 : a.status = true)
    (h3 : a.dest = some dest) (rows : List SkillRow) (hr : skillStatus bundle dest (some a.skills) a.dev a.all fs = .ok rows) :
    ∃ ns, resolveSkillNames (some a.skills) a.dev a.all = .ok ns ∧ (skillCommand bundle argv fs).1 = fs ∧ (skillCommand bundle argv fs).2.1 = .code 0 ∧
      (skillCommand bundle argv fs).2.2.length = 1 + 6 * ns.length ∧
      ∀ k n, ns[k]? = some n → (skillCommand bundle argv fs).2.2[6 * k + 1]? = some ("- " ++ n) ∧
        ((skillCommand bundle argv fs).2.2[6 * k + 4]? = some "  installed: yes" ↔ (fs.entry dest n).isSome) ∧
        ((skillCommand bundle argv fs).2.2[6 * k + 5]? = some "  mode: missing" ↔ fs.entry dest n = none) ∧
        ((skillCommand bundle argv fs).2.2[6 * k + 6]? = some "  synced: yes" →
          fs.entry dest n = some (.link bundle n) ∨ ∃ s t, fs.entry bundle n = some (.dir s) ∧ fs.entry dest n = some (.dir t) ∧ dirsEqual s t = true) := by
  have hout : (skillCommand bundle argv fs).2.2 = statusText bundle dest rows := by
    unfold skillCommand
    rw [ha]
    simp only [skillStdout, h1, h2, h3, hr, Bool.false_eq_true, if_false, if_true]
  have hmain : skillMain bundle a fs = (fs, .code 0) := by
    unfold skillMain
    simp only [h1, h2, h3, hr, Bool.false_eq_true, if_false, if_true]
  unfold skillStatus at hr
  cases hn : resolveSkillNames (some a.skills) a.dev a.all with
  | error e => rw [hn] at hr; cases hr
  | ok ns =>
    rw [hn] at hr
    simp only at hr
    obtain ⟨m1, m2⟩ := mapM_get _ _ _ hr
    refine ⟨ns, rfl, by unfold skillCommand; rw [ha]; simp only [hmain], by unfold skillCommand; rw [ha]; simp only [hmain], ?_, ?_⟩
    · have : ∀ l : List SkillRow, (l.flatMap (rowText bundle dest)).length = 6 * l.length := by
        intro l
        induction l with
        | nil => rfl
        | cons x l ih =>
          rw [List.flatMap_cons, List.length_append, ih, List.length_cons]
          show 6 + _ = _
          ring
      rw [hout, statusText, List.length_cons, this, m1]
      ring
    · intro k n hk
      obtain ⟨row, hrow, hsr⟩ := m2 k n hk
      obtain ⟨c1, c2, c3, c4⟩ := C73_row bundle dest fs n row hsr
      have line : ∀ j < 6, (skillCommand bundle argv fs).2.2[6 * k + (j + 1)]? = (rowText bundle dest row)[j]? := by
        intro j hj
        rw [hout, statusText, ← add_assoc, List.getElem?_cons_succ, flatMap_six _ (fun _ => rfl) rows k j hj row hrow]
      have l0 := line 0 (by norm_num)
      have l3 := line 3 (by norm_num)
      have l4 := line 4 (by norm_num)
      have l5 := line 5 (by norm_num)
      norm_num [rowText] at l0 l3 l4 l5
      refine ⟨by rw [l0, c1], ?_, ?_, ?_⟩
      · rw [l3, Option.some.injEq, ← c2]
        exact yes_iff "  installed: " row.installed
      · rw [l4, Option.some.injEq, ← c3]
        cases row.mode <;> decide
      · intro h
        rw [l5, Option.some.injEq] at h
        exact c4 ((yes_iff "  synced: " row.synced).mp h)

/-- **C156 (install, then status).** A line that installs into a place other than the bundle, with `--force` or onto free names, exits with 0 and lists the places; a later `--status` line of the same
request prints `installed: yes` and `synced: yes` for every skill. -/
theorem C156_install_then_status (bundle dest : String) (argv argv' : List String) (a a' : SkillArgs) (fs : Fs) (ns : List String) (ha : parseArgs argv = .args a) (ha' : parseArgs argv' = .args a')
    (h1 : a.list = false ∧ a.status = false ∧ a.dest = some dest) (h2 : a'.list = false ∧ a'.status = true ∧ a'.dest = some dest)
    (hsame : a'.skills = a.skills ∧ a'.dev = a.dev ∧ a'.all = a.all) (hn : resolveSkillNames (some a.skills) a.dev a.all = .ok ns) (hb : dest ≠ bundle) (hroot : fs dest ≠ .notDir)
    (hsrc : ∀ n ∈ ns, ∃ t, WfForest t ∧ fs.entry bundle n = some (.dir t)) (hfree : a.force = true ∨ ∀ n ∈ ns, fs.entry dest n = none) :
    (skillCommand bundle argv fs).2.1 = .code 0 ∧ (∀ n ∈ ns, "- " ++ (dest ++ "/" ++ n) ∈ (skillCommand bundle argv fs).2.2) ∧
    ((if a.editable then "Mode: editable symlink" else "Mode: copied directory") ∈ (skillCommand bundle argv fs).2.2) ∧
    ∀ k n, ns[k]? = some n →
      (skillCommand bundle argv' (skillCommand bundle argv fs).1).2.2[6 * k + 1]? = some ("- " ++ n) ∧
      (skillCommand bundle argv' (skillCommand bundle argv fs).1).2.2[6 * k + 4]? = some "  installed: yes" ∧
      (skillCommand bundle argv' (skillCommand bundle argv fs).1).2.2[6 * k + 6]? = some "  synced: yes" := by
  obtain ⟨hok, _⟩ := C60_installs bundle dest (some a.skills) a.dev a.all a.force a.editable fs ns hn hb hroot (fun n h => by obtain ⟨t, _, ht⟩ := hsrc n h; exact ⟨t, ht⟩) hfree
  have hst := C73_synced_after_install bundle dest (some a.skills) a.dev a.all a.force a.editable fs ns hn hb hroot hsrc hfree
  have hfs : (skillCommand bundle argv fs).1 = (installSkills bundle dest (some a.skills) a.dev a.all a.force a.editable fs).1 ∧ (skillCommand bundle argv fs).2.1 = .code 0 := by
    unfold skillCommand
    rw [ha]
    simp only [skillMain, h1.1, h1.2.1, h1.2.2, Bool.false_eq_true, if_false]
    cases hi : installSkills bundle dest (some a.skills) a.dev a.all a.force a.editable fs with
    | mk fs' r =>
      rw [hi] at hok
      simp only at hok
      subst hok
      exact ⟨rfl, rfl⟩
  have hout : (skillCommand bundle argv fs).2.2 = "Installed ADCToolbox Codex skills:" :: ns.map (fun n => "- " ++ (dest ++ "/" ++ n)) ++
      [if a.editable then "Mode: editable symlink" else "Mode: copied directory", "Restart Codex to pick up new or updated skills."] := by
    unfold skillCommand
    rw [ha]
    simp only [skillStdout, h1.1, h1.2.1, h1.2.2, hok, Bool.false_eq_true, if_false]
  have hout' : (skillCommand bundle argv' (skillCommand bundle argv fs).1).2.2 = statusText bundle dest (ns.map fun n => ⟨n, true, if a.editable then .editableLink else .copy, true⟩) := by
    rw [hfs.1]
    unfold skillCommand
    rw [ha']
    simp only [skillStdout, h2.1, h2.2.1, h2.2.2, hsame.1, hsame.2.1, hsame.2.2, hst, Bool.false_eq_true, if_false, if_true]
  refine ⟨hfs.2, fun n h => ?_, ?_, fun k n hk => ?_⟩
  · rw [hout, List.cons_append, List.mem_cons, List.mem_append, List.mem_map]
    exact .inr (.inl ⟨n, h, rfl⟩)
  · rw [hout, List.cons_append, List.mem_cons, List.mem_append]
    exact .inr (.inr List.mem_cons_self)
  · have line : ∀ j < 6, (skillCommand bundle argv' (skillCommand bundle argv fs).1).2.2[6 * k + (j + 1)]?
        = (rowText bundle dest ⟨n, true, if a.editable then .editableLink else .copy, true⟩)[j]? := by
      intro j hj
      rw [hout', statusText, ← add_assoc, List.getElem?_cons_succ, flatMap_six _ (fun _ => rfl) _ k j hj _ (by rw [List.getElem?_map, hk]; rfl)]
    have l0 := line 0 (by norm_num)
    have l3 := line 3 (by norm_num)
    have l5 := line 5 (by norm_num)
    norm_num [rowText, yesNo] at l0 l3 l5
    exact ⟨l0, l3, l5⟩

/-- **C156 (list).** `--list` prints one line per bundled skill and says `(default)` for exactly the skills that a line without names and flags installs; it changes nothing. -/
theorem C156_list (bundle : String) (argv : List String) (a : SkillArgs) (fs : Fs) (ha : parseArgs argv = .args a) (h : a.list = true) :
    (skillCommand bundle argv fs).1 = fs ∧ (skillCommand bundle argv fs).2.2.length = 1 + availableSkills.length ∧
    ∀ n ∈ availableSkills, ("- " ++ n ++ " (default)" ∈ (skillCommand bundle argv fs).2.2 ↔ ∃ ns, resolveSkillNames (some []) false false = .ok ns ∧ n ∈ ns) := by
  have hout : (skillCommand bundle argv fs).2.2 = ["Bundled ADCToolbox skills:", "- adctoolbox-user-guide (default)", "- adctoolbox-contributor-guide (dev-only)"] := by
    unfold skillCommand
    rw [ha]
    simp only [skillStdout, h, if_true]
    decide
  refine ⟨?_, by rw [hout]; rfl, ?_⟩
  · unfold skillCommand
    rw [ha]
    exact (C60_main bundle a fs).1 (.inl h)
  · rw [hout]
    intro n hn
    have : (∃ ns, resolveSkillNames (some []) false false = .ok ns ∧ n ∈ ns) ↔ n ∈ defaultSkills :=
      ⟨fun ⟨ns, h1, h2⟩ => by
        have e : ns = defaultSkills := (Except.ok.inj h1).symm
        rwa [← e], fun h => ⟨_, rfl, h⟩⟩
    rw [this]
    clear this
    revert n
    decide

/-! ## Examples -/

/-- `user --f --des=skills dev` is refused, `--f --des=skills user dev` is not. -/
example : (∀ a, parseArgs ["user", "--f", "--des=skills", "dev"] ≠ .args a) ∧ parseArgs ["--f", "--des=skills", "user", "dev"] = .args ⟨["user", "dev"], false, false, false, false, some "skills", true, false⟩ :=
  ⟨(C156_split_names "b" (fun _ => .absent) [] [.flag .force "--f", .destEq "--des" "skills"] ["user"] "dev" [] (by
      intro w hw
      rcases List.mem_cons.mp hw with rfl | hw
      · exact ⟨⟨by decide, by decide, by decide⟩, trivial⟩
      · rw [List.mem_singleton.mp hw]
        exact ⟨by show "--des" ∈ _; decide, trivial⟩) (by intro x hx; rw [List.mem_singleton.mp hx]; unfold Plain; decide) (by unfold Plain; decide) (by decide) (by decide)).1,
    C156_accepts [.flag .force "--f", .destEq "--des" "skills"] [] ["user", "dev"] (by
      intro w hw
      rcases List.mem_cons.mp hw with rfl | hw
      · exact ⟨⟨by decide, by decide, by decide⟩, trivial⟩
      · rw [List.mem_singleton.mp hw]
        exact ⟨by show "--des" ∈ _; decide, trivial⟩) (by
      intro x hx
      have : ∀ x ∈ ["user", "dev"], x.toList.head? ≠ some '-' := by decide
      exact this x hx)⟩

/-- `--de skills` is ambiguous. -/
example : parseArgs ["--de", "skills"] = .usage := by rfl

end Verif
