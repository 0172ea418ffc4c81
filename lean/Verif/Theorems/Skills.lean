import Verif.Model.Skills
import Mathlib.Data.List.Basic

/-!
# C59, C60, C74: skill names, skill installation, example copying
-/

namespace Verif

open Model

/-! ## C59: name resolution -/

private theorem resolveLoop_error (l acc : List String) : (∃ raw ∈ l, skillAlias raw ∉ availableSkills) → resolveLoop l acc = .error .valueError := by
  induction l generalizing acc with
  | nil => rintro ⟨raw, h, _⟩; cases h
  | cons a l ih =>
    rintro ⟨raw, h, hr⟩
    unfold resolveLoop
    simp only
    by_cases h1 : skillAlias a ∉ availableSkills
    · rw [if_pos h1]
    rw [if_neg h1]
    have ht : ∃ raw ∈ l, skillAlias raw ∉ availableSkills := by
      rcases List.mem_cons.mp h with rfl | h
      · exact absurd hr h1
      · exact ⟨raw, h, hr⟩
    by_cases h2 : skillAlias a ∉ acc
    · rw [if_pos h2]; exact ih _ ht
    · rw [if_neg h2]; exact ih _ ht

private theorem resolveLoop_ok (l acc pre : List String) (hl : ∀ raw ∈ l, skillAlias raw ∈ availableSkills) (hm : ∀ n, n ∈ acc ↔ n ∈ pre)
    (hp : acc.Pairwise fun a b => pre.idxOf a < pre.idxOf b) : ∃ r, resolveLoop l acc = .ok r ∧ (∀ n, n ∈ r ↔ n ∈ pre ++ l.map skillAlias) ∧
      r.Pairwise fun a b => (pre ++ l.map skillAlias).idxOf a < (pre ++ l.map skillAlias).idxOf b := by
  induction l generalizing acc pre with
  | nil => exact ⟨acc, rfl, by simpa using hm, by simpa using hp⟩
  | cons a l ih =>
    have ha := hl a List.mem_cons_self
    unfold resolveLoop
    simp only
    rw [if_neg (by simpa using ha)]
    have e : pre ++ (a :: l).map skillAlias = (pre ++ [skillAlias a]) ++ l.map skillAlias := by simp
    rw [e]
    by_cases h2 : skillAlias a ∉ acc
    · rw [if_pos h2]
      have hnp : skillAlias a ∉ pre := fun h => h2 ((hm _).mpr h)
      apply ih (acc ++ [skillAlias a]) (pre ++ [skillAlias a]) (fun raw h => hl raw (List.mem_cons_of_mem _ h))
      · intro n
        rw [List.mem_append, List.mem_append, hm n]
      · rw [List.pairwise_append]
        refine ⟨?_, by simp, ?_⟩
        · refine hp.imp_of_mem ?_
          intro x y hx hy hxy
          rw [List.idxOf_append_of_mem ((hm x).mp hx), List.idxOf_append_of_mem ((hm y).mp hy)]
          exact hxy
        · intro x hx y hy
          have : y = skillAlias a := by simpa using hy
          subst this
          rw [List.idxOf_append_of_mem ((hm x).mp hx), List.idxOf_append_of_notMem hnp]
          have := List.idxOf_lt_length_of_mem ((hm x).mp hx)
          omega
    · rw [if_neg h2]
      have hmem : skillAlias a ∈ acc := by simpa using h2
      apply ih acc (pre ++ [skillAlias a]) (fun raw h => hl raw (List.mem_cons_of_mem _ h))
      · intro n
        rw [List.mem_append, hm n]
        constructor
        · exact .inl
        · rintro (h | h)
          · exact h
          · have : n = skillAlias a := by simpa using h
            rw [this, ← hm]; exact hmem
      · refine hp.imp_of_mem ?_
        intro x y hx hy hxy
        rw [List.idxOf_append_of_mem ((hm x).mp hx), List.idxOf_append_of_mem ((hm y).mp hy)]
        exact hxy

/-- **C59 (explicit names).** Without flags a non-empty request resolves to the distinct skills it names, ordered by first mention; if any name is
neither a bundled skill nor an alias the call raises `ValueError`. -/
theorem C59_explicit (l : List String) (hl : l ≠ []) :
    ((∃ raw ∈ l, skillAlias raw ∉ availableSkills) → resolveSkillNames (some l) false false = .error .valueError) ∧
    ((∀ raw ∈ l, skillAlias raw ∈ availableSkills) → ∃ r, resolveSkillNames (some l) false false = .ok r ∧ r.Nodup ∧ (∀ n, n ∈ r ↔ ∃ raw ∈ l, skillAlias raw = n) ∧
      (∀ n ∈ r, n ∈ availableSkills) ∧ r.Pairwise fun a b => (l.map skillAlias).idxOf a < (l.map skillAlias).idxOf b) := by
  cases l with
  | nil => exact absurd rfl hl
  | cons a l =>
    refine ⟨fun h => resolveLoop_error (a :: l) [] h, fun h => ?_⟩
    obtain ⟨r, h1, h2, h3⟩ := resolveLoop_ok (a :: l) [] [] h (by simp) (by simp)
    rw [List.nil_append] at h2 h3
    refine ⟨r, h1, ?_, ?_, ?_, h3⟩
    · exact h3.imp fun h he => by rw [he] at h; omega
    · intro n
      rw [h2, List.mem_map]
    · intro n hn
      obtain ⟨raw, hr, rfl⟩ := List.mem_map.mp ((h2 n).mp hn)
      exact h raw hr

/-- **C59 (flags).** `--all` wins over everything, then `--dev`, then explicit names; with nothing requested the default user guide is chosen. The
flag results are duplicate-free bundled skills, and the flags never look at the names. -/
theorem C59_flags (names : Option (List String)) (dev : Bool) :
    resolveSkillNames names dev true = .ok availableSkills ∧ resolveSkillNames names true false = .ok ["adctoolbox-user-guide", "adctoolbox-contributor-guide"] ∧
    resolveSkillNames none false false = .ok ["adctoolbox-user-guide"] ∧ resolveSkillNames (some []) false false = .ok ["adctoolbox-user-guide"] ∧
    availableSkills.Nodup := by
  refine ⟨rfl, rfl, rfl, rfl, ?_⟩
  decide

/-- **C59 (bundled).** Whatever the request, a successful result is a non-empty duplicate-free list of bundled skills. -/
theorem C59_bundled (names : Option (List String)) (dev all : Bool) (r : List String) (h : resolveSkillNames names dev all = .ok r) :
    r ≠ [] ∧ r.Nodup ∧ ∀ n ∈ r, n ∈ availableSkills := by
  unfold resolveSkillNames at h
  cases all with
  | true => injection h with h; subst h; exact ⟨by decide, by decide, fun n hn => hn⟩
  | false =>
    cases dev with
    | true => injection h with h; subst h; exact ⟨by decide, by decide, fun n hn => hn⟩
    | false =>
      simp only [Bool.false_eq_true, if_false] at h
      have hdef : defaultSkills ≠ [] ∧ defaultSkills.Nodup ∧ ∀ n ∈ defaultSkills, n ∈ availableSkills := by
        refine ⟨by decide, by decide, ?_⟩
        decide
      cases names with
      | none => injection h with h; subst h; exact hdef
      | some l =>
        cases l with
        | nil => injection h with h; subst h; exact hdef
        | cons a l =>
          by_cases hall : ∀ raw ∈ a :: l, skillAlias raw ∈ availableSkills
          · obtain ⟨r', h1, h2, h3, h4, _⟩ := (C59_explicit (a :: l) (by simp)).2 hall
            have h1 : resolveLoop (a :: l) [] = .ok r' := h1
            have h : resolveLoop (a :: l) [] = .ok r := h
            rw [h1] at h
            injection h with h
            subst h
            refine ⟨fun h0 => ?_, h2, h4⟩
            have := (h3 (skillAlias a)).mpr ⟨a, List.mem_cons_self, rfl⟩
            rw [h0] at this
            cases this
          · push Not at hall
            have he : resolveLoop (a :: l) [] = .error .valueError := resolveLoop_error _ _ hall
            have h : resolveLoop (a :: l) [] = .ok r := h
            rw [he] at h
            cases h

/-- **C59 (aliases).** Every bundled name stands for itself and resolving twice is resolving once. -/
theorem C59_aliases (raw : String) : (raw ∈ availableSkills → skillAlias raw = raw) ∧ skillAlias (skillAlias raw) = skillAlias raw := by
  constructor
  · intro h
    simp only [availableSkills, List.mem_cons, List.not_mem_nil, or_false] at h
    rcases h with rfl | rfl <;> rfl
  · have hc : skillAlias raw = raw ∨ skillAlias raw = "adctoolbox-user-guide" ∨ skillAlias raw = "adctoolbox-contributor-guide" := by
      unfold skillAlias
      split_ifs
      all_goals first
        | exact .inr (.inl rfl)
        | exact .inr (.inr rfl)
        | exact .inl rfl
    rcases hc with h | h | h
    · rw [h, h]
    · rw [h]; rfl
    · rw [h]; rfl

/-- **C59 (alias table).** Exactly the three documented spellings name the user guide, exactly the four documented ones the contributor guide, and
every other name is taken as written. -/
theorem C59_alias_table (raw : String) :
    (skillAlias raw = "adctoolbox-user-guide" ↔ raw ∈ ["user", "user-guide", "adctoolbox-user-guide"]) ∧
    (skillAlias raw = "adctoolbox-contributor-guide" ↔ raw ∈ ["dev", "contributor", "contributor-guide", "adctoolbox-contributor-guide"]) ∧
    (raw ∉ ["user", "user-guide", "adctoolbox-user-guide", "dev", "contributor", "contributor-guide", "adctoolbox-contributor-guide"] →
      skillAlias raw = raw) := by
  have hne : ¬ "adctoolbox-user-guide" = "adctoolbox-contributor-guide" := by decide
  have hne' : ¬ "adctoolbox-contributor-guide" = "adctoolbox-user-guide" := by decide
  simp only [List.mem_cons, List.not_mem_nil, or_false]
  unfold skillAlias
  split_ifs with h1 h2 h3 h4 h5 h6 h7
  all_goals first
    | (subst_vars; decide)
    | (subst_vars; simp [*])

example : resolveSkillNames (some ["dev", "user", "contributor"]) false false = .ok ["adctoolbox-contributor-guide", "adctoolbox-user-guide"] := by decide +kernel
example : resolveSkillNames (some ["user", "nope"]) false false = .error .valueError := by decide +kernel

/-! ## C60: installation -/

/-- `p` is an existing directory. -/
def IsDir (fs : Fs) (p : String) : Prop := ∃ es, fs p = .dir es

private theorem entry_set_same (fs : Fs) (p n : String) (e : Option Entry) (h : IsDir fs p) : (fs.setEntry p n e).entry p n = e := by
  obtain ⟨es, h⟩ := h
  simp [Fs.entry, Fs.setEntry, h]

private theorem entry_set_other (fs : Fs) (p n m : String) (e : Option Entry) (h : m ≠ n) : (fs.setEntry p n e).entry p m = fs.entry p m := by
  cases hp : fs p <;> simp [Fs.entry, Fs.setEntry, hp, h]

private theorem set_other (fs : Fs) (p n q : String) (e : Option Entry) (h : q ≠ p) : (fs.setEntry p n e) q = fs q := by
  simp [Fs.setEntry, h]

private theorem set_isDir (fs : Fs) (p n : String) (e : Option Entry) (h : IsDir fs p) : IsDir (fs.setEntry p n e) p := by
  obtain ⟨es, h⟩ := h
  exact ⟨fun m => if m = n then e else es m, by simp [Fs.setEntry, h]⟩

/-- What installing one skill does, whatever happens. -/
private structure OneSpec (bundle dest : String) (overwrite editable : Bool) (fs : Fs) (name : String) (r : Fs × Py Unit) : Prop where
  others : ∀ q, q ≠ dest → r.1 q = fs q
  dir : IsDir r.1 dest
  names : ∀ m, m ≠ name → r.1.entry dest m = fs.entry dest m
  keep : overwrite = false → (fs.entry dest name).isSome → r = (fs, .error .fileExists)
  fresh : fs.entry dest name = none → r.2 = .ok () ∨ (r.2 = .error .fileNotFound ∧ r.1.entry dest name = none)
  ok : r.2 = .ok () → (editable = true ∧ r.1.entry dest name = some (.link bundle name)) ∨
    (editable = false ∧ (dest ≠ bundle → ∃ t, fs.entry bundle name = some (.dir t) ∧ r.1.entry dest name = some (.dir t)))
  succeeds : (overwrite = true ∨ fs.entry dest name = none) → (editable = true ∨ (dest ≠ bundle ∧ ∃ t, fs.entry bundle name = some (.dir t))) → r.2 = .ok ()

private theorem installOne_spec (bundle dest : String) (overwrite editable : Bool) (fs : Fs) (name : String) (hd : IsDir fs dest) :
    OneSpec bundle dest overwrite editable fs name (installOne bundle dest overwrite editable fs name) := by
  unfold installOne
  by_cases h : (fs.entry dest name).isSome ∧ overwrite = false
  · rw [if_pos h]
    obtain ⟨h1, h2⟩ := h
    refine ⟨fun _ _ => rfl, hd, fun _ _ => rfl, fun _ _ => rfl, fun h => ?_, fun h => (by cases h), fun h => ?_⟩
    · rw [h] at h1; cases h1
    · rcases h with h | h
      · rw [h2] at h; cases h
      · rw [h] at h1; cases h1
  rw [if_neg h]
  simp only
  set fs1 := if (fs.entry dest name).isSome = true then fs.setEntry dest name none else fs with hfs1
  have hkeep : overwrite = false → (fs.entry dest name).isSome = true → False := fun h2 h1 => h ⟨h1, h2⟩
  have d1 : IsDir fs1 dest := by
    rw [hfs1]
    split_ifs
    · exact set_isDir _ _ _ _ hd
    · exact hd
  have o1 : ∀ q, q ≠ dest → fs1 q = fs q := by
    intro q hq
    rw [hfs1]
    split_ifs
    · exact set_other _ _ _ _ _ hq
    · rfl
  have n1 : ∀ m, m ≠ name → fs1.entry dest m = fs.entry dest m := by
    intro m hm
    rw [hfs1]
    split_ifs
    · exact entry_set_other _ _ _ _ _ hm
    · rfl
  have b1 : dest ≠ bundle → fs1.entry bundle name = fs.entry bundle name := by
    intro hb
    unfold Fs.entry
    rw [o1 bundle (Ne.symm hb)]
  have z1 : fs1.entry dest name = none := by
    rw [hfs1]
    split_ifs with hc
    · exact entry_set_same _ _ _ _ hd
    · simpa using hc
  cases editable with
  | true =>
    rw [if_pos rfl]
    refine ⟨fun q hq => ?_, set_isDir _ _ _ _ d1, fun m hm => ?_, fun h2 h1 => absurd h1 (fun h1 => hkeep h2 h1), fun _ => .inl rfl, fun _ => .inl ⟨rfl, entry_set_same _ _ _ _ d1⟩, fun _ _ => rfl⟩
    · simp only; rw [set_other _ _ _ _ _ hq, o1 q hq]
    · simp only; rw [entry_set_other _ _ _ _ _ hm, n1 m hm]
  | false =>
    rw [if_neg (by simp)]
    cases hs : fs1.entry bundle name with
    | none =>
      simp only
      refine ⟨o1, d1, n1, fun h2 h1 => absurd h1 (fun h1 => hkeep h2 h1), fun _ => .inr ⟨rfl, z1⟩, fun h => (by cases h), fun _ hx => ?_⟩
      rcases hx with hx | ⟨hx, t, ht⟩
      · cases hx
      · rw [b1 hx, ht] at hs; cases hs
    | some e =>
      cases e with
      | file c =>
        simp only
        refine ⟨o1, d1, n1, fun h2 h1 => absurd h1 (fun h1 => hkeep h2 h1), fun _ => .inr ⟨rfl, z1⟩, fun h => (by cases h), fun _ hx => ?_⟩
        rcases hx with hx | ⟨hx, t, ht⟩
        · cases hx
        · rw [b1 hx, ht] at hs; cases hs
      | link p n =>
        simp only
        refine ⟨o1, d1, n1, fun h2 h1 => absurd h1 (fun h1 => hkeep h2 h1), fun _ => .inr ⟨rfl, z1⟩, fun h => (by cases h), fun _ hx => ?_⟩
        rcases hx with hx | ⟨hx, t, ht⟩
        · cases hx
        · rw [b1 hx, ht] at hs; cases hs
      | dir t =>
        simp only
        refine ⟨fun q hq => ?_, set_isDir _ _ _ _ d1, fun m hm => ?_, fun h2 h1 => absurd h1 (fun h1 => hkeep h2 h1), fun _ => .inl rfl, fun _ => .inr ⟨rfl, fun hb => ⟨t, ?_, entry_set_same _ _ _ _ d1⟩⟩, fun _ _ => rfl⟩
        · simp only; rw [set_other _ _ _ _ _ hq, o1 q hq]
        · simp only; rw [entry_set_other _ _ _ _ _ hm, n1 m hm]
        · rw [← b1 hb]; exact hs

private theorem loop_frame (bundle dest : String) (overwrite editable : Bool) (ns : List String) (fs : Fs) (done : List String) (hd : IsDir fs dest) :
    (∀ q, q ≠ dest → (installLoop bundle dest overwrite editable fs ns done).1 q = fs q) ∧ IsDir (installLoop bundle dest overwrite editable fs ns done).1 dest ∧
    (∀ m, m ∉ ns → (installLoop bundle dest overwrite editable fs ns done).1.entry dest m = fs.entry dest m) := by
  induction ns generalizing fs done with
  | nil => exact ⟨fun _ _ => rfl, hd, fun _ _ => rfl⟩
  | cons name rest ih =>
    have hs := installOne_spec bundle dest overwrite editable fs name hd
    unfold installLoop
    cases hr : installOne bundle dest overwrite editable fs name with
    | mk fs' r =>
      rw [hr] at hs
      cases r with
      | error e =>
        simp only
        exact ⟨hs.others, hs.dir, fun m hm => hs.names m fun h => hm (by rw [h]; exact List.mem_cons_self)⟩
      | ok u =>
        simp only
        obtain ⟨i1, i2, i3⟩ := ih fs' (done ++ [name]) hs.dir
        refine ⟨fun q hq => (i1 q hq).trans (hs.others q hq), i2, fun m hm => ?_⟩
        rw [List.mem_cons, not_or] at hm
        exact (i3 m hm.2).trans (hs.names m hm.1)

private theorem loop_keeps (bundle dest : String) (editable : Bool) (ns : List String) (fs : Fs) (done : List String) (hd : IsDir fs dest) (m : String) (e : Entry)
    (hm : fs.entry dest m = some e) : (installLoop bundle dest false editable fs ns done).1.entry dest m = some e := by
  induction ns generalizing fs done with
  | nil => exact hm
  | cons name rest ih =>
    have hs := installOne_spec bundle dest false editable fs name hd
    unfold installLoop
    by_cases hmn : m = name
    · subst hmn
      rw [hs.keep rfl (by rw [hm]; rfl)]
      exact hm
    · have h1 := hs.names m hmn
      have h2 := hs.dir
      cases hr : installOne bundle dest false editable fs name with
      | mk fs' r =>
        rw [hr] at h1 h2
        cases r with
        | error e' => exact h1.trans hm
        | ok u => exact ih fs' _ h2 (h1.trans hm)

private theorem mkRoot_spec (fs : Fs) (dest : String) : (∀ q, q ≠ dest → (mkRoot fs dest).1 q = fs q) ∧ (∀ p n, (mkRoot fs dest).1.entry p n = fs.entry p n) ∧
    ((mkRoot fs dest).2 = .ok () ∧ IsDir (mkRoot fs dest).1 dest ∨ (mkRoot fs dest = (fs, .error .fileExists) ∧ fs dest = .notDir)) := by
  unfold mkRoot
  cases h : fs dest with
  | absent =>
    simp only
    refine ⟨fun q hq => by rw [if_neg hq], fun p n => ?_, .inl ⟨trivial, ⟨fun _ => none, by simp only [if_true]⟩⟩⟩
    unfold Fs.entry
    simp only
    by_cases hp : p = dest
    · rw [if_pos hp, hp, h]
    · rw [if_neg hp]
  | notDir => exact ⟨fun _ _ => rfl, fun _ _ => rfl, .inr ⟨rfl, rfl⟩⟩
  | dir es => exact ⟨fun _ _ => rfl, fun _ _ => rfl, .inl ⟨rfl, es, h⟩⟩

/-- **C60 (frame).** Whatever the arguments and however the call ends, nothing outside the destination directory changes, and inside it nothing but the
resolved skill names. -/
theorem C60_frame (bundle dest : String) (names : Option (List String)) (dev all overwrite editable : Bool) (fs : Fs) :
    (∀ q, q ≠ dest → (installSkills bundle dest names dev all overwrite editable fs).1 q = fs q) ∧
    ∀ m, (∀ ns, resolveSkillNames names dev all = .ok ns → m ∉ ns) → (installSkills bundle dest names dev all overwrite editable fs).1.entry dest m = fs.entry dest m := by
  unfold installSkills
  cases hr : resolveSkillNames names dev all with
  | error e => exact ⟨fun _ _ => rfl, fun _ _ => rfl⟩
  | ok ns =>
    simp only
    obtain ⟨m1, m2, m3⟩ := mkRoot_spec fs dest
    cases hm : mkRoot fs dest with
    | mk fs' r =>
      rw [hm] at m1 m2 m3
      cases r with
      | error e => exact ⟨m1, fun m _ => m2 dest m⟩
      | ok u =>
        simp only
        have hd : IsDir fs' dest := by
          rcases m3 with h | h
          · exact h.2
          · cases h.1
        obtain ⟨l1, l2, l3⟩ := loop_frame bundle dest overwrite editable ns fs' [] hd
        exact ⟨fun q hq => (l1 q hq).trans (m1 q hq), fun m hmm => (l3 m (hmm ns rfl)).trans (m2 dest m)⟩

/-- **C60 (no force).** Without `overwrite` every existing entry of every directory survives unchanged, however the call ends. -/
theorem C60_no_force_preserves (bundle dest : String) (names : Option (List String)) (dev all editable : Bool) (fs : Fs) (p n : String) (e : Entry)
    (h : fs.entry p n = some e) : (installSkills bundle dest names dev all false editable fs).1.entry p n = some e := by
  by_cases hp : p = dest
  swap
  · unfold Fs.entry
    rw [(C60_frame bundle dest names dev all false editable fs).1 p hp]
    exact h
  subst hp
  unfold installSkills
  cases hr : resolveSkillNames names dev all with
  | error e' => exact h
  | ok ns =>
    simp only
    obtain ⟨m1, m2, m3⟩ := mkRoot_spec fs p
    cases hm : mkRoot fs p with
    | mk fs' r =>
      rw [hm] at m1 m2 m3
      cases r with
      | error e' => exact (m2 p n).trans h
      | ok u =>
        have hd : IsDir fs' p := by
          rcases m3 with h | h
          · exact h.2
          · cases h.1
        exact loop_keeps bundle p editable ns fs' [] hd n e ((m2 p n).trans h)

/-- One call without `overwrite`. -/
structure InstallCall where
  dest : String
  names : Option (List String)
  dev : Bool
  all : Bool
  editable : Bool

/-- **C60 (histories).** Any sequence of installs without `overwrite`, into any destinations, preserves every entry that existed at the start. -/
theorem C60_history (bundle : String) (calls : List InstallCall) (fs : Fs) (p n : String) (e : Entry) (h : fs.entry p n = some e) :
    (calls.foldl (fun s c => (installSkills bundle c.dest c.names c.dev c.all false c.editable s).1) fs).entry p n = some e := by
  induction calls generalizing fs with
  | nil => exact h
  | cons c cs ih => exact ih _ (C60_no_force_preserves bundle c.dest c.names c.dev c.all c.editable fs p n e h)

private theorem loop_exists_fails (bundle dest : String) (editable : Bool) (ns : List String) (fs : Fs) (done : List String) (hd : IsDir fs dest)
    (hsrc : editable = true ∨ (dest ≠ bundle ∧ ∀ n ∈ ns, ∃ t, fs.entry bundle n = some (.dir t))) (m : String) (hm : m ∈ ns) (he : (fs.entry dest m).isSome) :
    (installLoop bundle dest false editable fs ns done).2 = .error .fileExists := by
  induction ns generalizing fs done with
  | nil => cases hm
  | cons name rest ih =>
    have hs := installOne_spec bundle dest false editable fs name hd
    unfold installLoop
    cases hp : fs.entry dest name with
    | some e =>
      rw [hs.keep rfl (by rw [hp]; rfl)]
    | none =>
      have hmn : m ≠ name := by
        intro h
        rw [h, hp] at he
        cases he
      have hok := hs.succeeds (.inr hp) (hsrc.imp id fun ⟨h1, h2⟩ => ⟨h1, h2 name List.mem_cons_self⟩)
      have h1 := hs.names m hmn
      have h2 := hs.dir
      have h3 := hs.others
      cases hr : installOne bundle dest false editable fs name with
      | mk fs' r =>
        rw [hr] at h1 h2 h3 hok
        simp only at hok
        subst hok
        simp only
        refine ih fs' _ h2 ?_ ?_ (by rw [h1]; exact he)
        · refine hsrc.imp id fun ⟨g1, g2⟩ => ⟨g1, fun n hn => ?_⟩
          obtain ⟨t, ht⟩ := g2 n (List.mem_cons_of_mem _ hn)
          refine ⟨t, ?_⟩
          unfold Fs.entry at ht ⊢
          have h3 := h3 bundle (Ne.symm g1)
          simp only at h3
          rw [h3]
          exact ht
        · rcases List.mem_cons.mp hm with h | h
          · exact absurd h hmn
          · exact h

private theorem loop_installs (bundle dest : String) (overwrite editable : Bool) (ns : List String) (fs : Fs) (done : List String) (hd : IsDir fs dest) (hnd : ns.Nodup)
    (hb : dest ≠ bundle) (hsrc : ∀ n ∈ ns, ∃ t, fs.entry bundle n = some (.dir t)) (hfree : overwrite = true ∨ ∀ n ∈ ns, fs.entry dest n = none) :
    (installLoop bundle dest overwrite editable fs ns done).2 = .ok (done ++ ns) ∧ ∀ n ∈ ns,
      (editable = true ∧ (installLoop bundle dest overwrite editable fs ns done).1.entry dest n = some (.link bundle n)) ∨
      (editable = false ∧ ∃ t, fs.entry bundle n = some (.dir t) ∧ (installLoop bundle dest overwrite editable fs ns done).1.entry dest n = some (.dir t)) := by
  induction ns generalizing fs done with
  | nil => exact ⟨by simp [installLoop], fun n hn => by cases hn⟩
  | cons name rest ih =>
    have hs := installOne_spec bundle dest overwrite editable fs name hd
    obtain ⟨t, ht⟩ := hsrc name List.mem_cons_self
    have hok := hs.succeeds (hfree.imp id fun h => h name List.mem_cons_self) (.inr ⟨hb, t, ht⟩)
    have h1 := hs.names
    have h2 := hs.dir
    have h3 := hs.others
    have h4 := hs.ok hok
    have hnr : name ∉ rest := (List.nodup_cons.mp hnd).1
    unfold installLoop
    cases hr : installOne bundle dest overwrite editable fs name with
    | mk fs' r =>
      rw [hr] at h1 h2 h3 h4 hok
      simp only at hok h1 h2 h3 h4
      subst hok
      simp only
      have hbe : ∀ n, fs'.entry bundle n = fs.entry bundle n := by
        intro n
        unfold Fs.entry
        rw [h3 bundle (Ne.symm hb)]
      obtain ⟨i1, i2⟩ := ih fs' (done ++ [name]) h2 (List.nodup_cons.mp hnd).2
        (fun n hn => by rw [hbe]; exact hsrc n (List.mem_cons_of_mem _ hn))
        (hfree.imp id fun h n hn => by
          have : n ≠ name := fun hh => hnr (by rw [← hh]; exact hn)
          rw [h1 n this]
          exact h n (List.mem_cons_of_mem _ hn))
      refine ⟨by rw [i1]; simp, fun n hn => ?_⟩
      rcases List.mem_cons.mp hn with rfl | hn
      · have hl := (loop_frame bundle dest overwrite editable rest fs' (done ++ [n]) h2).2.2 n hnr
        rw [hl]
        exact h4.imp id fun h => ⟨h.1, h.2 hb⟩
      · have := i2 n hn
        rw [hbe] at this
        exact this

/-- **C60 (existing target).** Without `overwrite` the call fails with `FileExistsError` as soon as one requested skill has an entry in the destination
(sources being present). -/
theorem C60_no_force_fails (bundle dest : String) (names : Option (List String)) (dev all editable : Bool) (fs : Fs) (ns : List String)
    (hn : resolveSkillNames names dev all = .ok ns) (hb : dest ≠ bundle) (hsrc : ∀ n ∈ ns, ∃ t, fs.entry bundle n = some (.dir t))
    (m : String) (hm : m ∈ ns) (e : Entry) (he : fs.entry dest m = some e) : (installSkills bundle dest names dev all false editable fs).2 = .error .fileExists := by
  unfold installSkills
  rw [hn]
  simp only
  obtain ⟨m1, m2, m3⟩ := mkRoot_spec fs dest
  cases hr : mkRoot fs dest with
  | mk fs' r =>
    rw [hr] at m1 m2 m3
    cases r with
    | error e' =>
      rcases m3 with h | h
      · cases h.1
      · exact h.1 ▸ rfl
    | ok u =>
      have hd : IsDir fs' dest := by
        rcases m3 with h | h
        · exact h.2
        · cases h.1
      refine loop_exists_fails bundle dest editable ns fs' [] hd (.inr ⟨hb, fun n hn => ?_⟩) m hm ?_
      · obtain ⟨t, ht⟩ := hsrc n hn
        exact ⟨t, (m2 bundle n).trans ht⟩
      · have := m2 dest m
        simp only at this
        rw [this, he]
        rfl

/-- **C60 (success).** Into a destination different from the bundle, with `overwrite` (or with none of the requested skills present), the call
succeeds, reports the requested skills in order, and each is a link to, or an exact copy of, the bundled directory. -/
theorem C60_installs (bundle dest : String) (names : Option (List String)) (dev all overwrite editable : Bool) (fs : Fs) (ns : List String)
    (hn : resolveSkillNames names dev all = .ok ns) (hb : dest ≠ bundle) (hroot : fs dest ≠ .notDir) (hsrc : ∀ n ∈ ns, ∃ t, fs.entry bundle n = some (.dir t))
    (hfree : overwrite = true ∨ ∀ n ∈ ns, fs.entry dest n = none) :
    (installSkills bundle dest names dev all overwrite editable fs).2 = .ok ns ∧ ∀ n ∈ ns,
      (editable = true ∧ (installSkills bundle dest names dev all overwrite editable fs).1.entry dest n = some (.link bundle n)) ∨
      (editable = false ∧ ∃ t, fs.entry bundle n = some (.dir t) ∧ (installSkills bundle dest names dev all overwrite editable fs).1.entry dest n = some (.dir t)) := by
  unfold installSkills
  rw [hn]
  simp only
  obtain ⟨m1, m2, m3⟩ := mkRoot_spec fs dest
  cases hr : mkRoot fs dest with
  | mk fs' r =>
    rw [hr] at m1 m2 m3
    cases r with
    | error e' =>
      rcases m3 with h | h
      · cases h.1
      · exact absurd h.2 hroot
    | ok u =>
      have hd : IsDir fs' dest := by
        rcases m3 with h | h
        · exact h.2
        · cases h.1
      simp only at m2 ⊢
      obtain ⟨i1, i2⟩ := loop_installs bundle dest overwrite editable ns fs' [] hd (C59_bundled names dev all ns hn).2.1 hb
        (fun n hn => by rw [m2]; exact hsrc n hn) (hfree.imp id fun h n hn => by rw [m2]; exact h n hn)
      refine ⟨by rw [i1]; rfl, fun n hn => ?_⟩
      have := i2 n hn
      rw [m2] at this
      exact this

/-! ### Limits -/

/-- An empty directory tree. -/
private def emptyDir : Entry := .dir .nil

/-- A file system with the two bundled skills, and a destination holding only the contributor guide. -/
private def twoSkills : Fs := fun p =>
  if p = "bundle" then .dir fun n => if n = "adctoolbox-user-guide" ∨ n = "adctoolbox-contributor-guide" then some emptyDir else none
  else if p = "dest" then .dir fun n => if n = "adctoolbox-contributor-guide" then some emptyDir else none
  else .absent

/-- The installation is not atomic: `--dev` fails because one skill exists, but the other one has been installed. -/
theorem C60_partial_install_remains : (installSkills "bundle" "dest" none true false false false twoSkills).2 = .error .fileExists ∧
    twoSkills.entry "dest" "adctoolbox-user-guide" = none ∧
    ((installSkills "bundle" "dest" none true false false false twoSkills).1.entry "dest" "adctoolbox-user-guide").isSome := by
  refine ⟨by rfl, by rfl, by rfl⟩

/-- With `--force` and the bundle itself as destination, the call deletes the bundled skill and then fails. -/
theorem C60_force_into_bundle_destroys : (installSkills "bundle" "bundle" none false false true false twoSkills).2 = .error .fileNotFound ∧
    (twoSkills.entry "bundle" "adctoolbox-user-guide").isSome ∧
    (installSkills "bundle" "bundle" none false false true false twoSkills).1.entry "bundle" "adctoolbox-user-guide" = none := by
  refine ⟨by rfl, by rfl, by rfl⟩

/-- **C60 (command line).** `--list`, `--status` and a missing `--dest` never change the file system; without `--force` no run of the command changes an
existing entry. -/
theorem C60_main (bundle : String) (a : SkillArgs) (fs : Fs) :
    (a.list = true ∨ a.status = true ∨ a.dest = none → (skillMain bundle a fs).1 = fs) ∧
    (a.list = false → a.dest = none → (skillMain bundle a fs).2 = .usage) ∧
    (a.force = false → ∀ p n e, fs.entry p n = some e → (skillMain bundle a fs).1.entry p n = some e) := by
  unfold skillMain
  refine ⟨fun h => ?_, fun h1 h2 => ?_, fun hf p n e he => ?_⟩
  · by_cases hl : a.list = true
    · rw [if_pos hl]
    rw [if_neg hl]
    cases hd : a.dest with
    | none => rfl
    | some d =>
      simp only
      have hs : a.status = true := by
        rcases h with h | h | h
        · exact absurd h hl
        · exact h
        · rw [hd] at h; cases h
      rw [if_pos hs]
      cases skillStatus bundle d (some a.skills) a.dev a.all fs <;> rfl
  · rw [h1, h2]
    rfl
  · by_cases hl : a.list = true
    · rw [if_pos hl]; exact he
    rw [if_neg hl]
    cases hd : a.dest with
    | none => exact he
    | some d =>
      simp only
      by_cases hs : a.status = true
      · rw [if_pos hs]
        cases skillStatus bundle d (some a.skills) a.dev a.all fs <;> exact he
      · rw [if_neg hs, hf]
        have := C60_no_force_preserves bundle d (some a.skills) a.dev a.all a.editable fs p n e he
        cases hi : installSkills bundle d (some a.skills) a.dev a.all false a.editable fs with
        | mk fs' r =>
          rw [hi] at this
          cases r with
          | ok _ => exact this
          | error er => cases er <;> exact this

/-- An unknown skill name makes the install command exit with status 1, but `--status` with the same name ends in an uncaught exception. -/
theorem C60_status_unknown_uncaught (bundle dest : String) (fs : Fs) (raw : String) (h : skillAlias raw ∉ availableSkills) (force editable : Bool) :
    (skillMain bundle ⟨[raw], false, false, false, false, some dest, force, editable⟩ fs).2 = .code 1 ∧
    (skillMain bundle ⟨[raw], false, true, false, false, some dest, force, editable⟩ fs).2 = .raised .valueError := by
  have hr := (C59_explicit [raw] (by simp)).1 ⟨raw, List.mem_cons_self, h⟩
  unfold skillMain skillStatus installSkills
  simp only [Bool.false_eq_true, if_false, if_true]
  rw [hr]
  exact ⟨rfl, rfl⟩

example : (installSkills "bundle" "dest" none true false true false twoSkills).2 = .ok ["adctoolbox-user-guide", "adctoolbox-contributor-guide"] :=
  (C60_installs "bundle" "dest" none true false true false twoSkills _ rfl (by decide) (by simp [twoSkills]) (by
    intro n hn
    simp only [devSkills, List.mem_cons, List.not_mem_nil, or_false] at hn
    exact ⟨.nil, by rcases hn with rfl | rfl <;> rfl⟩) (.inl rfl)).1

/-! ## C74: copying the examples -/

/-- **C74.** The command never changes an existing entry; it fails with status 1, changing nothing, if the destination exists or the packaged examples
are missing; otherwise it ends with status 0 and the destination holds the examples. -/
theorem C74_copy_examples (pkg cwd dest : String) (fs : Fs) :
    (∀ p n e, fs.entry p n = some e → (copyExamples pkg cwd dest fs).1.entry p n = some e) ∧
    ((copyExamples pkg cwd dest fs).2 = 0 ∨ (copyExamples pkg cwd dest fs).2 = 1 ∧ (copyExamples pkg cwd dest fs).1 = fs) ∧
    ((fs.entry cwd dest).isSome → (copyExamples pkg cwd dest fs).2 = 1) ∧
    (∀ t, fs.entry pkg "examples" = some (.dir t) → fs.entry cwd dest = none → IsDir fs cwd →
      (copyExamples pkg cwd dest fs).2 = 0 ∧ (copyExamples pkg cwd dest fs).1.entry cwd dest = some (.dir (pruneForest t))) := by
  unfold copyExamples
  cases hs : fs.entry pkg "examples" with
  | none => exact ⟨fun _ _ _ h => h, .inr ⟨rfl, rfl⟩, fun _ => rfl, fun t h => (by cases h)⟩
  | some en =>
    cases en with
    | file c => exact ⟨fun _ _ _ h => h, .inr ⟨rfl, rfl⟩, fun _ => rfl, fun t h => (by cases h)⟩
    | link a b => exact ⟨fun _ _ _ h => h, .inr ⟨rfl, rfl⟩, fun _ => rfl, fun t h => (by cases h)⟩
    | dir t =>
      simp only
      by_cases hd : (fs.entry cwd dest).isSome
      · rw [if_pos hd]
        refine ⟨fun _ _ _ h => h, .inr ⟨rfl, rfl⟩, fun _ => rfl, fun t _ h => ?_⟩
        rw [h] at hd
        cases hd
      · rw [if_neg hd]
        refine ⟨fun p n e h => ?_, .inl rfl, fun h => absurd h hd, fun t' ht' _ hcwd => ⟨rfl, ?_⟩⟩
        · by_cases hp : p = cwd
          · subst hp
            by_cases hn : n = dest
            · subst hn
              rw [h] at hd
              exact absurd rfl hd
            · rw [entry_set_other _ _ _ _ _ hn]; exact h
          · unfold Fs.entry
            simp only
            rw [set_other _ _ _ _ _ hp]
            exact h
        · have : t' = t := by injection ht' with h; injection h with h; exact h.symm
          rw [entry_set_same _ _ _ _ hcwd, this]

end Verif
