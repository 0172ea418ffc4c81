import Verif.Theorems.Skills

/-!
# C73: what "synced" means; C74: what the examples copy contains
-/

namespace Verif

open Model

/-! ## Specification: what is at a path -/

namespace Spec

/-- What a walk along `path` from a directory reaches: `none` nothing, `some none` a directory, `some (some c)` a file with content `c`. -/
def walk : Forest → List String → Option (Option String)
  | _, [] => some none
  | f, n :: rest =>
    match f.find n with
    | none => none
    | some (.file c) => if rest = [] then some (some c) else none
    | some (.dir g) => walk g rest

/-- A path none of whose components is a name `filecmp` ignores. -/
def Visible (path : List String) : Prop := ∀ n ∈ path, n ∉ dircmpIgnores

/-- No path is a file on one side and a directory on the other. -/
def SameKinds (l r : Forest) : Prop :=
  ∀ path, Visible path → ∀ c, ¬ (walk l path = some (some c) ∧ walk r path = some none) ∧ ¬ (walk l path = some none ∧ walk r path = some (some c))

mutual
/-- Names are distinct in every directory of the tree, as in any real file system. -/
def WfTree : Tree → Prop
  | .file _ => True
  | .dir f => WfForest f
/-- Names are distinct in every directory. -/
def WfForest : Forest → Prop
  | .nil => True
  | .cons n t rest => n ∉ rest.names ∧ WfTree t ∧ WfForest rest
end

end Spec

open Spec

private theorem find_names (f : Forest) (n : String) : (f.find n).isSome ↔ n ∈ f.names := by
  match f with
  | .nil => simp [Forest.find, Forest.names]
  | .cons m t rest =>
    have ih := find_names rest n
    unfold Forest.find Forest.names
    by_cases h : m = n
    · rw [if_pos h, h]; simp
    · rw [if_neg h, ih, List.mem_cons]
      constructor
      · exact .inr
      · rintro (h' | h')
        · exact absurd h'.symm h
        · exact h'

private theorem entriesEqual_find (f r : Forest) (he : entriesEqual f r = true) (n : String) (hn : n ∉ dircmpIgnores) (t : Tree) (hf : f.find n = some t) :
    ∃ u, r.find n = some u ∧ nodeEqual t u = true := by
  match f with
  | .nil => simp [Forest.find] at hf
  | .cons m s rest =>
    unfold entriesEqual at he
    rw [Bool.and_eq_true] at he
    unfold Forest.find at hf
    by_cases h : m = n
    · rw [if_pos h] at hf
      subst h
      injection hf with hf
      subst hf
      have h1 := he.1
      rw [if_neg hn] at h1
      cases hr : r.find m with
      | none => rw [hr] at h1; cases h1
      | some u => rw [hr] at h1; exact ⟨u, rfl, h1⟩
    · rw [if_neg h] at hf
      exact entriesEqual_find rest r he.2 n hn t hf

private theorem rightCovered_iff (l r : Forest) : rightCovered l r = true ↔ ∀ n, n ∉ dircmpIgnores → (r.find n).isSome → (l.find n).isSome := by
  unfold rightCovered
  rw [List.all_eq_true]
  constructor
  · intro h n hn hr
    have := h n ((find_names r n).mp hr)
    rw [Bool.or_eq_true, decide_eq_true_iff] at this
    exact this.resolve_left hn
  · intro h n hn
    rw [Bool.or_eq_true, decide_eq_true_iff]
    by_cases hi : n ∈ dircmpIgnores
    · exact .inl hi
    · exact .inr (h n hi ((find_names r n).mpr hn))

private theorem walk_cons_dir (f g : Forest) (n : String) (path : List String) (h : f.find n = some (.dir g)) : walk f (n :: path) = walk g path := by
  show (match f.find n with | none => none | some (.file c) => if path = [] then some (some c) else none | some (.dir g) => walk g path) = _
  rw [h]

private theorem walk_cons_file (f : Forest) (n c : String) (path : List String) (h : f.find n = some (.file c)) :
    walk f (n :: path) = if path = [] then some (some c) else none := by
  show (match f.find n with | none => none | some (.file c) => if path = [] then some (some c) else none | some (.dir g) => walk g path) = _
  rw [h]

private theorem walk_cons_none (f : Forest) (n : String) (path : List String) (h : f.find n = none) : walk f (n :: path) = none := by
  show (match f.find n with | none => none | some (.file c) => if path = [] then some (some c) else none | some (.dir g) => walk g path) = _
  rw [h]

private theorem visible_cons {n : String} {path : List String} : Visible (n :: path) ↔ n ∉ dircmpIgnores ∧ Visible path := by
  unfold Visible
  simp

private theorem sound (path : List String) (l r : Forest) (he : dirsEqual l r = true) (hk : SameKinds l r) (hv : Visible path) : walk l path = walk r path := by
  induction path generalizing l r with
  | nil => rfl
  | cons n rest ih =>
    unfold dirsEqual at he
    rw [Bool.and_eq_true] at he
    obtain ⟨hn, hv'⟩ := visible_cons.mp hv
    cases hl : l.find n with
    | none =>
      have hr : r.find n = none := by
        by_contra h
        have := (rightCovered_iff l r).mp he.1 n hn (Option.isSome_iff_ne_none.mpr h)
        rw [hl] at this
        cases this
      rw [walk_cons_none l n rest hl, walk_cons_none r n rest hr]
    | some t =>
      obtain ⟨u, hu, htu⟩ := entriesEqual_find l r he.2 n hn t hl
      have hv1 : Visible [n] := visible_cons.mpr ⟨hn, fun _ h => by cases h⟩
      cases t with
      | file a =>
        cases u with
        | file b =>
          unfold nodeEqual at htu
          rw [decide_eq_true_iff] at htu
          rw [walk_cons_file l n a rest hl, walk_cons_file r n b rest hu, htu]
        | dir g => exact absurd ⟨walk_cons_file l n a [] hl, walk_cons_dir r g n [] hu⟩ (hk [n] hv1 a).1
      | dir f =>
        cases u with
        | file b => exact absurd ⟨walk_cons_dir l f n [] hl, walk_cons_file r n b [] hu⟩ (hk [n] hv1 b).2
        | dir g =>
          rw [walk_cons_dir l f n rest hl, walk_cons_dir r g n rest hu]
          refine ih f g (by unfold nodeEqual at htu; exact htu) (fun p hp c => ?_) hv'
          have := hk (n :: p) (visible_cons.mpr ⟨hn, hp⟩) c
          rw [walk_cons_dir l f n p hl, walk_cons_dir r g n p hu] at this
          exact this

private theorem covered_of_walk (l r : Forest) (h : ∀ path, Visible path → walk l path = walk r path) : rightCovered l r = true := by
  rw [rightCovered_iff]
  intro n hn hr
  by_contra hl
  have hl : l.find n = none := by simpa using hl
  have := h [n] (visible_cons.mpr ⟨hn, fun _ h => by cases h⟩)
  rw [walk_cons_none l n [] hl] at this
  cases hf : r.find n with
  | none => rw [hf] at hr; cases hr
  | some u =>
    cases u with
    | file c => rw [walk_cons_file r n c [] hf] at this; cases this
    | dir g => rw [walk_cons_dir r g n [] hf] at this; cases this

mutual
private theorem complete_tree (t : Tree) (ht : WfTree t) (l r : Forest) (n : String) (hn : n ∉ dircmpIgnores) (hl : l.find n = some t)
    (h : ∀ path, Visible path → walk l path = walk r path) : ∃ u, r.find n = some u ∧ nodeEqual t u = true := by
  have hv1 : Visible [n] := visible_cons.mpr ⟨hn, fun _ h => by cases h⟩
  have h1 := h [n] hv1
  match t with
  | .file a =>
    rw [walk_cons_file l n a [] hl] at h1
    cases hf : r.find n with
    | none => rw [walk_cons_none r n [] hf] at h1; cases h1
    | some u =>
      cases u with
      | file b =>
        rw [walk_cons_file r n b [] hf] at h1
        refine ⟨_, rfl, ?_⟩
        unfold nodeEqual
        simpa using h1
      | dir g => rw [walk_cons_dir r g n [] hf] at h1; cases h1
  | .dir f =>
    rw [walk_cons_dir l f n [] hl] at h1
    cases hf : r.find n with
    | none => rw [walk_cons_none r n [] hf] at h1; cases h1
    | some u =>
      cases u with
      | file b => rw [walk_cons_file r n b [] hf] at h1; cases h1
      | dir g =>
        have hfg : ∀ path, Visible path → walk f path = walk g path := by
          intro p hp
          have := h (n :: p) (visible_cons.mpr ⟨hn, hp⟩)
          rwa [walk_cons_dir l f n p hl, walk_cons_dir r g n p hf] at this
        refine ⟨_, rfl, ?_⟩
        unfold nodeEqual
        rw [Bool.and_eq_true]
        unfold WfTree at ht
        exact ⟨covered_of_walk f g hfg, complete_forest f ht f g (fun m _ hm => hm) hfg⟩
private theorem complete_forest (s : Forest) (hs : WfForest s) (l r : Forest) (hsub : ∀ m t, s.find m = some t → l.find m = some t)
    (h : ∀ path, Visible path → walk l path = walk r path) : entriesEqual s r = true := by
  match s with
  | .nil => unfold entriesEqual; rfl
  | .cons m t rest =>
    unfold WfForest at hs
    unfold entriesEqual
    rw [Bool.and_eq_true]
    constructor
    · by_cases hm : m ∈ dircmpIgnores
      · rw [if_pos hm]
      · rw [if_neg hm]
        obtain ⟨u, hu, he⟩ := complete_tree t hs.2.1 l r m hm (hsub m t (by unfold Forest.find; rw [if_pos rfl])) h
        rw [hu]
        exact he
    · refine complete_forest rest hs.2.2 l r (fun k u hk => hsub k u ?_) h
      unfold Forest.find
      rw [if_neg ?_]
      · exact hk
      · rintro rfl
        exact hs.1 ((find_names rest m).mp (by rw [hk]; rfl))
end

/-- **C73, refuted.** Two directory trees that differ at a path are reported equal: a file on one side and a directory of the same name on the other are
not compared. -/
theorem C73_kind_conflict_reported_equal : ∃ l r : Forest, WfForest l ∧ WfForest r ∧ dirsEqual l r = true ∧ ∃ path, Visible path ∧ walk l path ≠ walk r path := by
  refine ⟨.cons "SKILL.md" (.file "text") .nil, .cons "SKILL.md" (.dir .nil) .nil, ?_, ?_, by rfl, ["SKILL.md"], ?_, ?_⟩
  · simp [WfForest, WfTree, Forest.names]
  · simp [WfForest, WfTree, Forest.names]
  · unfold Visible; decide
  · decide

/-- **C73 (partial).** For trees without such file/directory conflicts the check answers "equal" exactly when every path made of visible names leads
to the same thing on both sides. Missing from the full claim: conflicts of kind, and names that `filecmp` ignores. -/
theorem C73_equal_iff_partial (l r : Forest) (hl : WfForest l) (hk : SameKinds l r) :
    dirsEqual l r = true ↔ ∀ path, Visible path → walk l path = walk r path := by
  constructor
  · intro h path hv
    exact sound path l r h hk hv
  · intro h
    unfold dirsEqual
    rw [Bool.and_eq_true]
    exact ⟨covered_of_walk l r h, complete_forest l hl l r (fun _ _ hm => hm) h⟩

/-- A tree that differs at a visible path in a way other than kind is never reported equal: a missing or additional entry, or different content. -/
theorem C73_no_false_synced (l r : Forest) (h : dirsEqual l r = true) : ∀ n, n ∉ dircmpIgnores →
    ((l.find n).isSome ↔ (r.find n).isSome) ∧ ∀ a b, l.find n = some (.file a) → r.find n = some (.file b) → a = b := by
  intro n hn
  unfold dirsEqual at h
  rw [Bool.and_eq_true] at h
  refine ⟨⟨fun hl => ?_, (rightCovered_iff l r).mp h.1 n hn⟩, fun a b ha hb => ?_⟩
  · cases hf : l.find n with
    | none => rw [hf] at hl; cases hl
    | some t =>
      obtain ⟨u, hu, _⟩ := entriesEqual_find l r h.2 n hn t hf
      rw [hu]
      rfl
  · obtain ⟨u, hu, he⟩ := entriesEqual_find l r h.2 n hn _ ha
    rw [hb] at hu
    injection hu with hu
    subst hu
    unfold nodeEqual at he
    simpa using he

/-- Any tree is equal to itself. -/
theorem C73_reflexive (l : Forest) (hl : WfForest l) : dirsEqual l l = true := by
  unfold dirsEqual
  rw [Bool.and_eq_true]
  exact ⟨covered_of_walk l l fun _ _ => rfl, complete_forest l hl l l (fun _ _ hm => hm) fun _ _ => rfl⟩

private theorem mapM_ok {α β : Type} (f : α → Py β) (g : α → β) (l : List α) (h : ∀ a ∈ l, f a = .ok (g a)) : l.mapM f = .ok (l.map g) := by
  induction l with
  | nil => rfl
  | cons a l ih =>
    rw [List.mapM_cons, h a List.mem_cons_self, ih fun b hb => h b (List.mem_cons_of_mem _ hb)]
    rfl

/-- **C73 (after installation).** After a successful install into a directory other than the bundle, with `overwrite` or into free names, the status of
the same request lists exactly the requested skills, all installed, all in sync, with the mode of the install. -/
theorem C73_synced_after_install (bundle dest : String) (names : Option (List String)) (dev all overwrite editable : Bool) (fs : Fs) (ns : List String)
    (hn : resolveSkillNames names dev all = .ok ns) (hb : dest ≠ bundle) (hroot : fs dest ≠ .notDir)
    (hsrc : ∀ n ∈ ns, ∃ t, WfForest t ∧ fs.entry bundle n = some (.dir t)) (hfree : overwrite = true ∨ ∀ n ∈ ns, fs.entry dest n = none) :
    skillStatus bundle dest names dev all (installSkills bundle dest names dev all overwrite editable fs).1 =
      .ok (ns.map fun n => ⟨n, true, if editable then .editableLink else .copy, true⟩) := by
  have hi := (C60_installs bundle dest names dev all overwrite editable fs ns hn hb hroot (fun n h => by obtain ⟨t, _, ht⟩ := hsrc n h; exact ⟨t, ht⟩) hfree).2
  have hfr := (C60_frame bundle dest names dev all overwrite editable fs).1 bundle (Ne.symm hb)
  unfold skillStatus
  rw [hn]
  simp only
  apply mapM_ok
  intro n hnn
  unfold skillRow
  have hbe : (installSkills bundle dest names dev all overwrite editable fs).1.entry bundle n = fs.entry bundle n := by
    unfold Fs.entry
    rw [hfr]
  rcases hi n hnn with ⟨h1, h2⟩ | ⟨h1, t, h2, h3⟩
  · rw [h2, h1]
    simp
  · rw [h3, hbe, h2, h1]
    obtain ⟨t', hw, ht'⟩ := hsrc n hnn
    have : t' = t := by
      rw [h2] at ht'
      injection ht' with h
      injection h with h
      exact h.symm
    simp [C73_reflexive t (this ▸ hw)]

/-- **C73 (status rows).** A row says "missing" exactly when the destination has no such entry, and then it is neither installed nor in sync. -/
theorem C73_row (bundle dest : String) (fs : Fs) (name : String) (row : SkillRow) (h : skillRow bundle dest fs name = .ok row) :
    row.name = name ∧ (row.installed = true ↔ (fs.entry dest name).isSome) ∧ (row.mode = .missing ↔ fs.entry dest name = none) ∧
    (row.synced = true → fs.entry dest name = some (.link bundle name) ∨ ∃ s t, fs.entry bundle name = some (.dir s) ∧ fs.entry dest name = some (.dir t) ∧ dirsEqual s t = true) := by
  unfold skillRow at h
  cases hd : fs.entry dest name with
  | none => rw [hd] at h; injection h with h; subst h; simp
  | some e =>
    rw [hd] at h
    cases e with
    | file c => injection h with h; subst h; simp
    | link p n =>
      injection h with h
      subst h
      simp
    | dir t =>
      simp only at h
      cases hs : fs.entry bundle name with
      | none => rw [hs] at h; cases h
      | some e' =>
        rw [hs] at h
        cases e' with
        | file c => cases h
        | link p n => cases h
        | dir s =>
          injection h with h
          subst h
          simp

example : SameKinds (.cons "a" (.file "x") .nil) (.cons "a" (.file "y") .nil) := by
  have key : ∀ (s : String) path, walk (.cons "a" (.file s) .nil) path = some none ↔ path = [] := by
    intro s path
    cases path with
    | nil => simp [walk]
    | cons n rest =>
      by_cases hn : n = "a"
      · subst hn
        rw [walk_cons_file _ "a" s rest (by simp [Forest.find])]
        split_ifs <;> simp
      · rw [walk_cons_none _ n rest (by simp [Forest.find, Ne.symm hn])]
        simp
  intro path _ c
  constructor
  · rintro ⟨h1, h2⟩
    rw [(key _ path).mp h2] at h1
    cases h1
  · rintro ⟨h1, h2⟩
    rw [(key _ path).mp h1] at h2
    cases h2

example : dirsEqual (.cons "a" (.file "x") .nil) (.cons "a" (.file "y") .nil) = false := by rfl

/-! ## C74: contents of the copied examples -/

private theorem prune_find (f : Forest) (n : String) : (pruneForest f).find n = if n = "__pycache__" ∨ n.endsWith ".pyc" then none else (f.find n).map pruneTree := by
  match f with
  | .nil => simp [pruneForest, Forest.find]
  | .cons m t rest =>
    have ih := prune_find rest n
    unfold pruneForest
    by_cases hm : m = "__pycache__" ∨ m.endsWith ".pyc"
    · rw [if_pos hm, ih]
      by_cases hn : n = "__pycache__" ∨ n.endsWith ".pyc"
      · rw [if_pos hn, if_pos hn]
      · rw [if_neg hn, if_neg hn]
        have : m ≠ n := fun h => hn (h ▸ hm)
        conv_rhs => rw [Forest.find, if_neg this]
    · rw [if_neg hm]
      by_cases h : m = n
      · subst h
        rw [if_neg hm, Forest.find, if_pos rfl, Forest.find, if_pos rfl]
        rfl
      · rw [Forest.find, if_neg h, ih, Forest.find, if_neg h]

/-- **C74 (contents).** In the copy a path leads to exactly what it leads to in the packaged examples, unless one of its components is `__pycache__` or
ends in `.pyc`; such a path leads nowhere. -/
theorem C74_contents (t : Forest) (path : List String) :
    ((∀ n ∈ path, n ≠ "__pycache__" ∧ n.endsWith ".pyc" = false) → walk (pruneForest t) path = walk t path) ∧
    ((∃ n ∈ path, n = "__pycache__" ∨ n.endsWith ".pyc" = true) → walk (pruneForest t) path = none) := by
  induction path generalizing t with
  | nil => exact ⟨fun _ => rfl, fun ⟨n, h, _⟩ => by cases h⟩
  | cons n rest ih =>
    have hpf := prune_find t n
    by_cases hn : n = "__pycache__" ∨ n.endsWith ".pyc"
    · rw [if_pos hn] at hpf
      refine ⟨fun h => ?_, fun _ => walk_cons_none _ n rest hpf⟩
      obtain ⟨h1, h2⟩ := h n List.mem_cons_self
      rcases hn with hn | hn
      · exact absurd hn h1
      · rw [h2] at hn; cases hn
    · rw [if_neg hn] at hpf
      cases hf : t.find n with
      | none =>
        rw [hf] at hpf
        refine ⟨fun _ => ?_, fun _ => walk_cons_none _ n rest hpf⟩
        rw [walk_cons_none _ n rest hpf, walk_cons_none _ n rest hf]
      | some u =>
        rw [hf] at hpf
        cases u with
        | file c =>
          have hpf : (pruneForest t).find n = some (.file c) := by rw [hpf, Option.map_some, pruneTree]
          rw [walk_cons_file _ n c rest hpf]
          refine ⟨fun _ => (walk_cons_file _ n c rest hf).symm, fun ⟨m, hm, hmi⟩ => ?_⟩
          rcases List.mem_cons.mp hm with rfl | hm
          · exact absurd hmi hn
          · exact if_neg (List.ne_nil_of_mem hm)
        | dir g =>
          have hpf : (pruneForest t).find n = some (.dir (pruneForest g)) := by rw [hpf, Option.map_some, pruneTree]
          rw [walk_cons_dir _ _ n rest hpf, walk_cons_dir _ _ n rest hf]
          refine ⟨fun h => (ih g).1 fun m hm => h m (List.mem_cons_of_mem _ hm), fun ⟨m, hm, hmi⟩ => ?_⟩
          rcases List.mem_cons.mp hm with rfl | hm
          · exact absurd hmi hn
          · exact (ih g).2 ⟨m, hm, hmi⟩

example : walk (pruneForest (.cons "a" (.dir (.cons "b.py" (.file "x") (.cons "__pycache__" (.dir .nil) .nil))) .nil)) ["a", "b.py"] = some (some "x") := by
  refine ((C74_contents _ _).1 ?_).trans ?_
  · decide +kernel
  · decide +kernel

end Verif
