import Verif.Np.Basic

/-!
# Model of `skill_cli.py` and `cli.py`

The file system is a map from directory paths to their entries. Two different path strings denote different, non-nested directories; permissions,
crashes and concurrent changes are not modelled. Source directories hold files and directories only.
-/

namespace Verif.Model

open Verif

/-! ## Name resolution -/

/-- `AVAILABLE_SKILLS`. `skill_cli.py:15`. -/
def availableSkills : List String := ["adctoolbox-user-guide", "adctoolbox-contributor-guide"]

/-- `DEV_SKILLS`. `skill_cli.py:14`. -/
def devSkills : List String := ["adctoolbox-user-guide", "adctoolbox-contributor-guide"]

/-- `DEFAULT_SKILLS`. `skill_cli.py:13`. -/
def defaultSkills : List String := ["adctoolbox-user-guide"]

/-- `SKILL_ALIASES.get(raw_name, raw_name)`. `skill_cli.py:16-24, 51`. -/
def skillAlias (raw : String) : String :=
  if raw = "user" then "adctoolbox-user-guide"
  else if raw = "user-guide" then "adctoolbox-user-guide"
  else if raw = "adctoolbox-user-guide" then "adctoolbox-user-guide"
  else if raw = "dev" then "adctoolbox-contributor-guide"
  else if raw = "contributor" then "adctoolbox-contributor-guide"
  else if raw = "contributor-guide" then "adctoolbox-contributor-guide"
  else if raw = "adctoolbox-contributor-guide" then "adctoolbox-contributor-guide"
  else raw

/-- The resolution loop. `skill_cli.py:48-59`. -/
def resolveLoop : List String → List String → Py (List String)
  | [], acc => .ok acc
  | raw :: rest, acc =>
    let name := skillAlias raw
    if name ∉ availableSkills then .error .valueError
    else if name ∉ acc then resolveLoop rest (acc ++ [name])
    else resolveLoop rest acc

/-- `resolve_skill_names`. `skill_cli.py:32-59`. `none` is Python's `None`. -/
def resolveSkillNames (names : Option (List String)) (dev all : Bool) : Py (List String) :=
  if all then .ok availableSkills
  else if dev then .ok devSkills
  else
    match names with
    | none => .ok defaultSkills
    | some [] => .ok defaultSkills
    | some l => resolveLoop l []

/-! ## File trees -/

mutual
/-- A file with its content, or a directory. -/
inductive Tree where
  | file (content : String)
  | dir (entries : Forest)
/-- The named entries of a directory. -/
inductive Forest where
  | nil
  | cons (name : String) (node : Tree) (rest : Forest)
end

/-- First entry with the given name. -/
def Forest.find (f : Forest) (n : String) : Option Tree :=
  match f with
  | .nil => none
  | .cons m t rest => if m = n then some t else rest.find n

/-- Names in order. -/
def Forest.names : Forest → List String
  | .nil => []
  | .cons m _ rest => m :: rest.names

/-- `filecmp.DEFAULT_IGNORES`: names `dircmp` does not look at. External constant, used at `skill_cli.py:77`. -/
def dircmpIgnores : List String := ["RCS", "CVS", "tags", ".git", ".hg", ".bzr", "_darcs", "__pycache__"]

/-- `cmp.right_only` is empty: every name on the right that is looked at exists on the left. -/
def rightCovered (l r : Forest) : Bool := r.names.all fun n => decide (n ∈ dircmpIgnores) || (l.find n).isSome

mutual
/-- Comparison of two entries of the same name. Files are compared by content and directories recursively. A file and a directory are in
`common_funny`, which the code does not look at (it tests `funny_files`, the files that could not be read). `skill_cli.py:78-83`. -/
def nodeEqual : Tree → Tree → Bool
  | .file a, .file b => decide (a = b)
  | .dir f, .dir g => rightCovered f g && entriesEqual f g
  | .file _, .dir _ => true
  | .dir _, .file _ => true
/-- `cmp.left_only` is empty and all common entries compare equal. `skill_cli.py:78-83`. -/
def entriesEqual : Forest → Forest → Bool
  | .nil, _ => true
  | .cons n t rest, r => (if n ∈ dircmpIgnores then true else match r.find n with
      | none => false
      | some u => nodeEqual t u) && entriesEqual rest r
end

/-- `_dirs_equal`. `skill_cli.py:75-83`. -/
def dirsEqual (l r : Forest) : Bool := rightCovered l r && entriesEqual l r

/-! ## Installation -/

/-- An entry of a directory: a regular file, a directory, or a symbolic link to the entry `name` of the directory `path`. -/
inductive Entry where
  | file (content : String)
  | dir (entries : Forest)
  | link (path name : String)

/-- What is at a path: nothing, something that is not a directory, or a directory. -/
inductive Place where
  | absent
  | notDir
  | dir (entries : String → Option Entry)

/-- The file system. -/
abbrev Fs := String → Place

/-- Entry `n` of the directory at `p`. -/
def Fs.entry (fs : Fs) (p n : String) : Option Entry :=
  match fs p with
  | .dir es => es n
  | _ => none

/-- Replace entry `n` of the directory at `p`. -/
def Fs.setEntry (fs : Fs) (p n : String) (e : Option Entry) : Fs := fun q =>
  if q = p then
    match fs p with
    | .dir es => .dir fun m => if m = n then e else es m
    | x => x
  else fs q

/-- `install_root.mkdir(parents=True, exist_ok=True)`. `skill_cli.py:151`. -/
def mkRoot (fs : Fs) (dest : String) : Fs × Py Unit :=
  match fs dest with
  | .absent => (fun q => if q = dest then .dir fun _ => none else fs q, .ok ())
  | .notDir => (fs, .error .fileExists)
  | .dir _ => (fs, .ok ())

/-- One skill. `skill_cli.py:156-173`: an existing entry (or dangling link) fails without `overwrite` and is removed with it; then a link is made or
the source tree is copied. A missing source directory makes `copytree` raise `FileNotFoundError` (after the removal). -/
def installOne (bundle dest : String) (overwrite editable : Bool) (fs : Fs) (name : String) : Fs × Py Unit :=
  if (fs.entry dest name).isSome ∧ overwrite = false then (fs, .error .fileExists)
  else
    let fs := if (fs.entry dest name).isSome then fs.setEntry dest name none else fs
    if editable then (fs.setEntry dest name (some (.link bundle name)), .ok ())
    else
      match fs.entry bundle name with
      | some (.dir t) => (fs.setEntry dest name (some (.dir t)), .ok ())
      | _ => (fs, .error .fileNotFound)

/-- The loop over the resolved names; the result lists the installed names. An exception stops the loop and keeps what was done. `skill_cli.py:155-176`. -/
def installLoop (bundle dest : String) (overwrite editable : Bool) : Fs → List String → List String → Fs × Py (List String)
  | fs, [], done => (fs, .ok done)
  | fs, name :: rest, done =>
    match installOne bundle dest overwrite editable fs name with
    | (fs', .error e) => (fs', .error e)
    | (fs', .ok ()) => installLoop bundle dest overwrite editable fs' rest (done ++ [name])

/-- `install_bundled_skills`. `skill_cli.py:135-176`. -/
def installSkills (bundle dest : String) (names : Option (List String)) (dev all overwrite editable : Bool) (fs : Fs) : Fs × Py (List String) :=
  match resolveSkillNames names dev all with
  | .error e => (fs, .error e)
  | .ok ns =>
    match mkRoot fs dest with
    | (fs', .error e) => (fs', .error e)
    | (fs', .ok ()) => installLoop bundle dest overwrite editable fs' ns []

/-- The `mode` field of a status row. -/
inductive SkillMode where
  | missing
  | editableLink
  | copy
  | nonDirectory
  deriving DecidableEq

/-- A status row. -/
structure SkillRow where
  name : String
  installed : Bool
  mode : SkillMode
  synced : Bool

/-- One status row. `skill_cli.py:103-130`. A link is in sync when it points to the bundled directory. A missing source makes `dircmp` fail. -/
def skillRow (bundle dest : String) (fs : Fs) (name : String) : Py SkillRow :=
  match fs.entry dest name with
  | none => .ok ⟨name, false, .missing, false⟩
  | some (.link p n) => .ok ⟨name, true, .editableLink, decide (p = bundle ∧ n = name)⟩
  | some (.dir t) =>
    match fs.entry bundle name with
    | some (.dir s) => .ok ⟨name, true, .copy, dirsEqual s t⟩
    | _ => .error .fileNotFound
  | some (.file _) => .ok ⟨name, true, .nonDirectory, false⟩

/-- `skill_status`. `skill_cli.py:86-132`. -/
def skillStatus (bundle dest : String) (names : Option (List String)) (dev all : Bool) (fs : Fs) : Py (List SkillRow) :=
  match resolveSkillNames names dev all with
  | .error e => .error e
  | .ok ns => ns.mapM (skillRow bundle dest fs)

/-- The parsed command line of `adctoolbox-install-skills`. -/
structure SkillArgs where
  skills : List String
  list : Bool
  status : Bool
  dev : Bool
  all : Bool
  dest : Option String
  force : Bool
  editable : Bool

/-- How `main` ends: an exit code returned, `parser.error` (exit status 2), or an uncaught exception. -/
inductive Outcome where
  | code (n : ℕ)
  | usage
  | raised (e : PyErr)
  deriving DecidableEq

/-- `main`. `skill_cli.py:250-296`; only file-system effects and the way it ends. -/
def skillMain (bundle : String) (a : SkillArgs) (fs : Fs) : Fs × Outcome :=
  if a.list then (fs, .code 0)
  else
    match a.dest with
    | none => (fs, .usage)
    | some dest =>
      if a.status then
        match skillStatus bundle dest (some a.skills) a.dev a.all fs with
        | .error e => (fs, .raised e)
        | .ok _ => (fs, .code 0)
      else
        match installSkills bundle dest (some a.skills) a.dev a.all a.force a.editable fs with
        | (fs', .ok _) => (fs', .code 0)
        | (fs', .error .fileExists) => (fs', .code 1)
        | (fs', .error .valueError) => (fs', .code 1)
        | (fs', .error e) => (fs', .raised e)

/-! ## Examples -/

mutual
/-- `shutil.ignore_patterns('__pycache__', '*.pyc')` applied throughout a tree. `cli.py:36`. -/
def pruneTree : Tree → Tree
  | .file c => .file c
  | .dir f => .dir (pruneForest f)
/-- Entries kept by the ignore patterns. -/
def pruneForest : Forest → Forest
  | .nil => .nil
  | .cons n t rest => if n = "__pycache__" ∨ n.endsWith ".pyc" then pruneForest rest else .cons n (pruneTree t) (pruneForest rest)
end

/-- `copy_examples`: exit 1 if the packaged examples are missing or the destination exists, else copy. `cli.py:7-47`. `cwd` is the working directory. A
dangling link does not exist for `exists()`, and `copytree` then fails on creating the directory, which is reported with exit status 1. -/
def copyExamples (pkg cwd dest : String) (fs : Fs) : Fs × ℕ :=
  match fs.entry pkg "examples" with
  | some (.dir t) =>
    if (fs.entry cwd dest).isSome then (fs, 1)
    else (fs.setEntry cwd dest (some (.dir (pruneForest t))), 0)
  | _ => (fs, 1)

end Verif.Model
