import Verif.Model.Skills
import Mathlib.Data.List.Infix

/-!
# Model of the command line of `skill_cli.py`: words in, text and exit status out

`argparse` is that of Python 3.11, for the parser of `_build_parser`. Not modelled: the word `--`, words that begin with `-h` and have more letters (not taken as `-h`), the text of the
usage, help and error messages, digits other than 0 to 9 in words that look like negative numbers, and the normalisation of path strings (`~`, repeated slashes).
-/

namespace Verif.Model

open Verif

/-- The options. `skill_cli.py:191-227`; `help` is added by `argparse`. -/
inductive CliOpt where
  | help
  | list
  | status
  | dev
  | all
  | dest
  | force
  | editable
  deriving DecidableEq

/-- Option strings and what they mean. `skill_cli.py:191-227`. -/
def optionStrings : List (String × CliOpt) :=
  [("-h", .help), ("--help", .help), ("--list", .list), ("--status", .status), ("--dev", .dev), ("--all", .all), ("--dest", .dest), ("--force", .force), ("--upgrade", .force), ("--editable", .editable)]

/-- A word as `argparse` sees it: a value, an option with or without `=value`, an unknown option, or an ambiguous abbreviation. -/
inductive Tok where
  | pos (s : String)
  | opt (o : CliOpt) (value : Option String)
  | unknown
  | ambiguous
  deriving DecidableEq

/-- The characters before the first `=`, and those after it. -/
def cutEq : List Char → List Char × Option (List Char)
  | [] => ([], none)
  | c :: cs => if c = '=' then ([], some cs) else (c :: (cutEq cs).1, (cutEq cs).2)

/-- `-\d+` or `-\d*\.\d+`: looks like a negative number. -/
def looksNegative : List Char → Bool
  | '-' :: cs => (!cs.isEmpty && cs.all Char.isDigit) || (match cs.dropWhile Char.isDigit with
    | '.' :: ds => !ds.isEmpty && ds.all Char.isDigit
    | _ => false)
  | _ => false

/-- `argparse.ArgumentParser._parse_optional` for the parser of `skill_cli.py:179-228`. -/
def classify (s : String) : Tok :=
  if s.toList.head? ≠ some '-' then .pos s
  else
    match optionStrings.find? (fun o => decide (o.1 = s)) with
    | some o => .opt o.2 none
    | none =>
      if s = "-" then .pos s
      else
        let cut := cutEq s.toList
        match (if cut.2.isSome then optionStrings.find? (fun o => decide (o.1.toList = cut.1)) else none) with
        | some o => .opt o.2 (cut.2.map String.ofList)
        | none =>
          match (if ['-', '-'].isPrefixOf s.toList then optionStrings.filter (fun o => cut.1.isPrefixOf o.1.toList) else []) with
          | [o] => .opt o.2 (cut.2.map String.ofList)
          | _ :: _ :: _ => .ambiguous
          | [] => if looksNegative s.toList then .pos s else if ' ' ∈ s.toList then .pos s else .unknown

/-- Result of `parser.parse_args`: the arguments, exit with status 2, or the help text and exit with status 0. -/
inductive Parsed where
  | args (a : SkillArgs)
  | usage
  | help

/-- Where the names are: not yet seen, being read, or complete. -/
inductive Phase where
  | before
  | inRun
  | after
  deriving DecidableEq

/-- An option ends a run of names. -/
def Phase.close : Phase → Phase
  | .inRun => .after
  | p => p

/-- `store_true`. `skill_cli.py:191-227`. -/
def setFlag (o : CliOpt) (a : SkillArgs) : SkillArgs :=
  match o with
  | .list => { a with list := true }
  | .status => { a with status := true }
  | .dev => { a with dev := true }
  | .all => { a with all := true }
  | .force => { a with force := true }
  | .editable => { a with editable := true }
  | .help => a
  | .dest => a

/-- `argparse.ArgumentParser._parse_known_args` for one `nargs="*"` positional, `skill_cli.py:183-190`: the first run of values is the list of names, later ones are left over. -/
def parseLoop : Phase → Bool → SkillArgs → List Tok → Parsed
  | _, extra, a, [] => if extra then .usage else .args a
  | .after, _, a, .pos _ :: ts => parseLoop .after true a ts
  | _, extra, a, .pos s :: ts => parseLoop .inRun extra { a with skills := a.skills ++ [s] } ts
  | ph, _, a, .unknown :: ts => parseLoop ph.close true a ts
  | _, _, _, .ambiguous :: _ => .usage
  | _, _, _, .opt .help none :: _ => .help
  | ph, extra, a, .opt .dest (some v) :: ts => parseLoop ph.close extra { a with dest := some v } ts
  | ph, extra, a, .opt .dest none :: .pos v :: ts => parseLoop ph.close extra { a with dest := some v } ts
  | _, _, _, .opt .dest none :: _ => .usage
  | ph, extra, a, .opt o none :: ts => parseLoop ph.close extra (setFlag o a) ts
  | _, _, _, .opt _ (some _) :: _ => .usage

/-- The arguments when no word is given. -/
def noArgs : SkillArgs := ⟨[], false, false, false, false, none, false, false⟩

/-- `parser.parse_args(argv)`. `skill_cli.py:252`. -/
def parseArgs (argv : List String) : Parsed :=
  if Tok.ambiguous ∈ argv.map classify then .usage else parseLoop .before false noArgs (argv.map classify)

/-- `mode` as text. `skill_cli.py:106-120`. -/
def SkillMode.text : SkillMode → String
  | .missing => "missing"
  | .editableLink => "editable-link"
  | .copy => "copy"
  | .nonDirectory => "non-directory"

/-- `"yes" if … else "no"`. `skill_cli.py:240-241`. -/
def yesNo (b : Bool) : String := if b then "yes" else "no"

/-- The six lines of one row. `skill_cli.py:242-247`. -/
def rowText (bundle dest : String) (r : SkillRow) : List String :=
  ["- " ++ r.name, "  source: " ++ (bundle ++ "/" ++ r.name), "  target: " ++ (dest ++ "/" ++ r.name), "  installed: " ++ yesNo r.installed, "  mode: " ++ r.mode.text, "  synced: " ++ yesNo r.synced]

/-- `_print_status`. `skill_cli.py:237-247`. -/
def statusText (bundle dest : String) (rows : List SkillRow) : List String :=
  "ADCToolbox Codex skill status:" :: rows.flatMap (rowText bundle dest)

/-- The suffix of a listed name. `skill_cli.py:257-259`. -/
def listSuffix (name : String) : String :=
  if name = "adctoolbox-contributor-guide" then " (dev-only)" else if name ∈ defaultSkills then " (default)" else ""

/-- Standard output of `main` on parsed arguments. `skill_cli.py:254-296`. -/
def skillStdout (bundle : String) (a : SkillArgs) (fs : Fs) : List String :=
  if a.list then "Bundled ADCToolbox skills:" :: availableSkills.map fun n => "- " ++ n ++ listSuffix n
  else
    match a.dest with
    | none => []
    | some dest =>
      if a.status then
        match skillStatus bundle dest (some a.skills) a.dev a.all fs with
        | .error _ => []
        | .ok rows => statusText bundle dest rows
      else
        match (installSkills bundle dest (some a.skills) a.dev a.all a.force a.editable fs).2 with
        | .error _ => []
        | .ok ns => "Installed ADCToolbox Codex skills:" :: ns.map (fun n => "- " ++ (dest ++ "/" ++ n)) ++
            [if a.editable then "Mode: editable symlink" else "Mode: copied directory", "Restart Codex to pick up new or updated skills."]

/-- `main(argv)`: file system afterwards, exit, standard output. `skill_cli.py:250-296`. -/
def skillCommand (bundle : String) (argv : List String) (fs : Fs) : Fs × Outcome × List String :=
  match parseArgs argv with
  | .usage => (fs, .usage, [])
  | .help => (fs, .code 0, [])
  | .args a => ((skillMain bundle a fs).1, (skillMain bundle a fs).2, skillStdout bundle a fs)

end Verif.Model
