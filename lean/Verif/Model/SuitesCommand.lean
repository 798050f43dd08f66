import Verif.Model.Suite
import Mathlib.Data.List.Sort
/-!
# `rez suites`: `src/cli/commands/suites.rs`

Every command runs in a process of its own: it loads the suite from its directory, changes it and saves it.  Errors of the
file system are left out, as in `Model/Suite.lean`.  The order in which a hash map is iterated is a parameter.
-/
namespace Rez.SuitesCommand
open Rez Rez.Suite

/-- suites.rs:85-150: the commands that change a suite. -/
inductive Change where
  | add (name : Str) (requests : List Str) (pfx : Option Str) (priority : Int)
  | remove (name : Str)
  | setAlias (context name tool : Str)
  | hide (context tool : Str)

/-- suites.rs:255-265, 281-283, 297-299, 316-318: the change of the suite that was loaded; the priority is not used. -/
def apply (alnum : Char → Bool) (s : Suite) : Change → Except Err Suite
  | .add name requests pfx _ =>
    match s.add alnum name requests with
    | .error e => .error e
    | .ok s' =>
      match pfx with
      | some p => .ok (s'.edit name fun c => { c with pfx := some p })
      | none => .ok s'
  | .remove name => s.remove name
  | .setAlias context name tool => s.alias context name tool
  | .hide context tool => s.hide context tool

/-- suites.rs:251-329 `cmd_add_context`, `cmd_remove_context`, `cmd_alias_tool`, `cmd_hide_tool`: load, change, save.  A suite
that was loaded has a path. -/
def change (alnum : Char → Bool) (y : Yaml) (fs : Fs) (path : Str) (c : Change) : Except Err Fs :=
  match load y fs path with
  | .error e => .error e
  | .ok s =>
    match apply alnum s c with
    | .error e => .error e
    | .ok s' => .ok (s'.save y (s'.path.getD []) fs).2

/-- suites.rs:195-212 `cmd_create`; `none` is a conflict mode that does not exist. -/
def create (y : Yaml) (fs : Fs) (path : Str) (description : Option Str) (mode : Str) : Option Fs :=
  match Mode.parse mode with
  | none => none
  | some m =>
    let s := { Suite.new with mode := m }
    let s := match description with | some d => { s with description := some d } | none => s
    some (s.save y path fs).2

/-- `{:<n}`: blanks behind a text, up to a width. -/
def padTo (n : Nat) (s : Str) : Str := s ++ List.replicate (n - s.length) ' '

/-- suites.rs:354-364: the line of a tool. -/
def toolLine (verbose : Bool) (t : Tool) : Str :=
  if verbose then padTo 30 t.name ++ c!" " ++ padTo 20 t.context ++ c!" " ++ t.package ++ c!"\n"
  else padTo 30 t.name ++ c!" " ++ t.context ++ c!"\n"

/-- suites.rs:331-368 `cmd_tools`; `order` is the order of the map of tools. -/
def showTools (iter : List (Str × Str) → List (Str × Str)) (order : List Tool → List Tool) (y : Yaml) (fs : Fs) (path : Str)
    (verbose : Bool) : Except Err Str :=
  match load y fs path with
  | .error e => .error e
  | .ok s =>
    match s.tools iter with
    | .error e => .error e
    | .ok tools =>
      if tools.isEmpty then .ok c!"No tools exposed by this suite.\n"
      else .ok (padTo 30 c!"TOOL" ++ c!" " ++ padTo 20 c!"CONTEXT" ++ c!" SOURCE\n" ++
        padTo 30 c!"----" ++ c!" " ++ padTo 20 c!"-------" ++ c!" ------\n" ++
        ((order (tools.map Prod.snd)).insertionSort fun a b => cmpStr a.name b.name ≠ .gt).flatMap (toolLine verbose))

/-- suite_tool.rs:7-19: `{:?}` of a mode. -/
def modeDebug : Mode → Str
  | .error => c!"Error"
  | .first => c!"First"
  | .last => c!"Last"
  | .prefix => c!"Prefix"

/-- suite.rs:327-342: the lines of a context. -/
def ctxInfo (iter : List (Str × Str) → List (Str × Str)) (c : Ctx) : Str :=
  c!"    " ++ c.name ++ c!" - " ++ joinWith c!", " c.requests ++ (if c.disabled then c!" [disabled]" else []) ++ c!"\n" ++
  ((iter c.aliases).flatMap fun a => c!"      alias: " ++ a.1 ++ c!" -> " ++ a.2 ++ c!"\n") ++
  (if c.hidden.isEmpty then [] else c!"      hidden: " ++ joinWith c!", " c.hidden ++ c!"\n")

/-- suite.rs:315-344 `format_info`. -/
def info (iter : List (Str × Str) → List (Str × Str)) (s : Suite) : Str :=
  c!"Suite:\n" ++
  (match s.description with | some d => c!"  Description: " ++ d ++ c!"\n" | none => []) ++
  (match s.path with | some p => c!"  Path: " ++ p ++ c!"\n" | none => []) ++
  c!"  Conflict mode: " ++ modeDebug s.mode ++ c!"\n" ++
  c!"  Contexts (" ++ decimal s.contexts.length ++ c!"):\n" ++ s.contexts.flatMap (ctxInfo iter)

/-- suites.rs:244-249 `cmd_info`. -/
def showInfo (iter : List (Str × Str) → List (Str × Str)) (y : Yaml) (fs : Fs) (path : Str) : Except Err Str :=
  match load y fs path with
  | .error e => .error e
  | .ok s => .ok (info iter s)

/-- suites.rs:183-193 `get_suite_paths`, utils.rs:104-115 `split_package_paths` (not on Windows). -/
def suitePaths (join : Str → Str → Str) (paths userProfile home : Option Str) : List Str :=
  match paths with
  | some s => ((splitChar ':' s).map trim).filter fun p => !p.isEmpty
  | none => [join ((userProfile.or home).getD c!".") c!"suites"]

/-- suites.rs:224-236: the line of a suite in the verbose list: nothing for one that cannot be loaded; `fileName` stands for
`Path::file_name`. -/
def listLine (y : Yaml) (fs : Fs) (fileName : Str → Str) (path : Str) : Str :=
  match load y fs path with
  | .ok s => padTo 30 (fileName path) ++ c!" " ++ decimal s.contexts.length ++ c!" context(s) - " ++
      s.description.getD c!"(no description)" ++ c!"\n"
  | .error _ => []

/-- suites.rs:214-242 `cmd_list`. -/
def showList (entries : Str → List Str) (join : Str → Str → Str) (fileName : Str → Str) (y : Yaml) (fs : Fs)
    (paths : List Str) (verbose : Bool) : Str :=
  let names := listNames entries join fs paths
  if names.isEmpty then c!"No suites found.\n"
  else if verbose then (findSuites entries join fs paths).flatMap (listLine y fs fileName)
  else names.flatMap fun n => n ++ c!"\n"

/-- A directory after a command; a command that fails leaves everything as it is. -/
def kept (fs : Fs) (answer : Except Err Fs) : Fs :=
  match answer with
  | .ok fs' => fs'
  | .error _ => fs

/-- The file system after commands on a suite, one after the other. -/
def session (alnum : Char → Bool) (y : Yaml) (path : Str) (fs : Fs) (cs : List Change) : Fs :=
  cs.foldl (fun fs c => kept fs (change alnum y fs path c)) fs

/-- Two commands at the same time: both load, then both save. -/
def race (alnum : Char → Bool) (y : Yaml) (path : Str) (fs : Fs) (a b : Change) : Except Err Fs :=
  match load y fs path with
  | .error e => .error e
  | .ok s =>
    match apply alnum s a with
    | .error e => .error e
    | .ok sa =>
      match apply alnum s b with
      | .error e => .error e
      | .ok sb => .ok (sb.save y path (sa.save y path fs).2).2

end Rez.SuitesCommand
