import Verif.Model.ReleaseManager
import Verif.Model.Repository
import Verif.Model.Search
/-!
# Releasing and forwarding from Python: `rez-next-python/src/{release_bindings,forward_bindings}.rs`

Parameters: everything that the release manager and the repositories have as parameters; how a program ends.  Left out: making
the source directory absolute; the texts of the issues and of the errors; the classes for version control, which only pass
values on.
-/
namespace Rez.PyRelease
open Rez Rez.ReleaseManager Rez.Repository Rez.PackageOrder

/-! ## Releasing -/

/-- release_bindings.rs:472-478 `ReleaseMode::from_str`. -/
def modeOf (s : Str) : Mode :=
  if s = c!"local" then .local else if s = c!"dry_run" || s = c!"dry-run" then .dryRun else .release

/-- release_bindings.rs:533-540 `new`, 555-567: the manager that it stands for. -/
def manager (mode : Option Str) (skipBuild skipTests : Bool) : Manager :=
  { mode := modeOf (mode.getD c!"release"), skipBuild := skipBuild, skipTests := skipTests }

/-- release_bindings.rs:703-722 `release_package`. -/
def releasePackage {W : Type} (m : Machine W) (t : Texts) (c : Settings) (src : Source) («local» dry : Bool) (message : Option Str)
    (w : W) : St W × Option Result :=
  let mode := if dry then c!"dry_run" else if «local» then c!"local" else c!"release"
  release m t c (manager (some mode) false false) src message w

/-- release_bindings.rs:600-644 `validate`. -/
def validate (src : Source) : Bool × List Problem :=
  if !src.py then (false, [.missing])
  else
    let issues := match src.loaded with
      | some p => (if p.name.isEmpty then [.name] else []) ++ (if p.version.isNone then [.version] else [])
      | none => [.unreadable]
    (issues.isEmpty, issues)

/-- New repositories on directories: release_bindings.rs:671-678, forward_bindings.rs:97-103. -/
def newRepos (roots : List Root) : List Repo := roots.map fun r => (r, State.new)

/-- release_bindings.rs:647-697 `list_versions`; `roots` are the directories that are there. -/
def listVersions (srt : Sorting) (roots : List Root) (name : Str) : Outcome (List Str) :=
  match (managerFind srt (newRepos roots) name).2 with
  | .ok ps => .ok (Search.sortStr ((ps.filter fun p => p.name = name).filterMap fun p => p.version.map Version.asStr))
  | .err => .err
  | .panic => .panic

/-! ## Forwarding -/

/-- forward_bindings.rs:16-19 `PyRezForward`. -/
structure Forward where
  tool : Str
  context : Option Str

/-- forward_bindings.rs:57-60: the command. -/
def command (f : Forward) (args : List Str) : Str :=
  if args.isEmpty then f.tool else f.tool ++ c!" " ++ joinWith c!" " args

/-- forward_bindings.rs:54-78 `execute`.  `run` tells how the program ends: `none` if it cannot be started, and its exit code, if it has
one; `show` is the text of a number. -/
def Forward.execute («show» : Int → Str) (run : Str → List Str → Option (Option Int)) (f : Forward) (args : Option (List Str)) (dry : Bool) : Option Str :=
  let args := args.getD []
  if dry then some (c!"[dry-run] rez-forward: " ++ command f args)
  else (run f.tool args).map fun code => c!"exit:" ++ «show» (code.getD (-1))

/-- forward_bindings.rs:85-124 `resolve_forward_tool`; `roots` are the directories of the settings that are there. -/
def resolveTool (srt : Sorting) (roots : List Root) (tool : Str) (_paths : Option (List Str)) : Outcome (Option (Str × Str)) :=
  match (managerFind srt (newRepos roots) []).2 with
  | .ok ps => .ok ((ps.find? fun p => p.tools.any fun t => t = tool).map fun p =>
      (p.name ++ c!"-" ++ (p.version.map Version.asStr).getD c!"unknown", p.name))
  | .err => .err
  | .panic => .panic

/-- forward_bindings.rs:131-170 `generate_forward_script`. -/
def script (tool : Str) (shell : Option Str) : Str :=
  let s := shell.getD c!"bash"
  if s = c!"powershell" || s = c!"pwsh" then
    c!"# rez-next forward wrapper for " ++ tool ++ c!"\nfunction Invoke-RezTool {\n    & rez-next forward " ++ tool ++
      c!" @args\n}\nSet-Alias -Name " ++ tool ++ c!" -Value Invoke-RezTool\n"
  else if s = c!"cmd" then
    c!"@echo off\nrem rez-next forward wrapper for " ++ tool ++ c!"\nrez-next forward " ++ tool ++ c!" %*\n"
  else if s = c!"fish" then
    c!"# rez-next forward wrapper for " ++ tool ++ c!"\nfunction " ++ tool ++ c!"\n    rez-next forward " ++ tool ++ c!" $argv\nend\n"
  else
    c!"#!/usr/bin/env bash\n# rez-next forward wrapper for " ++ tool ++ c!"\nexec rez-next forward " ++ tool ++ c!" \"$@\"\n"

end Rez.PyRelease
