import Verif.Model.RexShell
import Verif.Model.Environment
import Verif.Model.Which
import Verif.Base.Words
import Verif.Model.Requirement
/-!
# Source scripts and the status of the environment: `rez-next-python/src/source_bindings.rs`, `shell_utils.rs` and
`status_bindings.rs`

Upper and lower case are those of ASCII letters.  Parameters: the environment of the process, its temporary directory and number,
and which files can be written.  Paths are texts.  Not on Windows.
-/
namespace Rez.Source
open Rez Rez.Rex Rez.RexShell

/-- The process. -/
structure Here where
  /-- the variables; a value is `none` if it is not Unicode -/
  env : List (Str × Option Str)
  /-- `std::env::temp_dir` -/
  temp : Str
  /-- `std::process::id` -/
  pid : Nat
  /-- source_bindings.rs:67-72, 286-291: the directory of a path is there or can be made -/
  makeParent : Str → Bool
  /-- the file can be written -/
  canWrite : Str → Bool
  /-- `Path::canonicalize` after the file is written -/
  canonical : Str → Option Str

/-- `std::env::var(k).ok()`. -/
def getVar (h : Here) (k : Str) : Option Str := (mget h.env k).join

/-- `str::to_lowercase`. -/
def lower (s : Str) : Str := s.map lowerChar

/-- shell_utils.rs:18-26 `shell_type_from_str`. -/
def shellOf (name : Str) : Shell :=
  let n := lower name
  if n = c!"zsh" then .zsh
  else if n = c!"fish" then .fish
  else if n = c!"cmd" then .cmd
  else if n = c!"powershell" ∨ n = c!"pwsh" ∨ n = c!"ps1" then .powershell
  else .bash

/-- source_bindings.rs:125-149 `detect_current_shell`. -/
def detectShell (h : Here) : Str :=
  match getVar h c!"SHELL" with
  | some s =>
    if containsStr (lower s) c!"zsh" then c!"zsh"
    else if containsStr (lower s) c!"fish" then c!"fish"
    else if containsStr (lower s) c!"pwsh" || containsStr (lower s) c!"powershell" then c!"powershell"
    else c!"bash"
  | none => c!"bash"

/-- source_bindings.rs:176: dashes and points become underscores. -/
def plain (c : Char) : Char := if c = '-' ∨ c = '.' then '_' else c

/-- source_bindings.rs:174-180: the variable of a package and its value. -/
def packageVar (pkg : Str) : Str × Str :=
  match splitOnce c!"-" pkg with
  | some (n, v) => (c!"REZPKG_" ++ (Environment.upper n).map plain, v)
  | none => (c!"REZPKG_" ++ (Environment.upper pkg).map plain, [])

/-- source_bindings.rs:156-171: the variables before those of the packages. -/
def firstVars (h : Here) (pkgs : List Str) : List (Str × Str) :=
  let m := mset (mset [] c!"REZ_CONTEXT_FILE" (Which.join h.temp c!"rez_context.rxt")) c!"REZ_RESOLVE" (joinWith c!" " pkgs)
  match getVar h c!"REZ_PACKAGES_PATH" with
  | some p => mset m c!"REZ_PACKAGES_PATH" p
  | none => m

/-- source_bindings.rs:156-180: the variables. -/
def allVars (h : Here) (pkgs : List Str) : List (Str × Str) :=
  pkgs.foldl (fun m p => mset m (packageVar p).1 (packageVar p).2) (firstVars h pkgs)

/-- source_bindings.rs:185-189: the header. -/
def header (pkgs : List Str) (shell : Str) : Str :=
  c!"# rez-next activation script (" ++ shell ++ c!")\n# packages: " ++ joinWith c!", " pkgs ++ c!"\n"

/-- source_bindings.rs:152-192 `build_activation_script`. -/
def build (h : Here) (pkgs : List Str) (shell : Str) : Str :=
  header pkgs shell ++ script { Env.new with vars := allVars h pkgs } (shellOf shell)

/-- source_bindings.rs:36-39 `PySourceManager`. -/
structure Manager where
  packages : List Str
  shell : Str

/-- source_bindings.rs:46-52 `new`. -/
def Manager.new (h : Here) (pkgs : List Str) (shell : Option Str) : Manager := ⟨pkgs, shell.getD (detectShell h)⟩

/-- source_bindings.rs:99-102 `get_activation_script_content`. -/
def Manager.content (m : Manager) (h : Here) (shell : Option Str) : Str := build h m.packages (shell.getD m.shell)

/-- source_bindings.rs:58-81 `write_activation_script`: what is returned, and the file written. -/
def Manager.write (m : Manager) (h : Here) (dest : Str) (shell : Option Str) : Outcome (Str × Option (Str × Str)) :=
  if !h.makeParent dest || !h.canWrite dest then .err
  else .ok ((h.canonical dest).getD dest, some (dest, build h m.packages (shell.getD m.shell)))

/-- source_bindings.rs:87-91, 269-273: the ending of a temporary file. -/
def extension (shell : Str) : Str :=
  if shell = c!"powershell" ∨ shell = c!"pwsh" then c!"ps1" else if shell = c!"cmd" then c!"bat" else c!"sh"

/-- source_bindings.rs:92-93, 274-278: the temporary file. -/
def tempFile (h : Here) (shell : Str) : Str :=
  Which.join h.temp (c!"rez_next_activate_" ++ decimal h.pid ++ c!"." ++ extension shell)

/-- source_bindings.rs:85-95 `write_temp_activation_script`. -/
def Manager.writeTemp (m : Manager) (h : Here) (shell : Option Str) : Outcome (Str × Option (Str × Str)) :=
  m.write h (tempFile h (shell.getD m.shell)) shell

/-- source_bindings.rs:240-295 `resolve_source_mode`. -/
def resolveMode (h : Here) (pkgs : List Str) (shell mode : Str) : Outcome (Str × Option (Str × Str)) :=
  let sh := if shell = c!"auto" ∨ shell = [] then detectShell h else shell
  if mode = c!"inline" then .ok (build h pkgs sh, none)
  else if mode = c!"tempfile" then
    if h.canWrite (tempFile h sh) then .ok (tempFile h sh, some (tempFile h sh, build h pkgs sh)) else .err
  else if c!"file:".isPrefixOf mode then
    let dest := mode.drop 5
    if !h.makeParent dest || !h.canWrite dest then .err else .ok (dest, some (dest, build h pkgs sh))
  else .err

/-! ## Status -/

/-- status_bindings.rs:18-45 `PyRezStatus`. -/
structure Status where
  active : Bool
  contextFile : Option Str
  resolved : List Str
  shell : Option Str
  version : Option Str
  cwd : Option Str
  requested : List Str
  implicit : List Str
  vars : List (Str × Str)

/-- `split_whitespace` on a variable that may not be there. -/
def wordsOf (v : Option Str) : List Str := (v.map splitWs).getD []

/-- status_bindings.rs:141-185 `detect_current_status`.  `std::env::vars` panics on a value that is not Unicode. -/
def detect (h : Here) : Outcome Status :=
  if h.env.any fun x => x.2.isNone then .panic
  else
    let vars := (h.env.filterMap fun x => x.2.map fun v => (x.1, v)).filter fun x => c!"REZ_".isPrefixOf x.1
    let get := mget vars
    .ok {
      active := (get c!"REZ_CONTEXT_FILE").isSome || (get c!"REZ_USED_PACKAGES_NAMES").isSome
      contextFile := get c!"REZ_CONTEXT_FILE"
      resolved := wordsOf (get c!"REZ_USED_PACKAGES_NAMES")
      shell := some (detectShell h)
      version := get c!"REZ_VERSION"
      cwd := get c!"REZ_ORIG_CWD"
      requested := wordsOf (get c!"REZ_REQUEST")
      implicit := wordsOf (get c!"REZ_IMPLICIT_PACKAGES")
      vars := vars }

/-- status_bindings.rs:64-73 `__repr__`. -/
def Status.repr (s : Status) : Str :=
  if s.active then c!"RezStatus(active, " ++ decimal s.resolved.length ++ c!" packages)" else c!"RezStatus(inactive)"

/-- status_bindings.rs:112-135 `print_status`. -/
def Status.print (s : Status) : Str :=
  if s.active then
    c!"Current rez context:\n" ++ (s.contextFile.elim [] fun f => c!"  context file : " ++ f ++ c!"\n") ++
    (s.cwd.elim [] fun f => c!"  created in   : " ++ f ++ c!"\n") ++ (s.shell.elim [] fun f => c!"  shell        : " ++ f ++ c!"\n") ++
    (s.version.elim [] fun f => c!"  rez version  : " ++ f ++ c!"\n") ++
    c!"  packages (" ++ decimal s.resolved.length ++ c!"):\n" ++ s.resolved.flatMap fun p => c!"    " ++ p ++ c!"\n"
  else c!"Not in a rez context.\n"

/-- status_bindings.rs:205-207 `is_in_rez_context`. -/
def inContext (h : Here) : Bool := (getVar h c!"REZ_CONTEXT_FILE").isSome || (getVar h c!"REZ_USED_PACKAGES_NAMES").isSome

/-- status_bindings.rs:211-213 `get_context_file`. -/
def contextFile (h : Here) : Option Str := getVar h c!"REZ_CONTEXT_FILE"

/-- status_bindings.rs:219-223 `get_resolved_package_names`. -/
def resolvedNames (h : Here) : List Str := wordsOf (getVar h c!"REZ_USED_PACKAGES_NAMES")

/-- status_bindings.rs:228-235 `get_rez_env_var`. -/
def rezVar (h : Here) (key : Str) : Option Str :=
  getVar h (if c!"REZ_".isPrefixOf key then key else c!"REZ_" ++ Environment.upper key)

end Rez.Source
