import Verif.Model.Requirement
import Verif.Model.Search
import Verif.Model.Rex
import Verif.Model.Util
/-!
# `rez-next-context/src/context.rs`, `resolved_context.rs`, `serialization.rs`, `execution.rs`, `shell.rs`

Packages, requirements, variables and files of a context.  Running processes, timeouts, shell detection and the formats
JSON, YAML and base64 are not modelled; the latter are parameters.
-/
namespace Rez.Context
open Rez Rez.Search Rez.Rex

/-- The fields of a package that this code reads. -/
structure Pkg where
  name : Str
  version : Option Version
  requires : List Str
  buildRequires : List Str
  privateRequires : List Str
  variants : List (List Str)
  tools : List Str
  commands : Option Str

/-- context.rs:14-50 `struct ResolvedContext`; fields that only are stored are left out. -/
structure Ctx where
  id : Str
  name : Option Str
  requirements : List PackageRequirement
  packages : List Pkg
  vars : List (Str × Str)

/-- context.rs:131-133 `get_package`. -/
def Ctx.get (c : Ctx) (name : Str) : Option Pkg := c.packages.find? fun p => p.name == name

/-- context.rs:149-151 `contains_package`. -/
def Ctx.contains (c : Ctx) (name : Str) : Bool := c.packages.any fun p => p.name == name

/-- context.rs:203-211 `get_all_tools`. -/
def Ctx.allTools (c : Ctx) : List Str := dedup (sortStr (c.packages.flatMap Pkg.tools))

/-- context.rs:221-233 `satisfies_requirement`: the loop. -/
def satisfies (r : PackageRequirement) : List Pkg → Bool
  | [] => false
  | p :: ps =>
    if p.name = r.name then
      match p.version with
      | some v => r.satisfiedBy v
      | none => true
    else satisfies r ps

/-- package/methods.rs:137-196 `Package::validate`; `alnum` stands for `char::is_alphanumeric`. -/
def Pkg.validate (alnum : Char → Bool) (p : Pkg) : Bool :=
  if p.name.isEmpty then false
  else if !(p.name.all fun c => alnum c || c == '_' || c == '-') then false
  else if p.version.any (fun v => v.asStr.isEmpty) then false
  else if p.requires.any List.isEmpty then false
  else if p.buildRequires.any List.isEmpty then false
  else if p.privateRequires.any List.isEmpty then false
  else if p.variants.any (fun v => v.any List.isEmpty) then false
  else true

/-- context.rs:262-281 `validate`: is the result `Ok`? -/
def Ctx.validate (alnum : Char → Bool) (c : Ctx) : Bool :=
  if c.requirements.any (fun r => !satisfies r c.packages) then false
  else if c.packages.any (fun p => !p.validate alnum) then false
  else true

/-! ## Processes -/

/-- `HashMap::extend`, and `Command::env` for each entry. -/
def extend (m es : List (Str × Str)) : List (Str × Str) := es.foldl (fun m e => mset m e.1 e.2) m

/-- execution.rs:14-27 `struct ExecutionConfig`, as far as the variables of a process depend on it. -/
structure ExecConfig where
  inherit : Bool
  additional : List (Str × Str)

/-- execution.rs:60-80, 191-208: the environment of the shell executor, at creation and after `set_config`. -/
def executorVars (iter : List (Str × Str) → List (Str × Str)) (vars : List (Str × Str)) (c : ExecConfig) : List (Str × Str) :=
  extend vars (iter c.additional)

/-- The calls that start a process. -/
inductive Launch where
  | execute | background | batch | script | interactive | spawn
deriving DecidableEq

/-- shell.rs:226-232 `execute`, 275-280 `execute_background`, 293-304 `execute_batch`, 344-347 `execute_script`, 383-386
`start_interactive_shell`, execution.rs:117-148 `spawn_process`: the variables of the process; `parent` are those of the
calling process. -/
def childVars (iter : List (Str × Str) → List (Str × Str)) (parent vars : List (Str × Str)) (c : ExecConfig) :
    Launch → List (Str × Str)
  | .execute | .background | .batch =>
    extend (if c.inherit then parent else []) (iter (executorVars iter vars c))
  | .script | .interactive => extend parent (iter (executorVars iter vars c))
  | .spawn => extend (extend (if c.inherit then parent else []) (iter vars)) (iter c.additional)

/-! ## Files -/

/-- serialization.rs:8-15 `enum ContextFormat`. -/
inductive Format where
  | json | binary
deriving DecidableEq

/-- The part after the last `d`, if there is a `d`, and the part before it. -/
def splitLast (d : Char) (s : Str) : Option (Str × Str) :=
  match (splitChar d s).reverse with
  | last :: p :: ps => some (joinWith [d] (p :: ps).reverse, last)
  | _ => none

/-- `Path::extension` of a path that does not end in `/`, `.` or `..`. -/
def extension (path : Str) : Option Str :=
  match splitLast '.' ((splitLast '/' path).elim path Prod.snd) with
  | some (stem, ext) => if stem.isEmpty then none else some ext
  | none => none

/-- serialization.rs:27-33 `from_extension`. -/
def formatOf (path : Str) : Option Format :=
  match extension path with
  | some e => if e = c!"rxt" then some .json else if e = c!"rxtb" then some .binary else none
  | none => none

/-- The codec: what a context is written as in each format, and reading (which is the same for both). -/
structure Codec (Bytes : Type) where
  enc : Format → Ctx → Bytes
  dec : Bytes → Option Ctx

variable {Bytes : Type}

/-- serialization.rs:41-66 `save_to_file`; files by path.  Directories are left out. -/
def save (k : Codec Bytes) (files : List (Str × Bytes)) (c : Ctx) (path : Str) (f : Format) : List (Str × Bytes) :=
  mset files path (k.enc f c)

/-- serialization.rs:61: the files if the process dies when `n` characters are written (`fs::write` empties the file first). -/
def saveCut (k : Codec Str) (files : List (Str × Str)) (c : Ctx) (path : Str) (f : Format) (n : Nat) : List (Str × Str) :=
  mset files path ((k.enc f c).take n)

/-- serialization.rs:69-86, 117-132 `load_from_file`. -/
def load (k : Codec Bytes) (files : List (Str × Bytes)) (path : Str) : Option Ctx :=
  match formatOf path with
  | some _ => (mget files path).bind k.dec
  | none => none

/-- serialization.rs:330-335 `get_default_filename`; `lower` stands for `to_lowercase`. -/
def defaultName (lower : Str → Str) (c : Ctx) : Outcome Str :=
  match c.name with
  | some n => .ok (lower (n.map fun x => if x = ' ' then '_' else x) ++ c!".rxt")
  | none =>
    match Util.prefixBytes 8 c.id with
    | some i => .ok (c!"context_" ++ i ++ c!".rxt")
    | none => .panic

/-- serialization.rs:366-385 `find_context_files`: the files of a directory that are context files, sorted. -/
def findFiles (entries : List (Str × Bool)) : List Str :=
  sortStr ((entries.filter fun e => e.2 && (formatOf e.1).isSome).map Prod.fst)

/-- serialization.rs:197-212 `export_to_env_file`. -/
def exportEnv (iter : List (Str × Str) → List (Str × Str)) (c : Ctx) : Str :=
  c!"# Generated by rez-core\n" ++ (c!"# Context: " ++ c.id ++ c!"\n") ++
  (match c.name with | some n => c!"# Name: " ++ n ++ c!"\n" | none => []) ++ c!"\n" ++
  (iter c.vars).flatMap fun e => e.1 ++ c!"=" ++ e.2 ++ c!"\n"

/-! ## resolved_context.rs -/

/-- resolved_context.rs:54-73 `struct ResolvedPackage`, as far as it is read. -/
structure Resolved where
  pkg : Pkg
  variant : Option Nat
  root : Str

/-- resolved_context.rs:110-117 `get_variant`. -/
def getVariant (ps : List Resolved) (name : Str) : Option (List Str) :=
  match ps.find? fun r => r.pkg.name == name with
  | some r =>
    match r.variant with
    | some i => r.pkg.variants[i]?
    | none => none
  | none => none

/-- resolved_context.rs:133-145 `get_tools`: tool names and paths. -/
def getTools (ps : List Resolved) : List (Str × Str) :=
  extend [] (ps.flatMap fun r => r.pkg.tools.map fun t => (t, r.root ++ c!"/bin/" ++ t))

/-- resolved_context.rs:237-240: the references to variables of the environment, in the order of the hash map. -/
def expandVars (order : List (Str × Str)) (s : Str) : Str :=
  order.foldl (fun s e => replaceAll (c!"${" ++ e.1 ++ c!"}") e.2 s) s

/-- resolved_context.rs:221-224, 227-229: one replacement, if there is a value. -/
def replaceOpt (pat : Str) (value : Option Str) (s : Str) : Str :=
  match value with
  | some v => replaceAll pat v s
  | none => s

/-- resolved_context.rs:213-243 `expand_variables`. -/
def expandValue (order : List (Str × Str)) (r : Resolved) (value : Str) : Str :=
  let s := replaceAll c!"{root}" r.root value
  let s := replaceOpt c!"{version}" (r.pkg.version.map Version.asStr) s
  let s := replaceOpt c!"{variant_index}" (r.variant.map decimal) s
  expandVars order s

/-- `str::trim_matches('"')`. -/
def trimQuotes (s : Str) : Str := ((s.dropWhile (· == '"')).reverse.dropWhile (· == '"')).reverse

/-- resolved_context.rs:178-210 `apply_export_command`; `iter` is the order of the hash map. -/
def applyExport (iter : List (Str × Str) → List (Str × Str)) (r : Resolved) (env : List (Str × Str)) (command : Str) :
    List (Str × Str) :=
  match splitOnce c!"=" (command.drop 7) with
  | none => env
  | some (name, value) =>
    let name := trim name
    let value := trimQuotes value
    let expanded := expandValue (iter env) r value
    let existing := (mget env name).getD []
    if containsStr value (c!"${" ++ name ++ c!"}:") then
      mset env name (replaceAll (c!"${" ++ name ++ c!"}:") (existing ++ c!":") expanded)
    else if containsStr value (c!":${" ++ name ++ c!"}") then
      mset env name (replaceAll (c!":${" ++ name ++ c!"}") (c!":" ++ existing) expanded)
    else mset env name expanded

/-- resolved_context.rs:160-175 `apply_package_commands`; `lines` stands for `str::lines`. -/
def applyCommands (lines : Str → List Str) (iter : List (Str × Str) → List (Str × Str)) (r : Resolved)
    (env : List (Str × Str)) (commands : Str) : List (Str × Str) :=
  (lines commands).foldl (fun env l =>
    if c!"export ".isPrefixOf (trim l) then applyExport iter r env (trim l) else env) env

/-- resolved_context.rs:148-157 `get_environ`; `system` are the variables of the process. -/
def getEnviron (lines : Str → List Str) (iter : List (Str × Str) → List (Str × Str)) (system : List (Str × Str))
    (ps : List Resolved) : List (Str × Str) :=
  ps.foldl (fun env r => match r.pkg.commands with
    | some c => applyCommands lines iter r env c
    | none => env) system

end Rez.Context
