import Verif.Model.Rex
import Mathlib.Data.List.Sort
/-!
# `rez-next-context/src/environment.rs`: the environment of a resolved context

Not on Windows: `environment_key` (545-551) is the identity and the path separator is `:`.
-/
namespace Rez.Environment
open Rez.Rex

/-- What environment generation reads of a package: `version` is its text, `root` is `package_root` (274-278),
`toolPath` is `package_tool_path` (284-297), which looks at the file system. -/
structure Pkg where
  name : Str
  version : Option Str
  root : Str
  pre : Option Str
  commands : Option Str
  post : Option Str
  tools : List Str
  toolPath : Str

/-- config.rs `PathStrategy`. -/
inductive Strategy | prepend | append | replace | noModify
deriving DecidableEq

/-- The parts of `ContextConfig` used here; `additional` in the order in which the map is iterated. -/
structure Config where
  strategy : Strategy
  additional : List (Str × Str)
  unset : List Str

/-- environment.rs:27-38 `EnvOperation`. -/
inductive Op where
  | set (value : Str)
  | prepend (value sep : Str)
  | append (value sep : Str)
  | unset
  | setIfEmpty (value : Str)

/-- environment.rs:42-51 `EnvVarDefinition` (without the source package); the priority is an `i32`, here a natural. -/
structure Defn where
  name : Str
  op : Op
  priority : Nat

/-- environment.rs:218-254: the operation of a statement on variables; `none` for the others. -/
def opOf : Action → Option (Str × Op)
  | .setenv n v => some (n, .set v)
  | .unsetenv n => some (n, .unset)
  | .prependPath n v sep => some (n, .prepend v (sep.getD c!":"))
  | .appendPath n v sep => some (n, .append v (sep.getD c!":"))
  | .setenvIfEmpty n v => some (n, .setIfEmpty v)
  | _ => none

/-- environment.rs:210-222: the statements of a text of a package. -/
def statements (iter : List (Str × Str) → List (Str × Str)) (p : Pkg) (text : Str) : Option (List Action) :=
  let x := Executor.new.setVar c!"root" p.root
  let x := match p.version with
    | some v => x.setVar c!"version" v
    | none => x
  let x := x.setVar c!"name" p.name
  match x.execute iter text p.name (some p.root) p.version with
  | (x, some _) => some x.actions
  | (_, none) => none

/-- environment.rs:202-272 `rex_effects`. -/
def rexEffects (iter : List (Str × Str) → List (Str × Str)) (p : Pkg) (text : Str) (priority : Nat) :
    Option (List Defn × List Action) :=
  (statements iter p text).map fun acts =>
    (acts.filterMap fun a => (opOf a).map fun x => ⟨x.1, x.2, priority⟩, acts.filter fun a => (opOf a).isNone)

/-- `str::to_uppercase` (ASCII letters). -/
def upper (s : Str) : Str := s.map upperChar

/-- environment.rs:172-199 `package_metadata_definitions`. -/
def metadata (p : Pkg) (priority : Nat) : List Defn :=
  ⟨upper p.name ++ c!"_ROOT", .set p.root, priority⟩ ::
    match p.version with
    | some v => [⟨upper p.name ++ c!"_VERSION", .set v, priority⟩]
    | none => []

/-- environment.rs:114-117: the metadata of all packages. -/
def allMetadata : List Pkg → Nat → List Defn
  | [], _ => []
  | p :: ps, k => metadata p k ++ allMetadata ps (k + 1)

/-- environment.rs:128-137: one phase. -/
def phase (iter : List (Str × Str) → List (Str × Str)) (text : Pkg → Option Str) :
    List Pkg → Nat → Option (List Defn × List Action)
  | [], _ => some ([], [])
  | p :: ps, k =>
    match text p with
    | none => phase iter text ps (k + 1)
    | some t => (rexEffects iter p t k).bind fun x => (phase iter text ps (k + 1)).map fun y => (x.1 ++ y.1, x.2 ++ y.2)

/-- environment.rs:300-337 `apply_env_definition`. -/
def applyDef (m : List (Str × Str)) (d : Defn) : List (Str × Str) :=
  match d.op with
  | .set v => mset m d.name v
  | .prepend v sep => mset m d.name (prepended v sep (mget m d.name))
  | .append v sep => mset m d.name (appended v sep (mget m d.name))
  | .unset => mdel m d.name
  | .setIfEmpty v => if (mget m d.name).isSome then m else mset m d.name v

/-- environment.rs:349-360: the tool paths, each once. -/
def toolPaths (pkgs : List Pkg) : List Str :=
  pkgs.foldl (fun acc p => p.tools.foldl (fun acc _ => if acc.contains p.toolPath then acc else acc ++ [p.toolPath]) acc) []

/-- environment.rs:340-391 `apply_path_modifications`. -/
def applyPath (cfg : Config) (pkgs : List Pkg) (m : List (Str × Str)) : List (Str × Str) :=
  if cfg.strategy = .noModify then m
  else if (toolPaths pkgs).isEmpty then m
  else
    let new := joinWith c!":" (toolPaths pkgs)
    let current := (mget m c!"PATH").getD []
    mset m c!"PATH" (match cfg.strategy with
      | .prepend => if current.isEmpty then new else new ++ c!":" ++ current
      | .append => if current.isEmpty then new else current ++ c!":" ++ new
      | .replace => new
      | .noModify => current)

/-- `eq_ignore_ascii_case`. -/
def eqIgnoreCase (a b : Str) : Bool := a.map lowerChar == b.map lowerChar

/-- environment.rs:569-578: the entries not seen before. -/
def unseen : List Str → List Str → List Str
  | _, [] => []
  | seen, x :: xs => if seen.contains x then unseen seen xs else x :: unseen (x :: seen) xs

/-- environment.rs:567-580: the value of a path variable without its duplicates. -/
def dedup (path : Str) : Str := joinWith c!":" (unseen [] (splitChar ':' path))

/-- environment.rs:558-581 `normalize_environment_paths`; the map in the order of iteration. -/
def normalize (m : List (Str × Str)) : List (Str × Str) :=
  let key := ((mkeys m).find? fun k => eqIgnoreCase k c!"PATH").getD c!"PATH"
  match mget m key with
  | none => m
  | some path => mset m key (dedup path)

/-- environment.rs:103-170 `generate_rex_environment`; `iter` is the order in which the maps of context variables are
iterated, `order` the order in which the map of variables is iterated for the normalisation. -/
def generate (iter order : List (Str × Str) → List (Str × Str)) (cfg : Config) (base : List (Str × Str))
    (pkgs : List Pkg) : Option Env :=
  let n := pkgs.length
  (phase iter Pkg.pre pkgs n).bind fun a => (phase iter Pkg.commands pkgs (2 * n)).bind fun b =>
  (phase iter Pkg.post pkgs (3 * n)).map fun c =>
    let additional := cfg.additional.map fun x => (⟨x.1, .set x.2, 4 * n⟩ : Defn)
    let defs := allMetadata pkgs 0 ++ a.1 ++ b.1 ++ c.1 ++ additional
    let sorted := defs.insertionSort fun d d' => d.priority ≤ d'.priority
    let vars := sorted.foldl applyDef base
    let vars := applyPath cfg pkgs vars
    let vars := cfg.unset.foldl mdel vars
    let vars := normalize (order vars)
    apply { Env.new with vars := vars } (a.2 ++ b.2 ++ c.2)

/-! ## Differences -/

/-- environment.rs:514-523 `EnvDiff`. -/
structure Diff where
  added : List (Str × Str)
  modified : List (Str × (Str × Str))
  removed : List Str

/-- environment.rs:480-511 `get_env_diff`; both maps in the order of iteration. -/
def diff (base vars : List (Str × Str)) : Diff where
  added := vars.filter fun x => (mget base x.1).isNone
  modified := vars.filterMap fun x => (mget base x.1).bind fun b => if b ≠ x.2 then some (x.1, (b, x.2)) else none
  removed := (mkeys base).filter fun k => (mget vars k).isNone

/-- environment.rs:527-529 `is_empty`. -/
def Diff.isEmpty (d : Diff) : Bool := d.added.isEmpty && d.modified.isEmpty && d.removed.isEmpty

/-- environment.rs:532-534 `change_count`. -/
def Diff.count (d : Diff) : Nat := d.added.length + d.modified.length + d.removed.length

end Rez.Environment
