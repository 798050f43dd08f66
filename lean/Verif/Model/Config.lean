import Verif.Base.Json
/-!
# Configuration: /repo/crates/rez-next-config/src/lib.rs and /repo/crates/rez-next-common/src/config.rs
-/
namespace Rez.Config
open Rez

/-! ## rez-next-config: layers of JSON -/

mutual
/-- lib.rs:234-260 `merge_value`. -/
def merge : Json → Json → Json
  | .null, b => b
  | .obj m, .obj n => .obj (mergeFields m n)
  | _, b => b
/-- lib.rs:242-256: the fields of the new object in turn. -/
def mergeFields (m : List (Str × Json)) : List (Str × Json) → List (Str × Json)
  | [] => m
  | (k, v) :: rest =>
    match mget m k with
    | some (.obj e) => mergeFields (mset m k (mergeInto e v)) rest
    | _ => mergeFields (mset m k v) rest
/-- lib.rs:244-250: an object meets a value. -/
def mergeInto (e : List (Str × Json)) : Json → Json
  | .obj f => .obj (mergeFields e f)
  | v => v
end

/-- lib.rs:133-138: the loop of `get`. -/
def walk : Json → List Str → Option Json
  | j, [] => some j
  | j, k :: ks => (j.get k).bind fun v => walk v ks

/-- lib.rs:129-139 `get`. -/
def lookup (j : Json) (key : Str) : Option Json := walk j (splitChar '.' key)

/-- lib.rs:352-377 `set_nested_value` and `get_or_create_nested`: `path` are all segments but the last. -/
def setAt (value : Json) (last : Str) : Json → List Str → Json
  | .obj m, [] => .obj (mset m last value)
  | j, [] => j
  | .obj m, s :: ss => .obj (mset m s (setAt value last ((mget m s).getD (.obj [])) ss))
  | _, s :: ss => .obj (mset [] s (setAt value last (.obj []) ss))

/-- lib.rs:352-361 `set_nested_value`; `split` never gives an empty list. -/
def setNested (root : Json) (dotted : Str) (value : Json) : Json :=
  let segments := splitChar '.' dotted
  setAt value (segments.getLastD []) root segments.dropLast

/-- lib.rs:270-272: the dotted key of an environment variable, if its name starts with `REZ_`; `lower` stands for
`str::to_lowercase`. -/
def envKey (lower : Str → Str) (name : Str) : Option Str :=
  if c!"REZ_".isPrefixOf name then some ((lower (name.drop 4)).map fun c => if c = '_' then '.' else c) else none

/-- lib.rs:273-274: the value of an environment variable; `parse` stands for `serde_json::from_str`. -/
def envValue (parse : Str → Option Json) (value : Str) : Json := (parse value).getD (.str value)

/-- lib.rs:267-283 `apply_env_overrides`, for the variables in the order of `env::vars`. -/
def overrides (lower : Str → Str) (parse : Str → Option Json) : Json → List (Str × Str) → Json
  | j, [] => j
  | j, (name, value) :: env =>
    match envKey lower name with
    | some key => overrides lower parse (setNested j key (envValue parse value)) env
    | none => overrides lower parse j env

/-- lib.rs:51-60 `enum ConfigSource`. -/
inductive Source where
  | environment | project | user | system
deriving DecidableEq, Repr

/-- A configuration file: absent, unreadable, or its value (lib.rs:174-231; the three text formats are not modelled). -/
inductive FileState where
  | absent
  | bad
  | value (j : Json)

/-- lib.rs:74-81 `struct Config`. -/
structure Config where
  data : Json
  sources : List Source
  locked : Bool

/-- lib.rs:85-92 `new`. -/
def Config.new : Config := ⟨.obj [], [], false⟩

/-- lib.rs:99-111, 174-231 `merge_file`. -/
def Config.mergeFile (c : Config) (f : FileState) (s : Source) : Option Config :=
  match f with
  | .absent => some c
  | .bad => none
  | .value j => some { c with data := merge c.data j, sources := if c.sources.contains s then c.sources else c.sources ++ [s] }

/-- lib.rs:95-119 `load`. -/
def load (lower : Str → Str) (parse : Str → Option Json) (system user project : FileState) (env : List (Str × Str)) :
    Option Config :=
  (Config.new.mergeFile system .system).bind fun c =>
  (c.mergeFile user .user).bind fun c =>
  (c.mergeFile project .project).bind fun c =>
  some (if !c.locked then { c with data := overrides lower parse c.data env } else c)

/-! ## rez-next-common: the configuration of the command line -/

/-- common/config.rs:10-65 `struct RezCoreConfig`; the fields that `load` does not touch are one value. -/
structure Core where
  packagesPath : List Str
  localPath : Str
  releasePath : Str
  other : Json

/-- common/config.rs:259-267 `split_env_paths` on Unix. -/
def splitPaths (s : Str) : List Str := ((splitChar ':' s).map trim).filter fun p => !p.isEmpty

/-- What `get_search_paths` reads: the directory of the executable and three environment variables. -/
structure Env where
  exeDir : Option Str
  configFile : Option Str
  disableHome : Option Str
  home : Option Str
  packages : Option Str
  localPkgs : Option Str
  release : Option Str

/-- common/config.rs:137-189 `get_search_paths` on Unix, where `MAIN_SEPARATOR` is `/`.  `Path::join` is a slash between
the parts; `to_lowercase` makes no difference to the comparison with `1`. -/
def searchPaths (e : Env) : List Str :=
  (match e.exeDir with
    | some d => [d ++ c!"/rezconfig.yaml", d ++ c!"/rezconfig.json"]
    | none => []) ++
  (match e.configFile with
    | some f => splitChar '/' f
    | none => []) ++
  [c!"/etc/rez/config.yaml", c!"/usr/local/etc/rez/config.yaml"] ++
  (if e.disableHome.getD [] ≠ c!"1" then
    match e.home with
    | some h => [h ++ c!"/.rezconfig", h ++ c!"/.rezconfig.yaml", h ++ c!"/.rez/config.yaml"]
    | none => []
  else [])

/-- common/config.rs:205-223: the first file that can be read; `read` is the text of a file, `yaml` and `json` the two
readers. -/
def firstFile (read : Str → Option Str) (yaml json : Str → Option Core) (default : Core) : List Str → Core
  | [] => default
  | p :: ps =>
    match (read p).bind fun text => (yaml text).or (json text) with
    | some c => c
    | none => firstFile read yaml json default ps

/-- common/config.rs:202-238 `load`. -/
def Core.load (read : Str → Option Str) (yaml json : Str → Option Core) (default : Core) (e : Env) : Core :=
  let c := firstFile read yaml json default (searchPaths e)
  let c := match e.packages with
    | some p => { c with packagesPath := splitPaths p }
    | none => c
  let c := match e.localPkgs with
    | some p => { c with localPath := p }
    | none => c
  match e.release with
  | some p => { c with releasePath := p }
  | none => c

end Rez.Config
