import Verif.Base.Map
/-!
# The directories and variables of a build: `rez-next-build/src/environment.rs`, `builder.rs`

Paths are text, as the code joins and prints them.  On Unix; the Windows forms are only told apart as the code does it.
What the machine decides (the home directory, the current directory, the number of threads, the files there) is a
parameter.  Left out: the event sender and the scripts that print the variables.
-/
namespace Rez.Build
open Rez

/-- `Path::join` on Unix: an absolute path takes the place of the first. -/
def pjoin (a b : Str) : Str :=
  if b.head? = some '/' then b
  else if a = [] then b
  else if a.getLast? = some '/' then a ++ b
  else a ++ '/' :: b

/-- What a build asks of the machine.  `nameOf` is the name in a requirement, or its text where that does not parse
(environment.rs:307-313); `hash` is builder.rs:165-178 `variant_hash`. -/
structure Machine where
  home : Option Str
  cwd : Str
  threads : Str
  exists_ : Str → Bool
  nameOf : Str → Str
  hash : List Str → Str
  shownIndex : Nat → Str

/-- The part of a package that a build environment reads. -/
structure Pack where
  name : Str
  version : Option Str
  description : Str
  filepath : Option Str
  requires : List Str
  buildRequires : List Str
  privateBuildRequires : List Str
  variants : List (List Str)

/-- builder.rs:104-122 `struct BuildRequest`: `env` is `options.env_vars`, `context` the variables of the resolved
context. -/
structure Request where
  package : Pack
  context : Option (List (Str × Str))
  sourceDir : Str
  variantIndex : Option Nat
  variantRequires : Option (List Str)
  env : List (Str × Str)
  installPath : Option Str

/-- The part of builder.rs:26-46 `struct BuildConfig` that decides the environment. -/
structure Settings where
  buildDir : Str
  env : List (Str × Str)

/-- environment.rs:15-33 `struct BuildEnvironment`. -/
structure Env where
  buildDir : Str
  installDir : Str
  tempDir : Str
  vars : List (Str × Str)

/-- environment.rs:447-464 `validate_unc_path`. -/
def uncOk (s : Str) : Bool :=
  match splitChar '\\' (s.drop 2) with
  | a :: b :: _ => !a.isEmpty && !b.isEmpty
  | _ => false

/-- environment.rs:401-434 `normalize_build_path`.  `path_str.len()` counts bytes, but a second character needs two of
them. -/
def normalize (m : Machine) (s : Str) : Option Str :=
  if c!"~/".isPrefixOf s then m.home.map fun h => pjoin h (s.drop 2)
  else if c!"\\\\".isPrefixOf s then (if uncOk s then some s else none)
  else if (s.drop 1).head? = some ':' then (if (s.head?.map isAlpha) = some true then some s else none)
  else if s.head? = some '/' then some s
  else some (pjoin m.cwd s)

/-- `HashMap::insert` of every entry, in turn. -/
def insertAll (vars : List (Str × Str)) (l : List (Str × Str)) : List (Str × Str) := l.foldl (fun v e => mset v e.1 e.2) vars

/-- The version, or environment.rs:11 `DEFAULT_BUILD_VERSION`. -/
def Pack.versionText (p : Pack) : Str := p.version.getD c!"0.0.0"

/-- environment.rs:292-323 `set_build_requirements`. -/
def setBuildRequirements (m : Machine) (p : Pack) (variantRequires : List Str) (vars : List (Str × Str)) : List (Str × Str) :=
  let reqs := p.requires ++ p.buildRequires ++ p.privateBuildRequires ++ variantRequires
  insertAll vars [(c!"REZ_BUILD_REQUIRES", joinWith c!" " reqs),
    (c!"REZ_BUILD_REQUIRES_UNVERSIONED", joinWith c!" " (reqs.map m.nameOf))]

/-- environment.rs:45-144 `with_install_path`.  Left out: line 130 sets two variables that `set_source_path` sets again. -/
def withInstallPath (m : Machine) (p : Pack) (base : Str) (context : Option (List (Str × Str))) (install : Option Str) :
    Option Env :=
  (normalize m base).map fun root =>
    let buildDir := pjoin root p.name
    let installDir := match install with
      | some i => pjoin (pjoin i p.name) p.versionText
      | none => pjoin buildDir c!"install"
    let vars := insertAll []
      [(c!"REZ_BUILD_ENV", c!"1"), (c!"REZ_BUILD_TYPE", c!"local"),
       (c!"REZ_BUILD_INSTALL", if install.isSome then c!"1" else c!"0"),
       (c!"REZ_BUILD_PACKAGE_NAME", p.name), (c!"REZ_BUILD_PROJECT_NAME", p.name),
       (c!"REZ_BUILD_PACKAGE_VERSION", p.versionText), (c!"REZ_BUILD_PROJECT_VERSION", p.versionText),
       (c!"REZ_BUILD_INSTALL_PATH", installDir), (c!"REZ_BUILD_PATH", buildDir),
       (c!"REZ_BUILD_PROJECT_DESCRIPTION", trim p.description), (c!"REZ_BUILD_THREAD_COUNT", m.threads),
       (c!"REZ_BUILD_VARIANT_INDEX", c!"0"), (c!"REZ_BUILD_VARIANT_REQUIRES", []), (c!"REZ_BUILD_VARIANT_SUBPATH", [])]
    ⟨buildDir, installDir, pjoin buildDir c!"tmp",
      insertAll (setBuildRequirements m p [] vars) (context.getD [])⟩

/-- environment.rs:277-290 `project_file_for_source`. -/
def projectFile (m : Machine) (p : Pack) (source : Str) : Str :=
  p.filepath.getD
    (([c!"package.py", c!"package.yaml", c!"package.yml"].map (pjoin source)).find? m.exists_ |>.getD
      (pjoin source c!"package.py"))

/-- environment.rs:238-250 `set_source_path`. -/
def Env.setSource (m : Machine) (p : Pack) (source : Str) (e : Env) : Env :=
  { e with vars :=
      (insertAll e.vars
        [(c!"REZ_BUILD_SOURCE_PATH", source), (c!"REZ_BUILD_PROJECT_FILE", projectFile m p source)]) }

/-- environment.rs:217-228 `set_variant_env`. -/
def Env.setVariant (m : Machine) (p : Pack) (index : Nat) (requires : List Str) (e : Env) : Env :=
  { e with vars := setBuildRequirements m p requires (insertAll e.vars
      [(c!"REZ_BUILD_VARIANT_INDEX", m.shownIndex index), (c!"REZ_BUILD_VARIANT_REQUIRES", joinWith c!" " requires)]) }

/-- environment.rs:230-235 `set_variant_subpath`. -/
def Env.setSubpath (subpath : Str) (e : Env) : Env :=
  { e with vars := mset e.vars c!"REZ_BUILD_VARIANT_SUBPATH" subpath }

/-- builder.rs:346-358 `apply_build_env_overrides`. -/
def Env.override (s : Settings) (r : Request) (e : Env) : Env :=
  { e with vars := insertAll (insertAll e.vars s.env) r.env }

/-- builder.rs:294-303: a fresh environment, the source and the overrides. -/
def freshEnv (m : Machine) (s : Settings) (r : Request) (base : Str) : Option Env :=
  (withInstallPath m r.package base r.context r.installPath).map fun e =>
    (e.setSource m r.package r.sourceDir).override s r

/-- builder.rs:293-327: the environment of a build. -/
def buildEnv (m : Machine) (s : Settings) (r : Request) : Option Env :=
  (freshEnv m s r s.buildDir).bind fun e =>
    match r.variantIndex with
    | none => some e
    | some i =>
      match r.variantRequires with
      | none => some (e.setVariant m r.package i [])
      | some reqs =>
        (freshEnv m s r (pjoin e.installDir (m.hash reqs))).map fun e2 =>
          (e2.setVariant m r.package i reqs).setSubpath (m.hash reqs)

/-- builder.rs:268-276: a package with variants needs a chosen one. -/
def accepts (r : Request) : Bool := r.package.variants.isEmpty || r.variantIndex.isSome

end Rez.Build
