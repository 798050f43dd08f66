import Verif.Model.BuildEnv
import Verif.Model.Requirement
/-!
# Sources and the build command: `rez-next-build/src/sources.rs`, `src/cli/commands/build.rs`

How the source of a package is read from the command line, where a download is written, which variants are built and
what the command answers.  Fetching, resolving and building are parameters.
Left out: authentication and options of sources (never set), printing, the terminal report.
-/
namespace Rez.Build
open Rez

/-! ## Sources -/

/-- sources.rs:14-23 `SourceType`.  `Ssh` is never made. -/
inductive SourceType where
  | git | http | local_
deriving DecidableEq

/-- sources.rs:27-40 `NetworkSource`, without the parts that are never set. -/
structure Source where
  url : Str
  kind : SourceType
  reference : Option Str
  subdirectory : Option Str
deriving DecidableEq

/-- sources.rs:502-541 `parse_git_url`. -/
def parseGitUrl (url : Str) : Str × Option Str :=
  match rsplitOnce '@' url with
  | none => (url, none)
  | some (before, after) =>
    if before.contains ':' && !c!"http".isPrefixOf before then
      match rsplitOnce '@' before with
      | some (first, _) => (first, some after)
      | none => (url, none)
    else if c!"http".isPrefixOf before then (before, some after)
    else (url, none)

/-- sources.rs:463-469: what is taken for a Git repository at once. -/
def looksLikeGit (url : Str) : Bool :=
  c!"git://".isPrefixOf url || c!"git@".isPrefixOf url || c!".git".isSuffixOf url ||
  containsStr url c!"github.com" || containsStr url c!"gitlab.com" || containsStr url c!"bitbucket.org"

/-- sources.rs:459-500 `parse_source`.  The inner test for `.git` of lines 475-485 cannot be met, and its other two
branches are the same. -/
def parseSource (text : Str) : Source :=
  let url := trim text
  if looksLikeGit url then
    let r := parseGitUrl url
    ⟨r.1, .git, r.2, none⟩
  else if c!"http://".isPrefixOf url || c!"https://".isPrefixOf url then ⟨url, .http, none, none⟩
  else if c!"ssh://".isPrefixOf url then ⟨url, .git, none, none⟩
  else ⟨url, .local_, none, none⟩

/-- build.rs:272-281: the options of the command line come on top. -/
def withOptions (s : Source) (subdir reference : Option Str) : Source :=
  let s := if subdir.isSome then { s with subdirectory := subdir } else s
  if reference.isSome then { s with reference := reference } else s

/-- sources.rs:83-113: the calls of `git` that fetch a source, with their arguments. -/
def gitCalls (s : Source) (cloneDir : Str) : List (List Str) :=
  ([c!"clone"] ++ (if s.reference.isNone then [c!"--depth", c!"1"] else []) ++ [s.url, cloneDir]) ::
  (match s.reference with
   | some r => [[c!"checkout", r]]
   | none => [])

/-- sources.rs:126-131, 189-194, 377-382: the directory that is built. -/
def fetchedDir (s : Source) (dir : Str) : Str :=
  match s.subdirectory with
  | some d => pjoin dir d
  | none => dir

/-- `str::trim_matches('"')`. -/
def trimQuotes (s : Str) : Str := (((s.dropWhile (· == '"')).reverse).dropWhile (· == '"')).reverse

/-- sources.rs:229-238 `parse_content_disposition`. -/
def headerName (header : Str) : Option Str :=
  (splitChar ';' header).findSome? fun part =>
    let p := trim part
    if c!"filename=".isPrefixOf p then some (trimQuotes (p.drop 9)) else none

/-- sources.rs:207-227 `extract_filename`.  `segment` is the last segment of the path of the URL, which has no slash and is
not `.` or `..` (the `url` crate takes those away). -/
def downloadName (header segment : Option Str) : Str :=
  match header.bind headerName with
  | some n => n
  | none =>
    match segment with
    | some s => if s = [] then c!"download" else s
    | none => c!"download"

/-- sources.rs:154-186: where the download is written, in the directory for temporary files. -/
def downloadPath (temp : Str) (header segment : Option Str) : Str :=
  pjoin (pjoin temp c!"download") (downloadName header segment)

/-! ## Variants -/

/-- build.rs:189-228: the builds of a command.  `none` is the refusal. -/
def chosenVariants (asked : Option (List Nat)) (count : Nat) : Option (List (Option Nat)) :=
  match asked with
  | some l =>
    let valid := l.filter (· < count)
    if valid.isEmpty && !l.isEmpty then none
    else if valid.isEmpty then some [none]
    else some (valid.map some)
  | none => if count = 0 then some [none] else some ((List.range count).map some)

/-- build.rs:460-477 `collect_build_context_requirements`. -/
def buildRequirements (requires buildRequires privateRequires : List Str) (variant : Option (List Str)) : List Str :=
  (requires ++ buildRequires ++ privateRequires ++ variant.getD []).foldl
    (fun l r => if r ∈ l then l else l ++ [r]) []

/-- What the command asks of the parts that resolve and build. -/
structure Builder (W : Type) where
  /-- build.rs:378-458 `resolve_build_context`, of requirements that are not empty. -/
  resolve : List Str → W → W × Bool
  /-- builder.rs:284-: the build of a variant; false for an error or a result without success. -/
  build : Option Nat → W → W × Bool

/-- The parts of a package that the command uses. -/
structure Wanted where
  requires : List Str
  buildRequires : List Str
  privateRequires : List Str
  variants : List (List Str)

/-- builder.rs:273-286 `start_build` and build.rs:600-687 `execute_build`: a package with variants is not built without
one. -/
def buildOne {W : Type} (b : Builder W) (p : Wanted) (v : Option Nat) (w : W) : W × Bool :=
  let reqs := buildRequirements p.requires p.buildRequires p.privateRequires (v.map fun i => p.variants[i]?.getD [])
  let r := if reqs.isEmpty then (w, true) else b.resolve reqs w
  if r.2 then
    if !p.variants.isEmpty && v.isNone then (r.1, false) else b.build v r.1
  else (r.1, false)

/-- build.rs:234-256: one build after the other. -/
def buildAll {W : Type} (b : Builder W) (p : Wanted) : List (Option Nat) → W → W × Bool
  | [], w => (w, true)
  | v :: l, w =>
    let r := buildOne b p v w
    if r.2 then buildAll b p l r.1 else (r.1, false)

/-- build.rs:149-256 `execute` once the package is loaded. -/
def buildCommand {W : Type} (b : Builder W) (p : Wanted) (asked : Option (List Nat)) (w : W) : W × Bool :=
  match chosenVariants asked p.variants.length with
  | none => (w, false)
  | some l => buildAll b p l w

/-- build.rs:169-175: the options that the steps of a build look at; `force_rebuild` is not among them (nothing reads it).
The variables of the environment that are passed on are left out. -/
structure StepOptions where
  skipTests : Bool
  releaseMode : Bool
  buildArgs : List Str
deriving DecidableEq

/-- The options of the command line that have to do with how a build is done. -/
structure Flags where
  clean : Bool
  force : Bool
  scripts : Bool
  system : Option Str
  childArgs : Option (List Str)
  skipTests : Bool
  release : Bool
  args : Option (List Str)

/-- build.rs:169-175, 549-554.  Nothing of the command reads `scripts`, `build_system` or `child_build_args`. -/
def stepOptions (f : Flags) : StepOptions := ⟨f.skipTests, f.release, f.args.getD []⟩

end Rez.Build
