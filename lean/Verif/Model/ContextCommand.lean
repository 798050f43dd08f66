import Verif.Model.Context
/-!
# `rez context`: `src/cli/commands/context.rs`

The files, the standard input, the variables of the process, the readers of JSON and YAML, the order of hash maps and the
result of Graphviz are parameters.  Left out: what goes to the standard error, and opening the image.
-/
namespace Rez.ContextCommand
open Rez Rez.Context

/-- resolved_context.rs:15-52 `struct RezResolvedContext`, as far as this command reads it; `created` is the text of the
timestamp. -/
structure RCtx where
  requirements : List Requirement
  packages : List Resolved
  failed : Bool
  created : Str

/-- rez-next-context/src/context.rs:14-50 `struct ResolvedContext`, as far as this command reads it: the packages with their
roots. -/
structure Old where
  requirements : List PackageRequirement
  packages : List (Pkg × Option Str)
  failed : Bool

/-- context.rs:87-109 `enum OutputFormat`. -/
inductive Shape where
  | table | dict | json | bash | zsh | fish | cmd | powershell
deriving DecidableEq

/-- context.rs:13-85 `struct ContextArgs`; `--style` is left out. -/
structure Args where
  rxt : Option Str
  request : Bool
  resolve : Bool
  sourceOrder : Bool
  uris : Bool
  tools : Bool
  which : Option Str
  graph : Bool
  dependencyGraph : Bool
  printGraph : Bool
  writeGraph : Option Str
  prune : Option Str
  interpret : Bool
  format : Option Shape
  noEnv : Bool
  diff : Option Str
  fetch : Bool

/-- What the command finds: a path that exists has a text unless it cannot be read; `dot` tells if Graphviz succeeds. -/
structure World where
  stdin : Option Str
  files : Str → Option (Option Str)
  env : Str → Option Str
  system : List (Str × Str)
  now : Str
  tmp : Str
  writable : Str → Bool
  dot : Bool
  jsonNew : Str → Option RCtx
  jsonOld : Str → Option Old
  yamlNew : Str → Option RCtx
  yamlOld : Str → Option Old

/-- context.rs:215-256 `convert_context`: the requirements are written and read again, the root of a package without one
is empty, the time is that of the call (`RezResolvedContext::new`). -/
def convert (now : Str) (c : Old) : Option RCtx :=
  (c.requirements.mapM fun r => Requirement.parse r.display).map fun rs =>
    ⟨rs, c.packages.map fun p => ⟨p.1, none, p.2.getD []⟩, c.failed, now⟩

/-- context.rs:198-213 `deserialize_context`. -/
def decode (w : World) (s : Str) : Option RCtx :=
  match w.jsonNew s with
  | some c => some c
  | none =>
    match w.jsonOld s with
    | some c => convert w.now c
    | none =>
      match w.yamlNew s with
      | some c => some c
      | none => (w.yamlOld s).bind (convert w.now)

/-- context.rs:178-190: the variables that name a context file, the first whose file exists. -/
def fromVars (w : World) : List Str → Option RCtx
  | [] => some ⟨[], [], false, w.now⟩
  | v :: vs =>
    match (w.env v).bind w.files with
    | some content => content.bind (decode w)
    | none => fromVars w vs

/-- context.rs:149-195 `load_context`; `none` is an error. -/
def load (w : World) (rxt : Option Str) : Option RCtx :=
  let source := rxt.getD []
  if source = c!"-" then w.stdin.bind (decode w)
  else if source.isEmpty = false then
    match w.files source with
    | some content => content.bind (decode w)
    | none => none
  else fromVars w [c!"REZ_RXT_FILE", c!"REZ_CONTEXT_FILE"]

/-- `println!`. -/
def line (s : Str) : Str := s ++ c!"\n"

/-- The version of a package, or a text for a package without one. -/
def versionText (without : Str) (r : Resolved) : Str := (r.pkg.version.map Version.asStr).getD without

/-- context.rs:259-264 `print_request_packages`. -/
def showRequest (c : RCtx) : Str :=
  line c!"Request packages:" ++ c.requirements.flatMap fun r => line (c!"  " ++ r.display)

/-- context.rs:275-292: the line of a package. -/
def resolvedLine (uris : Bool) (r : Resolved) : Str :=
  if uris then line (c!"  " ++ r.pkg.name ++ c!" " ++ versionText c!"unknown" r ++ c!" (" ++ r.root ++ c!")")
  else line (c!"  " ++ r.pkg.name ++ c!" " ++ versionText c!"unknown" r)

/-- context.rs:267-294 `print_resolved_packages`; `sort_by` keeps the order of equal names. -/
def showResolved (c : RCtx) (sourceOrder uris : Bool) : Str :=
  let ps := if sourceOrder then c.packages else c.packages.insertionSort fun a b => cmpStr a.pkg.name b.pkg.name ≠ .gt
  line c!"Resolved packages:" ++ ps.flatMap (resolvedLine uris)

/-- context.rs:297-309 `print_available_tools`. -/
def showTools (iter : List (Str × Str) → List (Str × Str)) (c : RCtx) : Str :=
  let tools := getTools c.packages
  line c!"Available tools:" ++
    if tools.isEmpty then line c!"  (no tools available)"
    else (iter tools).flatMap fun t => line (c!"  " ++ t.1 ++ c!" -> " ++ t.2)

/-- context.rs:312-320 `locate_command`. -/
def showWhich (c : RCtx) (cmd : Str) : Str :=
  match mget (getTools c.packages) cmd with
  | some path => line path
  | none => []

/-- context.rs:373-382 `is_package_variable`. -/
def isPackageVar (c : RCtx) (name : Str) : Bool :=
  c.packages.any fun r => match r.pkg.commands with
    | some text => containsStr text (c!"export " ++ name)
    | none => false

/-- context.rs:323-370 `interpret_context`; `encode` stands for `serde_json::to_string_pretty`. -/
def showCode (lines : Str → List Str) (iter : List (Str × Str) → List (Str × Str)) (encode : List (Str × Str) → Str)
    (w : World) (c : RCtx) (format : Option Shape) : Str :=
  let vars := (iter (getEnviron lines iter w.system c.packages)).filter fun e => isPackageVar c e.1
  match format.getD .bash with
  | .bash | .zsh => vars.flatMap fun e => line (c!"export " ++ e.1 ++ c!"=\"" ++ e.2 ++ c!"\"")
  | .fish => vars.flatMap fun e => line (c!"set -x " ++ e.1 ++ c!" \"" ++ e.2 ++ c!"\"")
  | .cmd => vars.flatMap fun e => line (c!"set " ++ e.1 ++ c!"=" ++ e.2)
  | .powershell => vars.flatMap fun e => line (c!"$env:" ++ e.1 ++ c!" = \"" ++ e.2 ++ c!"\"")
  | .json => line (encode vars)
  | .table => line c!"Format Table not supported for interpretation"
  | .dict => line c!"Format Dict not supported for interpretation"

/-- context.rs:404-415: the line of a name, with the version of the first package of that name. -/
def summaryLine (c : RCtx) (n : Str) : Str :=
  match c.packages.find? fun r => r.pkg.name == n with
  | some r => line (c!"  " ++ n ++ c!" " ++ versionText c!"unknown" r)
  | none => []

/-- context.rs:385-416 `print_context_summary`, resolved_context.rs:96-110 `get_package`, `get_package_names`. -/
def showSummary (c : RCtx) : Str :=
  line c!"Context Summary:" ++ line (c!"  Packages: " ++ decimal c.packages.length) ++
  line (c!"  Status: " ++ if c.failed then c!"FAILED" else c!"SUCCESS") ++ line (c!"  Created: " ++ c.created) ++
  if c.packages.length = 0 then line c!"\n  (no resolved packages - not in a rez environment)"
  else line c!"\nPackages:" ++ (c.packages.map fun r => r.pkg.name).flatMap (summaryLine c)

/-- context.rs:425-439: the packages that are drawn. -/
def drawn (c : RCtx) (prune : Option Str) : List Resolved :=
  match prune with
  | some p => c.packages.filter fun r => r.pkg.name == p || r.pkg.requires.any fun q => p.isPrefixOf q
  | none => c.packages

/-- context.rs:451, 459, 466 `replace(['-', '.'], "_")`. -/
def nodeId (name : Str) : Str := name.map fun c => if c = '-' ∨ c = '.' then '_' else c

/-- context.rs:442-453: the line of a package. -/
def nodeLine (r : Resolved) : Str :=
  c!"    " ++ nodeId r.pkg.name ++ c!" [label=\"" ++ (r.pkg.name ++ c!"-" ++ versionText c!"?" r) ++ c!"\"];\n"

/-- context.rs:462-465: the text up to the first character that is not alphanumeric, `_` or `-`. -/
def depName (alnum : Char → Bool) (req : Str) : Str := req.takeWhile fun c => alnum c || c == '_' || c == '-'

/-- context.rs:458-476: the lines of the requirements of a package. -/
def edgeLines (alnum : Char → Bool) (shown : List Resolved) (r : Resolved) : Str :=
  r.pkg.requires.flatMap fun req =>
    if shown.any fun q => q.pkg.name == depName alnum req then
      c!"    " ++ nodeId r.pkg.name ++ c!" -> " ++ nodeId (depName alnum req) ++ c!" [label=\"" ++ req ++ c!"\"];\n"
    else []

/-- context.rs:420-423. -/
def dotHead : Str :=
  c!"digraph rez_context {\n" ++ c!"    rankdir=LR;\n" ++ c!"    node [shape=box, style=filled, fillcolor=lightblue];\n" ++
  c!"    edge [fontsize=10];\n\n"

/-- context.rs:419-480 `generate_dot_graph`. -/
def dotText (alnum : Char → Bool) (c : RCtx) (prune : Option Str) : Str :=
  let shown := drawn c prune
  dotHead ++ shown.flatMap nodeLine ++ c!"\n" ++ shown.flatMap (edgeLines alnum shown) ++ c!"}\n"

/-- What a call does: does it succeed, what it prints, and the file it writes. -/
structure Result where
  ok : Bool
  out : Str
  wrote : Option (Str × Str)
deriving DecidableEq

/-- context.rs:489-504 `write_resolve_graph`. -/
def writeGraph (w : World) (path text : Str) : Result :=
  if w.writable path then ⟨true, [], some (path, text)⟩ else ⟨false, [], none⟩

/-- context.rs:507-553 `render_graph_image`. -/
def renderGraph (w : World) (text : Str) : Result :=
  let path := w.tmp ++ c!"/rez_context_graph.dot"
  if w.writable path then ⟨true, if w.dot then [] else line text, some (path, text)⟩ else ⟨false, [], none⟩

/-- context.rs:120-146 `execute`, for a context that could be loaded. -/
def act (alnum : Char → Bool) (lines : Str → List Str) (iter : List (Str × Str) → List (Str × Str))
    (encode : List (Str × Str) → Str) (w : World) (a : Args) (c : RCtx) : Result :=
  if a.request then ⟨true, showRequest c, none⟩
  else if a.resolve then ⟨true, showResolved c a.sourceOrder a.uris, none⟩
  else if a.tools then ⟨true, showTools iter c, none⟩
  else match a.which with
    | some cmd => ⟨true, showWhich c cmd, none⟩
    | none =>
      if a.printGraph then ⟨true, dotText alnum c a.prune, none⟩
      else match a.writeGraph with
        | some path => writeGraph w path (dotText alnum c a.prune)
        | none =>
          if a.graph then renderGraph w (dotText alnum c a.prune)
          else if a.interpret then ⟨true, showCode lines iter encode w c a.format, none⟩
          else ⟨true, showSummary c, none⟩

/-- context.rs:120-146 `execute`. -/
def execute (alnum : Char → Bool) (lines : Str → List Str) (iter : List (Str × Str) → List (Str × Str))
    (encode : List (Str × Str) → Str) (w : World) (a : Args) : Result :=
  match load w a.rxt with
  | none => ⟨false, [], none⟩
  | some c => act alnum lines iter encode w a c

end Rez.ContextCommand
