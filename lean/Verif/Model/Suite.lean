import Verif.Base.Map
/-!
# Suites: suite_context.rs, suite_tool.rs, suite.rs, suite_manager.rs
(/repo/crates/rez-next-suites/src)
-/
namespace Rez.Suite
open Rez

/-- suite_tool.rs:7-19 `enum ToolConflictMode`. -/
inductive Mode where
  | error | first | last | prefix
deriving DecidableEq, Repr

/-- error.rs `enum SuiteError`; the texts around the names are left out.  Errors of the file system are not modelled. -/
inductive Err where
  | invalidName (name : Str)
  | duplicate (name : Str)
  | contextNotFound (name : Str)
  | toolConflict (tool contexts : Str)
  | suiteNotFound (path : Str)
  | serialization
deriving DecidableEq, Repr

/-- suite_context.rs:7-29 `struct SuiteContext`. -/
structure Ctx where
  name : Str
  requests : List Str
  aliases : List (Str × Str)
  hidden : List Str
  pfx : Option Str
  priority : Int
  disabled : Bool
deriving DecidableEq, Repr

/-- suite_context.rs:33-43 `new`. -/
def Ctx.new (name : Str) (requests : List Str) : Ctx := ⟨name, requests, [], [], none, 0, false⟩

/-- suite_context.rs:46-48 `alias_tool`. -/
def Ctx.alias (c : Ctx) (name tool : Str) : Ctx := { c with aliases := mset c.aliases name tool }

/-- suite_context.rs:51-56 `hide_tool`. -/
def Ctx.hide (c : Ctx) (tool : Str) : Ctx :=
  if c.hidden.contains tool then c else { c with hidden := c.hidden ++ [tool] }

/-- suite_context.rs:70-72 `is_tool_visible`. -/
def Ctx.visible (c : Ctx) (tool : Str) : Bool := !c.hidden.contains tool

/-- suite_tool.rs:37-50 `struct SuiteTool`. -/
structure Tool where
  name : Str
  original : Str
  context : Str
  package : Str
  isAlias : Bool
  isHidden : Bool
deriving DecidableEq, Repr

/-- suite_tool.rs:54-71 `SuiteTool::new`. -/
def Tool.new (name original context package : Str) : Tool := ⟨name, original, context, package, name ≠ original, false⟩

/-- suite.rs:12-21 `enum SuiteStatus`. -/
inductive Status where
  | okay | error | loading
deriving DecidableEq, Repr

/-- suite.rs:37-48 `struct Suite`. -/
structure Suite where
  contexts : List Ctx
  description : Option Str
  mode : Mode
  path : Option Str
  status : Status
deriving DecidableEq, Repr

/-- suite.rs:58-66 `new`. -/
def Suite.new : Suite := ⟨[], none, .error, none, .okay⟩

/-- suite.rs:353-358 `is_valid_context_name`; `alnum` stands for `char::is_alphanumeric`. -/
def validName (alnum : Char → Bool) (name : Str) : Bool :=
  !name.isEmpty && name.all fun c => alnum c || c == '-' || c == '_'

/-- suite.rs:85-107 `add_context`. -/
def Suite.add (alnum : Char → Bool) (s : Suite) (name : Str) (requests : List Str) : Except Err Suite :=
  if !validName alnum name then .error (.invalidName name)
  else if s.contexts.any fun c => c.name == name then .error (.duplicate name)
  else .ok { s with contexts := s.contexts ++ [Ctx.new name requests] }

/-- suite.rs:110-118 `remove_context`: the first context of that name. -/
def Suite.remove (s : Suite) (name : Str) : Except Err Suite :=
  if s.contexts.any fun c => c.name == name then .ok { s with contexts := s.contexts.eraseP fun c => c.name == name }
  else .error (.contextNotFound name)

/-- suite.rs:121-123 `get_context`. -/
def Suite.get (s : Suite) (name : Str) : Option Ctx := s.contexts.find? fun c => c.name == name

/-- suite.rs:126-128 `get_context_mut` and a change through the reference: the first context of that name. -/
def editFirst (name : Str) (f : Ctx → Ctx) : List Ctx → List Ctx
  | [] => []
  | c :: cs => if c.name == name then f c :: cs else c :: editFirst name f cs

/-- suite.rs:126-128 as above; nothing happens when there is no such context. -/
def Suite.edit (s : Suite) (name : Str) (f : Ctx → Ctx) : Suite := { s with contexts := editFirst name f s.contexts }

/-- suite.rs:131-133 `context_names`. -/
def Suite.names (s : Suite) : List Str := s.contexts.map Ctx.name

/-- suite.rs:141-152 `alias_tool`. -/
def Suite.alias (s : Suite) (context name tool : Str) : Except Err Suite :=
  if (s.get context).isSome then .ok (s.edit context fun c => c.alias name tool) else .error (.contextNotFound context)

/-- suite.rs:155-161 `hide_tool`. -/
def Suite.hide (s : Suite) (context tool : Str) : Except Err Suite :=
  if (s.get context).isSome then .ok (s.edit context fun c => c.hide tool) else .error (.contextNotFound context)

/-- The tool that suite.rs:182-187 makes of an alias; `unwrap_or_default` is the empty text. -/
def toolOf (c : Ctx) (name original : Str) : Tool := Tool.new name original c.name (c.requests.head?.getD [])

/-- suite.rs:177-227: one alias of a context.  The error carries the names of the two contexts: `conflicts` has no
entry for the tool before the first clash, and the first clash ends the function. -/
def addTool (mode : Mode) (c : Ctx) (tools : List (Str × Tool)) (x : Str × Str) : Except Err (List (Str × Tool)) :=
  if !c.visible x.2 then .ok tools
  else
    let tool := toolOf c x.1 x.2
    match mget tools tool.name with
    | some existing =>
      match mode with
      | .error => .error (.toolConflict tool.name (joinWith c!", " [existing.context, c.name]))
      | .first => .ok tools
      | .last => .ok (mset tools tool.name tool)
      | .prefix =>
        let name := c.name ++ c!"_" ++ x.1
        .ok (mset tools name (toolOf c name x.2))
    | none => .ok (mset tools tool.name tool)

/-- suite.rs:177-227: the aliases in turn. -/
def addTools (mode : Mode) (c : Ctx) : List (Str × Tool) → List (Str × Str) → Except Err (List (Str × Tool))
  | tools, [] => .ok tools
  | tools, x :: xs =>
    match addTool mode c tools x with
    | .ok t => addTools mode c t xs
    | .error e => .error e

/-- suite.rs:170-228: the contexts in turn; `iter` is the order in which the aliases of a context are iterated. -/
def collect (mode : Mode) (iter : List (Str × Str) → List (Str × Str)) :
    List (Str × Tool) → List Ctx → Except Err (List (Str × Tool))
  | tools, [] => .ok tools
  | tools, c :: cs =>
    if c.disabled then collect mode iter tools cs
    else
      match addTools mode c tools (iter c.aliases) with
      | .ok t => collect mode iter t cs
      | .error e => .error e

/-- suite.rs:166-232 `get_tools`. -/
def Suite.tools (iter : List (Str × Str) → List (Str × Str)) (s : Suite) : Except Err (List (Str × Tool)) :=
  collect s.mode iter [] s.contexts

/-! ## Files -/

/-- suite.rs:25-31 `struct SuiteFile`. -/
structure File where
  contexts : List Ctx
  description : Option Str
  mode : Option Str
deriving DecidableEq, Repr

/-- `format!("{:?}", mode).to_lowercase()`. -/
def Mode.text : Mode → Str
  | .error => c!"error"
  | .first => c!"first"
  | .last => c!"last"
  | .prefix => c!"prefix"

/-- suite_tool.rs:21-33 `from_str`; `to_lowercase` on ASCII. -/
def Mode.parse (s : Str) : Option Mode :=
  let s := s.map lowerChar
  if s = c!"error" then some .error
  else if s = c!"first" then some .first
  else if s = c!"last" then some .last
  else if s = c!"prefix" then some .prefix
  else none

/-- serde_yaml on `SuiteFile`: a pair of functions.  What is assumed of them is a hypothesis of each theorem. -/
structure Yaml where
  write : File → Str
  read : Str → Option File

/-- What suite.rs needs of a directory: the text of `suite.yaml`, the marker `.rez_suite`, the directory `bin`. -/
structure Dir where
  yaml : Option Str
  marker : Bool
  bin : Bool
deriving DecidableEq, Repr

/-- The file system: the directories by path. -/
abbrev Fs := List (Str × Dir)

/-- suite.rs:241-245. -/
def Suite.file (s : Suite) : File := ⟨s.contexts, s.description, some s.mode.text⟩

/-- A change of one directory; the directory is created first. -/
def touch (fs : Fs) (path : Str) (f : Dir → Dir) : Fs := mset fs path (f ((mget fs path).getD ⟨none, false, false⟩))

/-- suite.rs:239-259: the effects of `save`, in order.  `fs::write` empties the file, then writes it in pieces (`cut`). -/
def saveSteps (y : Yaml) (s : Suite) (path : Str) (cut : Nat) : List (Fs → Fs) :=
  [fun fs => touch fs path id,
   fun fs => touch fs path fun d => { d with yaml := some [] },
   fun fs => touch fs path fun d => { d with yaml := some ((y.write s.file).take cut) },
   fun fs => touch fs path fun d => { d with yaml := some (y.write s.file) },
   fun fs => touch fs path fun d => { d with bin := true },
   fun fs => touch fs path fun d => { d with marker := true }]

/-- suite.rs:237-263 `save` when no step fails. -/
def Suite.save (y : Yaml) (s : Suite) (path : Str) (fs : Fs) : Suite × Fs :=
  ({ s with path := some path }, (saveSteps y s path 0).foldl (fun fs f => f fs) fs)

/-- `save`, ended by a crash after `k` of its steps. -/
def Suite.saveCrash (y : Yaml) (s : Suite) (path : Str) (cut k : Nat) (fs : Fs) : Fs :=
  ((saveSteps y s path cut).take k).foldl (fun fs f => f fs) fs

/-- suite.rs:266-294 `load`. -/
def load (y : Yaml) (fs : Fs) (path : Str) : Except Err Suite :=
  match (mget fs path).bind Dir.yaml with
  | none => .error (.suiteNotFound path)
  | some text =>
    match y.read text with
    | none => .error .serialization
    | some f => .ok ⟨f.contexts, f.description, (Mode.parse (f.mode.getD c!"error")).getD .error, some path, .okay⟩

/-- suite.rs:297-300 `is_suite`. -/
def isSuite (fs : Fs) (path : Str) : Bool :=
  match mget fs path with
  | some d => d.yaml.isSome || d.marker
  | none => false

/-! ## suite_manager.rs -/

/-- suite_manager.rs:31-50 `find_suites`; `entries` lists the directories in a directory, in the order of the file
system (nothing for a directory that is missing or unreadable). -/
def findSuites (entries : Str → List Str) (join : Str → Str → Str) (fs : Fs) (paths : List Str) : List Str :=
  paths.flatMap fun base => ((entries base).map (join base)).filter (isSuite fs)

/-- suite_manager.rs:53-61 `load_suite`; `join` stands for `Path::join`. -/
def loadSuite (y : Yaml) (join : Str → Str → Str) (fs : Fs) (name : Str) : List Str → Except Err Suite
  | [] => .error (.suiteNotFound name)
  | base :: rest => if isSuite fs (join base name) then load y fs (join base name) else loadSuite y join fs name rest

/-- suite_manager.rs:69-74 `list_suite_names`: the last part of each path. -/
def listNames (entries : Str → List Str) (join : Str → Str → Str) (fs : Fs) (paths : List Str) : List Str :=
  paths.flatMap fun base => (entries base).filter fun e => isSuite fs (join base e)

end Rez.Suite
