import Verif.Base.Map
import Verif.Base.Text
/-!
# `rez-next-rex/src`: the Rex command language
-/
namespace Rez.Rex

/-- actions.rs:16-48 `enum RexActionType`. -/
inductive Action where
  | setenv (name value : Str)
  | unsetenv (name : Str)
  | prependPath (name value : Str) (separator : Option Str)
  | appendPath (name value : Str) (separator : Option Str)
  | setenvIfEmpty (name value : Str)
  | alias (name value : Str)
  | command (cmd : Str)
  | source (path : Str)
  | comment (text : Str)
  | resetenv (name : Str)
  | info (message : Str)
  | error (message : Str)
  | stop (message : Option Str)
deriving DecidableEq

/-- lib.rs:36-51 `struct RexEnvironment`. -/
structure Env where
  vars : List (Str × Str)
  aliases : List (Str × Str)
  startup : List Str
  sourced : List Str
  info : List Str
  stopped : Bool
  stopMessage : Option Str
deriving DecidableEq

/-- lib.rs:53-56 `new`. -/
def Env.new : Env := ⟨[], [], [], [], [], false, none⟩

/-- lib.rs:149-151 `get_path_sep` (not on Windows). -/
def pathSep : Str := c!":"

/-- lib.rs:81-87, 95-101: the value after putting `value` before the current one. -/
def prepended (value sep : Str) (current : Option Str) : Str :=
  let cur := current.getD []
  if cur.isEmpty then value else value ++ sep ++ cur

/-- lib.rs:95-101: the value after putting `value` behind the current one. -/
def appended (value sep : Str) (current : Option Str) : Str :=
  let cur := current.getD []
  if cur.isEmpty then value else cur ++ sep ++ value

/-- lib.rs:70-137 `apply_action`. -/
def applyAction (e : Env) : Action → Env
  | .setenv n v => { e with vars := mset e.vars n v }
  | .unsetenv n => { e with vars := mdel e.vars n }
  | .prependPath n v sep => { e with vars := mset e.vars n (prepended v (sep.getD pathSep) (mget e.vars n)) }
  | .appendPath n v sep => { e with vars := mset e.vars n (appended v (sep.getD pathSep) (mget e.vars n)) }
  | .setenvIfEmpty n v => if (mget e.vars n).isSome then e else { e with vars := mset e.vars n v }
  | .alias n v => { e with aliases := mset e.aliases n v }
  | .command c => { e with startup := e.startup ++ [c] }
  | .source p => { e with sourced := e.sourced ++ [p] }
  | .comment _ => e
  | .resetenv n => { e with vars := mdel e.vars n }
  | .info m => { e with info := e.info ++ [m] }
  | .error m => { e with info := e.info ++ [c!"[error] " ++ m] }
  | .stop m => { e with stopped := true, stopMessage := m }

/-- lib.rs:62: `matches!(…, Stop { .. })`. -/
def Action.isStop : Action → Bool
  | .stop _ => true
  | _ => false

/-- lib.rs:60-68 `apply`. -/
def apply : Env → List Action → Env
  | e, [] => e
  | e, a :: rest => if a.isStop then applyAction e a else apply (applyAction e a) rest

/-- lib.rs:140-146 `merge_with_base`; `base` in the order of iteration. -/
def mergeWithBase (e : Env) (base : List (Str × Str)) : Env :=
  base.foldl (fun e x => if (mget e.vars x.1).isSome then e else { e with vars := mset e.vars x.1 x.2 }) e

/-! ## parser.rs -/

/-- `^text` of a regular expression: what comes after the text. -/
def lit (text s : Str) : Option Str := if text.isPrefixOf s then some (s.drop text.length) else none

/-- `['"]`. -/
def isQuote (c : Char) : Bool := c == '\'' || c == '"'

/-- `['"]([^'"]*)['"]`: the text between two quotes (any two), and what comes after. -/
def quoted : Str → Option (Str × Str)
  | [] => none
  | q :: s =>
    if isQuote q then
      match s.dropWhile fun c => !isQuote c with
      | [] => none
      | _ :: rest => some (s.takeWhile fun c => !isQuote c, rest)
    else none

/-- `\s*text\s*`. -/
def spaced (text s : Str) : Option Str := (lit text (trimStart s)).map trimStart

/-- `\s*\)$`. -/
def close (s : Str) : Bool := trimStart s == c!")"

/-- `^(?:names)\s*\(\s*['"]([^'"]*)['"]\s*\)$`: the argument. -/
def call1 (names : List Str) (s : Str) : Option Str :=
  names.findSome? fun name => (lit name s).bind fun s => (spaced c!"(" s).bind fun s => (quoted s).bind fun (a, s) =>
    if close s then some a else none

/-- `^(?:names)\s*\(\s*['"]([^'"]*)['"]\s*,\s*['"]([^'"]*)['"]\s*\)$`: the two arguments. -/
def call2 (names : List Str) (s : Str) : Option (Str × Str) :=
  names.findSome? fun name => (lit name s).bind fun s => (spaced c!"(" s).bind fun s => (quoted s).bind fun (a, s) =>
    (spaced c!"," s).bind fun s => (quoted s).bind fun (b, s) => if close s then some (a, b) else none

/-- `[^'"]+` in place of `[^'"]*` for the first argument. -/
def filled1 (x : Option Str) : Option Str := x.filter fun a => !a.isEmpty
def filled2 (x : Option (Str × Str)) : Option (Str × Str) := x.filter fun p => !p.1.isEmpty

/-- parser.rs:98-100 `^stop\s*\(\s*(?:['"]([^'"]*)['"]\s*)?\)$`: the message. -/
def callStop (s : Str) : Option (Option Str) :=
  (lit c!"stop" s).bind fun s => (spaced c!"(" s).bind fun s =>
    if close s then some none
    else (quoted s).bind fun (a, s) => if close s then some (some a) else none

/-- `\s+`. -/
def spaces (s : Str) : Option Str :=
  match s with
  | c :: _ => if isWs c then some (trimStart s) else none
  | [] => none

/-- `([A-Za-z_][A-Za-z0-9_]*)`. -/
def ident : Str → Option (Str × Str)
  | c :: s => if isAlpha c || c == '_' then some (c :: s.takeWhile isTok, s.dropWhile isTok) else none
  | [] => none

/-- parser.rs:70-72 `"?([^"\n]*)"?$`. -/
def exportValue (s : Str) : Option Str :=
  let t := match s with
    | '"' :: t => t
    | t => t
  let rest := t.dropWhile fun c => c != '"' && c != '\n'
  if rest.isEmpty || rest == c!"\"" then some (t.takeWhile fun c => c != '"' && c != '\n') else none

/-- parser.rs:70-72 `^export\s+([A-Za-z_][A-Za-z0-9_]*)\s*=\s*"?([^"\n]*)"?$`. -/
def callExport (s : Str) : Option (Str × Str) :=
  (lit c!"export" s).bind fun s => (spaces s).bind fun s => (ident s).bind fun (n, s) => (spaced c!"=" s).bind fun s =>
    (exportValue s).map fun v => (n, v)

/-- `trim_matches('"')`. -/
def trimQuotes (s : Str) : Str :=
  (((s.dropWhile (· == '"')).reverse).dropWhile (· == '"')).reverse

/-- parser.rs:74-76, 237-244 `^setenv\s+([A-Za-z_][A-Za-z0-9_]*)\s+(.+)$` on a line. -/
def callCsh (s : Str) : Option (Str × Str) :=
  (lit c!"setenv" s).bind fun s => (spaces s).bind fun s => (ident s).bind fun (n, s) => (spaces s).bind fun s =>
    if s.isEmpty then none else some (n, trimQuotes (trim s))

/-- parser.rs:110-250: the statement in a trimmed line; the first regular expression that matches counts. -/
def parseStatement (s : Str) : Option Action :=
  ((filled2 (call2 [c!"env.setenv", c!"setenv"] s)).map fun (n, v) => .setenv n v).orElse fun _ =>
  ((filled1 (call1 [c!"env.unsetenv", c!"unsetenv"] s)).map .unsetenv).orElse fun _ =>
  ((filled2 (call2 [c!"env.prepend_path", c!"prependenv"] s)).map fun (n, v) => .prependPath n v none).orElse fun _ =>
  ((filled2 (call2 [c!"env.append_path", c!"appendenv"] s)).map fun (n, v) => .appendPath n v none).orElse fun _ =>
  ((filled2 (call2 [c!"env.setenv_if_empty"] s)).map fun (n, v) => .setenvIfEmpty n v).orElse fun _ =>
  ((filled2 (call2 [c!"env.alias", c!"alias"] s)).map fun (n, v) => .alias n v).orElse fun _ =>
  ((call1 [c!"command"] s).map .command).orElse fun _ =>
  ((call1 [c!"source"] s).map .source).orElse fun _ =>
  ((filled1 (call1 [c!"env.resetenv", c!"resetenv"] s)).map .resetenv).orElse fun _ =>
  ((call1 [c!"info"] s).map .info).orElse fun _ =>
  ((call1 [c!"error"] s).map .error).orElse fun _ =>
  ((callStop s).map .stop).orElse fun _ =>
  ((call1 [c!"comment"] s).map .comment).orElse fun _ =>
  ((callExport s).map fun (n, v) => .setenv n v).orElse fun _ =>
  ((callCsh s).map fun (n, v) => .setenv n v)

/-- parser.rs:112-126: one line; `none` is the error. -/
def parseLine (line : Str) : Option (List Action) :=
  let s := trim line
  if s.isEmpty then some []
  else if c!"#".isPrefixOf s || c!"//".isPrefixOf s then some [.comment s]
  else (parseStatement s).map fun a => [a]

/-- The lines of a text in turn, up to the first error. -/
def parseLines : List Str → Option (List Action)
  | [] => some []
  | l :: rest => (parseLine l).bind fun a => (parseLines rest).map fun b => a ++ b

/-- parser.rs:108-251 `parse`.  Splitting at every line feed stands for `lines`: the empty last line that `lines` leaves
out and the carriage returns that it strips make no difference after `trim`. -/
def parse (commands : Str) : Option (List Action) := parseLines (splitChar '\n' commands)

/-! ## executor.rs -/

/-- `str::replace(pat, by)` for a pattern that is not empty; `skip` characters of the last match are still to be
passed over. -/
def replaceAux (pat by_ : Str) : Nat → Str → Str
  | _, [] => []
  | k + 1, _ :: s => replaceAux pat by_ k s
  | 0, c :: s =>
    if pat.isPrefixOf (c :: s) then by_ ++ replaceAux pat by_ (pat.length - 1) s else c :: replaceAux pat by_ 0 s

/-- `str::replace`. -/
def replaceAll (pat by_ s : Str) : Str := replaceAux pat by_ 0 s

/-- `char::to_uppercase` on ASCII. -/
def upperChar (c : Char) : Char :=
  if 97 ≤ c.toNat && c.toNat ≤ 122 then Char.ofNat (c.toNat - 32) else c

/-- executor.rs:92-99: the references to one context variable. -/
def expandOne (s : Str) (x : Str × Str) : Str :=
  replaceAll ('$' :: x.1.map upperChar) x.2 (replaceAll (c!"{" ++ x.1 ++ c!"}") x.2 s)

/-- executor.rs:91-100: the references to all context variables, in the order in which the map is iterated. -/
def expand (vars : List (Str × Str)) (s : Str) : Str := vars.foldl expandOne s

/-- executor.rs:102-146 `expand_action_vars`. -/
def expandAction (vars : List (Str × Str)) : Action → Action
  | .setenv n v => .setenv n (expand vars v)
  | .prependPath n v sep => .prependPath n (expand vars v) sep
  | .appendPath n v sep => .appendPath n (expand vars v) sep
  | .setenvIfEmpty n v => .setenvIfEmpty n (expand vars v)
  | .alias n v => .alias n (expand vars v)
  | .command c => .command (expand vars c)
  | .source p => .source (expand vars p)
  | .info m => .info (expand vars m)
  | .error m => .error (expand vars m)
  | .stop m => .stop (m.map (expand vars))
  | a => a

/-- executor.rs:10-15 `struct RexExecutor`. -/
structure Executor where
  vars : List (Str × Str)
  actions : List Action

/-- executor.rs:18-23 `new`. -/
def Executor.new : Executor := ⟨[], []⟩

/-- executor.rs:26-28 `set_context_var`. -/
def Executor.setVar (x : Executor) (name value : Str) : Executor := { x with vars := mset x.vars name value }

/-- Insert several entries. -/
def msets (m : List (Str × Str)) (l : List (Str × Str)) : List (Str × Str) := l.foldl (fun m p => mset m p.1 p.2) m

/-- executor.rs:39-63: the variables of a package, in the order in which they are inserted. -/
def packageVars (name : Str) (root version : Option Str) : List (Str × Str) :=
  (match root with
    | some r => [(c!"root", r), (c!"this.root", r)]
    | none => []) ++
  (match version with
    | some v => [(c!"version", v), (c!"this.version", v)] ++
        ([c!"major", c!"minor", c!"patch"].zip (splitChar '.' v)).map fun x => (c!"this.version." ++ x.1, x.2)
    | none => []) ++
  [(c!"name", name), (c!"this.name", name)]

/-- executor.rs:31-77 `execute_commands`; `iter` is the order in which the map is iterated.  The executor afterwards,
and the environment or the error. -/
def Executor.execute (iter : List (Str × Str) → List (Str × Str)) (x : Executor) (commands name : Str)
    (root version : Option Str) : Executor × Option Env :=
  let vars := msets x.vars (packageVars name root version)
  match parse commands with
  | none => ({ x with vars := vars }, none)
  | some acts =>
    let actions := x.actions ++ acts.map (expandAction (iter vars))
    ({ vars := vars, actions := actions }, some (apply Env.new actions))

end Rez.Rex
