/-
What Python makes of a package.py file, independently of how the file is read: a reference semantics for the part of
Python such files use, and what the package should then be.

`plain := false` is Python itself. With `plain := true` the same semantics gives up (`beyond`) wherever the program uses
something that package.py files are known to be read differently for, or refused for; these places are marked `quirk`.
-/
import Verif.Base.Map
import Verif.Base.Text
import Verif.Model.PackagePy

namespace Rez.Spec.Py
open Rez.PackagePy (Expr Stmt Const BinOp UnOp CmpOp World)
open Rez.Rex (Action)
open Rez.Serial (Pkg)

/-- The outcome of running Python code: a result, an exception, or something not described here. -/
inductive Res (α : Type) where
  | ok (a : α)
  | raises
  | beyond

def Res.bind {α β : Type} (x : Res α) (f : α → Res β) : Res β :=
  match x with
  | .ok a => f a
  | .raises => .raises
  | .beyond => .beyond

def Res.map {α β : Type} (f : α → β) (x : Res α) : Res β := x.bind fun a => .ok (f a)

/-- A place where the program that reads package.py is known to differ from Python. -/
def quirk {α : Type} (plain : Bool) (r : Res α) : Res α := if plain then .beyond else r

/-- A place where an exception in Python goes unnoticed by the program that reads package.py. -/
def unnoticed {α : Type} (plain : Bool) (r : Res α) : Res α :=
  match r with
  | .raises => quirk plain .raises
  | r => r

/-- Python values. -/
inductive Val where
  | str (s : Str)
  | int (i : Int)
  | float (bits : Nat)
  | bool (b : Bool)
  | list (l : List Val)
  | tuple (l : List Val)
  | dict (m : List (Str × Val))
  | none
  | module (name : Str)
  | func (body : List Stmt)

/-- Values that are not data. -/
def Val.opaque : Val → Bool
  | .module _ | .func _ => true
  | _ => false

abbrev Env := List (Str × Val)

/-- `str(i)`. -/
def numeral (i : Int) : Str := if i < 0 then '-' :: decimal i.natAbs else decimal i.natAbs

/-- The integer fits in 64 bits, or in 32. -/
def small (i : Int) : Bool := decide (-9223372036854775808 ≤ i) && decide (i ≤ 9223372036854775807)
def tiny (i : Int) : Bool := decide (-2147483648 ≤ i) && decide (i ≤ 2147483647)

/-- The text of a text or of an integer. -/
def textOf : Val → Option Str
  | .str s => some s
  | .int i => some (numeral i)
  | _ => none

/-! ## Names -/

/-- Where an expression stands: at the top of the file, or in a command function, whose own variables are `names`. -/
structure Scope where
  globals : Env
  locals : Env
  names : List Str
  commands : Bool

/-- The top of the file. -/
def Scope.top (env : Env) : Scope := ⟨env, [], [], false⟩

/-- What a name stands for: a name that is assigned anywhere in a function is a variable of that function. -/
def Scope.look (sc : Scope) (x : Str) : Option Val := if x ∈ sc.names then mget sc.locals x else mget sc.globals x

def Scope.get (plain : Bool) (w : World) (sc : Scope) (x : Str) : Res Val :=
  match sc.look x with
  | some v => if v.opaque then quirk plain (.ok v) else .ok v
  | none => if x ∈ sc.names then quirk plain .raises else if w.provided x then .beyond else .raises

/-! ## Operations -/

/-- The result of an operation on integers, which are unbounded. -/
def num (plain : Bool) (i : Int) : Res Val := if small i then .ok (.int i) else quirk plain (.ok (.int i))

def constant (plain : Bool) : Const → Res Val
  | .str s => .ok (.str s)
  | .int i => num plain i
  | .float f => .ok (.float f)
  | .bool b => .ok (.bool b)
  | .none => .ok .none
  | .other => .beyond

/-- `s * n`: nothing when `n` is negative. -/
def times (s : Str) (n : Int) : Str := (List.replicate n.toNat s).flatten

def binop (plain : Bool) (w : World) : Val → BinOp → Val → Res Val
  | .str l, .add, .str r => .ok (.str (l ++ r))
  | .int l, .add, .int r => num plain (l + r)
  | .int l, .sub, .int r => num plain (l - r)
  | .int l, .mul, .int r => num plain (l * r)
  | .float l, .add, .float r => .ok (.float (w.fadd l r))
  | .list l, .add, .list r => .ok (.list (l ++ r))
  | .tuple l, .add, .tuple r => .ok (.tuple (l ++ r))
  | .list _, .add, .tuple _ => quirk plain .raises
  | .tuple _, .add, .list _ => quirk plain .raises
  | .str l, .mul, .int n =>
    if decide (0 ≤ n) && decide (byteLen l * n.toNat < 2 ^ 63) && small n then .ok (.str (times l n))
    else quirk plain (.ok (.str (times l n)))
  | .int n, .mul, .str r => quirk plain (.ok (.str (times r n)))
  | _, _, _ => .beyond

/-- The truth of a value; that of fractions is left out. -/
def truthy : Val → Option Bool
  | .str s => some !s.isEmpty
  | .int i => some (i != 0)
  | .float _ => Option.none
  | .bool b => some b
  | .list l => some !l.isEmpty
  | .tuple l => some !l.isEmpty
  | .dict m => some !m.isEmpty
  | .none => some false
  | .module _ => some true
  | .func _ => some true

/-- The truth of a condition. -/
def truth (plain : Bool) (v : Val) : Res Bool :=
  match v with
  | .bool b => .ok b
  | v =>
    quirk plain (match truthy v with
      | some b => .ok b
      | Option.none => .beyond)

def unop (plain : Bool) (w : World) : UnOp → Val → Res Val
  | .not, v => (truth plain v).map fun b => .bool !b
  | .plus, .int i => .ok (.int i)
  | .minus, .int i => num plain (-i)
  | .plus, .float f => .ok (.float f)
  | .minus, .float f => .ok (.float (w.fneg f))
  | _, _ => .beyond

def compareOne (plain : Bool) : Val → CmpOp → Val → Res Bool
  | .int l, .eq, .int r => .ok (decide (l = r))
  | .int l, .ne, .int r => quirk plain (.ok (decide (l ≠ r)))
  | .int l, .lt, .int r => .ok (decide (l < r))
  | .int l, .gt, .int r => .ok (decide (r < l))
  | .str l, .eq, .str r => .ok (decide (l = r))
  | .str l, .ne, .str r => .ok (decide (l ≠ r))
  | .bool l, .eq, .bool r => .ok (decide (l = r))
  | _, _, _ => .beyond

/-! ## `str.format` -/

/-- A template: characters, the escapes `{{` and `}}`, numbered places `{0}` and the next place `{}`. -/
inductive Piece where
  | char (c : Char)
  | opening
  | closing
  | place (i : Nat)
  | next
deriving DecidableEq

/-- Where the reading of a template stands. -/
inductive Scan where
  | text
  | opened
  | closed
  | place (digits : Str)

/-- Reads a template; named and formatted places are left out. -/
def scan : Scan → Str → Option (List Piece)
  | .text, [] => some []
  | .text, c :: s =>
    if c = '{' then scan .opened s
    else if c = '}' then scan .closed s
    else (scan .text s).map (.char c :: ·)
  | .opened, c :: s =>
    if c = '{' then (scan .text s).map (.opening :: ·)
    else if c = '}' then (scan .text s).map (.next :: ·)
    else if isDigit c then scan (.place [c]) s
    else none
  | .closed, c :: s => if c = '}' then (scan .text s).map (.closing :: ·) else none
  | .place ds, c :: s =>
    if c = '}' then
      if decimal (digitsVal ds) = ds then (scan .text s).map (.place (digitsVal ds) :: ·) else none
    else if isDigit c then scan (.place (ds ++ [c])) s
    else none
  | _, [] => none

/-- The template with its places filled; `n` counts the places `{}`. -/
def fill (args : List Str) : Nat → List Piece → Option Str
  | _, [] => some []
  | n, .char c :: ps => (fill args n ps).map (c :: ·)
  | n, .opening :: ps => (fill args n ps).map ('{' :: ·)
  | n, .closing :: ps => (fill args n ps).map ('}' :: ·)
  | n, .place i :: ps => args[i]?.bind fun a => (fill args n ps).map (a ++ ·)
  | n, .next :: ps => args[n]?.bind fun a => (fill args (n + 1) ps).map (a ++ ·)

/-- `template.format(*args)` for texts; `none` when it raises an exception or is not described. -/
def format (template : Str) (args : List Str) : Option Str := (scan .text template).bind (fill args 0)

/-- Characters used as marks by the program that reads package.py. -/
def marks : List Char := [Char.ofNat 0xe000, Char.ofNat 0xe001]

/-- No `{}`, and no numbered place directly before `}}`. -/
def steady : List Piece → Bool
  | [] => true
  | .next :: _ => false
  | .place _ :: .closing :: _ => false
  | _ :: ps => steady ps

/-- No marks in the template, and no marks or braces in the arguments. -/
def calm (template : Str) (args : List Str) : Bool :=
  template.all (fun c => !marks.contains c) &&
    args.all (fun a => a.all fun c => !marks.contains c && c != '{' && c != '}') &&
    ((scan .text template).elim false steady)

/-- The arguments of `format`; `str(True)` is `True`. -/
def formatArgs (plain : Bool) : List Val → Res (List Str)
  | [] => .ok []
  | v :: vs =>
    match v with
    | .str s => (formatArgs plain vs).map (s :: ·)
    | .int i => (formatArgs plain vs).map (numeral i :: ·)
    | .bool b => quirk plain ((formatArgs plain vs).map ((if b then c!"True" else c!"False") :: ·))
    | _ => .beyond

def formatted (plain : Bool) (template : Str) (args : List Str) : Res Val :=
  match format template args with
  | some t => if calm template args then .ok (.str t) else quirk plain (.ok (.str t))
  | none => .beyond

/-! ## Attributes -/

/-- The tokens of a version. -/
def tokens (version : Str) : List Str := splitChar '.' (version.map fun c => if isTok c then c else '.')

/-- `this.name` and `this.version`, which command functions know; the version is represented by its text. -/
def this (plain : Bool) (sc : Scope) (x : Str) : Res Str :=
  if sc.commands && (sc.look c!"this").isNone then
    if plain && sc.names.contains x then .beyond
    else
      match mget sc.globals x with
      | some (.str s) => .ok s
      | _ => .beyond
  else quirk plain .raises

/-- `this.version.major` and so on. -/
def part (plain : Bool) (version a : Str) : Res Val :=
  if plain && !version.all (fun c => isTok c || c == '.') then .beyond
  else
    let t :=
      if a = c!"major" then (tokens version)[0]?
      else if a = c!"minor" then (tokens version)[1]?
      else if a = c!"patch" then (tokens version)[2]?
      else none
    match t with
    | some t => .ok (.str t)
    | none => .beyond

def member (plain : Bool) (w : World) (sc : Scope) : Expr → Str → Res Val
  | .name o, a =>
    if o = c!"os" ∧ a = c!"name" then
      match sc.look c!"os" with
      | some (.module m) => if m = c!"os" then .ok (.str w.osName) else .beyond
      | some _ => .beyond
      | none => quirk plain .raises
    else if o = c!"system" ∧ a = c!"platform" then
      match sc.look c!"system" with
      | some (.module m) => if m = c!"rez.system.system" then .ok (.str w.platform) else .beyond
      | some _ => .beyond
      | none => if sc.commands then .ok (.str w.platform) else quirk plain .raises
    else if o = c!"this" ∧ (a = c!"version" ∨ a = c!"name") then (this plain sc a).map .str
    else .beyond
  | .attr (.name o) v, a =>
    if o = c!"this" ∧ v = c!"version" then (this plain sc c!"version").bind fun s => part plain s a else .beyond
  | _, _ => .beyond

/-! ## Expressions -/

/-- The function that is called, as far as it is known here. -/
inductive Callee where
  | getenv
  | lower
  | format
  | unknown
deriving DecidableEq

def callee (e : Expr) (m : Str) : Callee :=
  match e with
  | .name o =>
    if o = c!"os" ∧ m = c!"getenv" then .getenv else if m = c!"lower" then .lower else if m = c!"format" then .format else .unknown
  | _ => if m = c!"lower" then .lower else if m = c!"format" then .format else .unknown

/-- `os.getenv(name)` and `os.getenv(name, default)`. -/
def getenv (w : World) : List Val → Res Val
  | [.str n] => .ok ((w.getenv n).elim .none .str)
  | [.str n, d] => .ok ((w.getenv n).elim d .str)
  | _ => .beyond

mutual

def eval (plain : Bool) (w : World) (sc : Scope) : Expr → Res Val
  | .const c => constant plain c
  | .name x => sc.get plain w x
  | .bin l op r => (eval plain w sc l).bind fun a => (eval plain w sc r).bind fun b => binop plain w a op b
  | .un op e => (eval plain w sc e).bind fun a => unop plain w op a
  | .cmp l rest =>
    if plain && rest.length != 1 then .beyond else (eval plain w sc l).bind fun a => compare plain w sc a rest
  | .and es => allOf plain w sc es
  | .or es => anyOf plain w sc es
  | .list es => (evalList plain w sc es).map .list
  | .tuple es => (evalList plain w sc es).map .tuple
  | .dict items => (evalDict plain w sc [] items).map .dict
  | .call (.attr e m) args keywords =>
    if keywords then .beyond
    else
      match callee e m with
      | .getenv =>
        match sc.look c!"os" with
        | some (.module o) =>
          if o = c!"os" then (unnoticed plain (evalList plain w sc args)).bind fun vs => getenv w vs else .beyond
        | some _ => .beyond
        | none => quirk plain .raises
      | .lower =>
        (eval plain w sc e).bind fun v =>
          match v with
          | .str s => if args.isEmpty then .ok (.str (w.lower s)) else .beyond
          | _ => .beyond
      | .format =>
        (eval plain w sc e).bind fun v =>
          match v with
          | .str s =>
            (evalList plain w sc args).bind fun vs => (formatArgs plain vs).bind fun ts => formatted plain s ts
          | _ => .beyond
      | .unknown => .beyond
  | .call _ _ _ => .beyond
  | .attr e a => member plain w sc e a
  | .sub _ _ => .beyond
  | .ifexp t b e =>
    (eval plain w sc t).bind fun v => (truth plain v).bind fun c =>
      if c then eval plain w sc b else eval plain w sc e
  | .other => .beyond

def evalList (plain : Bool) (w : World) (sc : Scope) : List Expr → Res (List Val)
  | [] => .ok []
  | e :: es => (eval plain w sc e).bind fun v => (evalList plain w sc es).map (v :: ·)

/-- `a < b < c`: every operand is compared with the next one. -/
def compare (plain : Bool) (w : World) (sc : Scope) (left : Val) : List (CmpOp × Expr) → Res Val
  | [] => .ok (.bool true)
  | (op, e) :: rest =>
    (eval plain w sc e).bind fun r => (compareOne plain left op r).bind fun b =>
      if b then compare plain w sc r rest else .ok (.bool false)

/-- `a and b and c`: the first operand that is not true, or the last. -/
def allOf (plain : Bool) (w : World) (sc : Scope) : List Expr → Res Val
  | [] => .beyond
  | e :: es =>
    (eval plain w sc e).bind fun v => (truth plain v).bind fun b =>
      if b && !es.isEmpty then allOf plain w sc es else .ok v

/-- `a or b or c`: the first operand that is true, or the last. -/
def anyOf (plain : Bool) (w : World) (sc : Scope) : List Expr → Res Val
  | [] => .beyond
  | e :: es =>
    (eval plain w sc e).bind fun v => (truth plain v).bind fun b =>
      if !b && !es.isEmpty then anyOf plain w sc es else .ok v

/-- The items of a dictionary whose keys are texts. -/
def evalDict (plain : Bool) (w : World) (sc : Scope) (acc : Env) : List (Option Expr × Expr) → Res Env
  | [] => .ok acc
  | (none, e) :: items =>
    quirk plain ((eval plain w sc e).bind fun v =>
      match v with
      | .dict m => evalDict plain w sc (m.foldl (fun a p => mset a p.1 p.2) acc) items
      | _ => .beyond)
  | (some k, e) :: items =>
    (eval plain w sc k).bind fun kv => (eval plain w sc e).bind fun v =>
      match kv with
      | .str s => evalDict plain w sc (mset acc s v) items
      | _ => .beyond

end

/-! ## Command functions -/

/-- `env.PATH.prepend` as `["env", "PATH", "prepend"]`. -/
def path : Expr → Option (List Str)
  | .name x => some [x]
  | .attr e a => (path e).map (· ++ [a])
  | _ => none

/-- What a call does, by the name of the function and its arguments. -/
def actionOf (f : List Str) (args : List Str) : Option Action :=
  match f, args with
  | [f], [] => if f = c!"stop" then some (.stop none) else none
  | [f], [a] =>
    if f = c!"unsetenv" then some (.unsetenv a)
    else if f = c!"resetenv" then some (.resetenv a)
    else if f = c!"command" then some (.command a)
    else if f = c!"source" then some (.source a)
    else if f = c!"info" then some (.info a)
    else if f = c!"error" then some (.error a)
    else if f = c!"stop" then some (.stop (some a))
    else none
  | [f], [a, b] =>
    if f = c!"setenv" then some (.setenv a b)
    else if f = c!"prependenv" then some (.prependPath a b none)
    else if f = c!"appendenv" then some (.appendPath a b none)
    else if f = c!"alias" then some (.alias a b)
    else none
  | [o, f], [a] => if o = c!"env" ∧ f = c!"unsetenv" then some (.unsetenv a) else none
  | [o, f], [a, b] =>
    if o ≠ c!"env" then none
    else if f = c!"setenv" then some (.setenv a b)
    else if f = c!"prepend_path" then some (.prependPath a b none)
    else if f = c!"append_path" then some (.appendPath a b none)
    else if f = c!"setenv_if_empty" then some (.setenvIfEmpty a b)
    else none
  | [o, x, f], [] => if o = c!"env" ∧ f = c!"unset" then some (.unsetenv x) else none
  | [o, x, f], [v] =>
    if o ≠ c!"env" then none
    else if f = c!"prepend" then some (.prependPath x v none)
    else if f = c!"append" then some (.appendPath x v none)
    else if f = c!"set" then some (.setenv x v)
    else none
  | _, _ => none

/-- The text can stand between quotes. -/
def quotable (s : Str) : Bool := s.all fun c => c != '"' && c != '\'' && c != '\n'

/-- The text that an argument stands for. -/
def argument (plain : Bool) (v : Val) : Res Str :=
  match v with
  | .str s => if quotable s then .ok s else quirk plain (.ok s)
  | .int i => .ok (numeral i)
  | .bool b => quirk plain (.ok (if b then c!"True" else c!"False"))
  | _ => .beyond

def arguments (plain : Bool) : List Val → Res (List Str)
  | [] => .ok []
  | v :: vs => (argument plain v).bind fun s => (arguments plain vs).map (s :: ·)

/-- The variable or alias that the action names has a name, without quotes. -/
def sound : Action → Bool
  | .setenv n _ | .prependPath n _ _ | .appendPath n _ _ | .setenvIfEmpty n _ | .alias n _ | .unsetenv n | .resetenv n =>
    !n.isEmpty && quotable n
  | _ => true

def doing (plain : Bool) (a : Option Action) : Res (List Action) :=
  match a with
  | some a => if sound a then .ok [a] else quirk plain (.ok [a])
  | none => .beyond

/-- The names a command function assigns. -/
def target : Expr → List Str
  | .name x => [x]
  | _ => []

mutual

def assigned : Stmt → List Str
  | .assign targets _ => targets.flatMap target
  | .imports names => names.map Prod.fst
  | .ifStmt _ b e => assignedIn b ++ assignedIn e
  | .function n _ => [n]
  | _ => []

def assignedIn : List Stmt → List Str
  | [] => []
  | s :: ss => assigned s ++ assignedIn ss

end

/-- An assignment in a command function. -/
def assign (plain : Bool) (w : World) (sc : Scope) (targets : List Expr) (value : Expr) : Res (Env × List Action) :=
  match targets with
  | [.name x] => (eval plain w sc value).map fun v => (mset sc.locals x v, [])
  | [.attr (.name o) x] =>
    if o = c!"env" ∧ (sc.look c!"env").isNone then
      (unnoticed plain (eval plain w sc value)).bind fun v => (argument plain v).bind fun s =>
        (doing plain (some (.setenv x s))).map fun l => (sc.locals, l)
    else .beyond
  | [.sub (.name o) (.const (.str x))] =>
    if o = c!"env" ∧ (sc.look c!"env").isNone then
      quirk plain ((eval plain w sc value).bind fun v => (argument plain v).bind fun s =>
        (doing plain (some (.setenv x s))).map fun l => (sc.locals, l))
    else .beyond
  | _ => .beyond

/-- A call as a statement: the function must be one that Rex provides, and not be hidden by a variable. -/
def call (plain : Bool) (w : World) (sc : Scope) (f : Expr) (args : List Expr) : Res (List Action) :=
  match path f with
  | some (h :: r) =>
    if (sc.look h).isSome || h ∈ sc.names then .beyond
    else if (actionOf (h :: r) (args.map fun _ => [])).isNone then .beyond
    else if plain && args.isEmpty && !r.isEmpty then .beyond
    else (evalList plain w sc args).bind fun vs => (arguments plain vs).bind fun ts => doing plain (actionOf (h :: r) ts)
  | _ => .beyond

mutual

/-- What a statement of a command function does: the variables of the function afterwards, and the actions. -/
def run (plain : Bool) (w : World) (sc : Scope) : Stmt → Res (Env × List Action)
  | .assign targets value => assign plain w sc targets value
  | .ifStmt t b e =>
    (eval plain w sc t).bind fun v => (truth plain v).bind fun c =>
      if c then runAll plain w sc b else runAll plain w sc e
  | .expr (.call f args keywords) => if keywords then .beyond else (call plain w sc f args).map fun l => (sc.locals, l)
  | .expr (.const _) => .ok (sc.locals, [])
  | .expr _ => .beyond
  | .imports names => .ok (names.foldl (fun m p => mset m p.1 (.module p.2)) sc.locals, [])
  | .pass => .ok (sc.locals, [])
  | .function _ _ => .beyond
  | .other => .beyond

def runAll (plain : Bool) (w : World) (sc : Scope) : List Stmt → Res (Env × List Action)
  | [] => .ok (sc.locals, [])
  | s :: ss =>
    (run plain w sc s).bind fun r => (runAll plain w { sc with locals := r.1 } ss).map fun q => (q.1, r.2 ++ q.2)

end

/-- The actions of a command function that is run when the variables of the file are `env`. -/
def actions (plain : Bool) (w : World) (env : Env) (body : List Stmt) : Res (List Action) :=
  (runAll plain w ⟨env, [], assignedIn body, true⟩ body).map Prod.snd

/-! ## The file -/

/-- The kinds of field. -/
inductive Kind where
  | text
  | list
  | bool
  | variants
  | tests
  | formatVersion
deriving DecidableEq

/-- The fields of a package and their kinds. -/
def fields : List (Str × Kind) :=
  [(c!"name", .text), (c!"version", .text), (c!"description", .text), (c!"authors", .list), (c!"requires", .list),
   (c!"build_requires", .list), (c!"private_build_requires", .list), (c!"variants", .variants), (c!"tools", .list),
   (c!"commands", .text), (c!"pre_commands", .text), (c!"post_commands", .text), (c!"pre_test_commands", .text),
   (c!"pre_build_commands", .text), (c!"tests", .tests), (c!"requires_rez_version", .text), (c!"uuid", .text),
   (c!"help", .text), (c!"relocatable", .bool), (c!"cachable", .bool), (c!"build_command", .text),
   (c!"build_system", .text), (c!"base", .text), (c!"hashed_variants", .bool), (c!"has_plugins", .bool),
   (c!"plugin_for", .list), (c!"format_version", .formatVersion), (c!"preprocess", .text)]

/-- The functions a package.py file may define. -/
def functions : List Str := [c!"commands", c!"pre_commands", c!"post_commands", c!"pre_test_commands"]

/-- The text of a text. -/
def strOf : Val → Option Str
  | .str s => some s
  | _ => none

/-- The elements of a list or tuple. -/
def listOf : Val → Option (List Val)
  | .list l | .tuple l => some l
  | _ => none

/-- The texts of a list of texts and integers. -/
def textsOf (v : Val) : Option (List Str) := (listOf v).bind fun l => l.mapM textOf

/-- The value is of the kind its field asks for. -/
def Kind.holds : Kind → Val → Bool
  | .text, v => (textOf v).isSome
  | .list, v => (textsOf v).isSome
  | .bool, .bool _ => true
  | .bool, .none => true
  | .variants, .list l => (l.mapM textsOf).isSome
  | .tests, .dict m => (m.mapM fun p => strOf p.2).isSome
  | .formatVersion, .int i => tiny i
  | _, _ => false

mutual

/-- The expression reads the variable. -/
def reads (x : Str) : Expr → Bool
  | .name y => y == x
  | .bin l _ r => reads x l || reads x r
  | .un _ e => reads x e
  | .cmp l rest => reads x l || readsCmp x rest
  | .and es => readsList x es
  | .or es => readsList x es
  | .list es => readsList x es
  | .tuple es => readsList x es
  | .dict items => readsDict x items
  | .call f args _ => reads x f || readsList x args
  | .attr e _ => reads x e
  | .ifexp t b e => reads x t || reads x b || reads x e
  | _ => false

def readsList (x : Str) : List Expr → Bool
  | [] => false
  | e :: es => reads x e || readsList x es

def readsCmp (x : Str) : List (CmpOp × Expr) → Bool
  | [] => false
  | (_, e) :: rest => reads x e || readsCmp x rest

def readsDict (x : Str) : List (Option Expr × Expr) → Bool
  | [] => false
  | (none, _) :: items => readsDict x items
  | (some k, e) :: items => reads x k || reads x e || readsDict x items

end

mutual

/-- The statement of a command function reads the variable. -/
def uses (x : Str) : Stmt → Bool
  | .assign targets value => targets.any (fun t => (target t).isEmpty && reads x t) || reads x value
  | .ifStmt t b e => reads x t || usesIn x b || usesIn x e
  | .expr e => reads x e
  | _ => false

def usesIn (x : Str) : List Stmt → Bool
  | [] => false
  | s :: ss => uses x s || usesIn x ss

end

/-- The command function needs the variable of the file: it reads it, as such or as `this.name` or `this.version`. -/
def needs (x : Str) (body : List Stmt) : Bool :=
  usesIn x body || ((x == c!"name" || x == c!"version") && usesIn c!"this" body)

/-- An assignment that is read as Python reads it: to one name, which the value does not use, with a value of the kind
the field asks for; variants are written out as a list. -/
def fair (x : Str) (value : Expr) (v : Val) : Bool :=
  !reads x value && ((mget fields x).elim true fun k => k.holds v) &&
    (x != c!"variants" || (match value with | .list _ => true | _ => false))

/-- An assignment to one target. -/
def bindTo (env : Env) (v : Val) : Expr → Res Env
  | .name x => .ok (mset env x v)
  | .tuple es =>
    match listOf v with
    | some l =>
      if es.length = l.length ∧ es.all (fun e => !(target e).isEmpty) then
        .ok ((es.flatMap target).zip l |>.foldl (fun m p => mset m p.1 p.2) env)
      else .beyond
    | none => .beyond
  | _ => .beyond

/-- An assignment to several targets, from left to right. -/
def bindAll (env : Env) (v : Val) : List Expr → Res Env
  | [] => .ok env
  | t :: ts => (bindTo env v t).bind fun env => bindAll env v ts

mutual

/-- What a statement of the file does to its variables. -/
def exec (plain : Bool) (w : World) (env : Env) : Stmt → Res Env
  | .assign targets value =>
    match targets with
    | [.name x] =>
      (eval plain w (.top env) value).bind fun v =>
        if fair x value v then .ok (mset env x v) else quirk plain (.ok (mset env x v))
    | ts => quirk plain ((eval plain w (.top env) value).bind fun v => bindAll env v ts)
  | .function n body =>
    if plain then
      if n ∈ functions then
        match actions plain w env body with
        | .ok _ => .ok (mset env n (.func body))
        | _ => .beyond
      else .beyond
    else .ok (mset env n (.func body))
  | .imports names =>
    if plain && names.any (fun p => (mget fields p.1).isSome) then .beyond
    else .ok (names.foldl (fun m p => mset m p.1 (.module p.2)) env)
  | .ifStmt t b e =>
    (eval plain w (.top env) t).bind fun v => (truth plain v).bind fun c =>
      if c then execAll plain w env b else execAll plain w env e
  | .expr e => (eval plain w (.top env) e).map fun _ => env
  | .pass => .ok env
  | .other => .beyond

def execAll (plain : Bool) (w : World) (env : Env) : List Stmt → Res Env
  | [] => .ok env
  | s :: ss => (exec plain w env s).bind fun env => execAll plain w env ss

end

/-- The variables of the file once Python has run it. -/
def namespaceOf (plain : Bool) (w : World) (file : List Stmt) : Res Env := execAll plain w [] file

/-- The file uses only what is read as Python reads it. -/
def Plain (w : World) (file : List Stmt) : Prop := namespaceOf true w file ≠ .beyond

/-! ## The package -/

/-- A field that holds a text. -/
def TextIs : Option Val → Option Str → Prop
  | none, o => o = none
  | some v, o => o.isSome = true ∧ o = textOf v

/-- A field that holds commands, as a text or as a function; what is written for a function is another matter. -/
def CommandIs : Option Val → Option Str → Prop
  | some (.func _), _ => True
  | v, o => TextIs v o

def ListIs : Option Val → List Str → Prop
  | none, l => l = []
  | some v, l => textsOf v = some l

def BoolIs : Option Val → Option Bool → Prop
  | none, o => o = none
  | some (.bool b), o => o = some b
  | some .none, o => o = none
  | some _, _ => False

def VariantsIs : Option Val → List (List Str) → Prop
  | none, l => l = []
  | some (.list vs), l => vs.mapM textsOf = some l
  | some _, _ => False

def TestsIs : Option Val → List (Str × Str) → Prop
  | none, l => l = []
  | some (.dict m), l => ∀ k, (mget m k).bind strOf = mget l k
  | some _, _ => False

def FormatIs : Option Val → Option Int → Prop
  | none, o => o = none
  | some (.int i), o => o = some i
  | some _, _ => False

/-- The package that the variables of the file declare. -/
structure Declares (env : Env) (p : Pkg) : Prop where
  name : TextIs (mget env c!"name") (some p.name)
  version : ∃ t, TextIs (mget env c!"version") t ∧
    (t = none ∧ p.version = none ∨ ∃ s v, t = some s ∧ Version.parse s = some v ∧ p.version = some v)
  description : TextIs (mget env c!"description") p.description
  authors : ListIs (mget env c!"authors") p.authors
  requires : ListIs (mget env c!"requires") p.requires
  buildRequires : ListIs (mget env c!"build_requires") p.buildRequires
  privateBuildRequires : ListIs (mget env c!"private_build_requires") p.privateBuildRequires
  variants : VariantsIs (mget env c!"variants") p.variants
  tools : ListIs (mget env c!"tools") p.tools
  commands : CommandIs (mget env c!"commands") p.commands
  commandsFunction : p.commandsFunction = p.commands
  buildCommand : TextIs (mget env c!"build_command") p.buildCommand
  buildSystem : TextIs (mget env c!"build_system") p.buildSystem
  preCommands : CommandIs (mget env c!"pre_commands") p.preCommands
  postCommands : CommandIs (mget env c!"post_commands") p.postCommands
  preTestCommands : CommandIs (mget env c!"pre_test_commands") p.preTestCommands
  preBuildCommands : TextIs (mget env c!"pre_build_commands") p.preBuildCommands
  tests : TestsIs (mget env c!"tests") p.tests
  requiresRezVersion : TextIs (mget env c!"requires_rez_version") p.requiresRezVersion
  uuid : TextIs (mget env c!"uuid") p.uuid
  help : TextIs (mget env c!"help") p.help
  relocatable : BoolIs (mget env c!"relocatable") p.relocatable
  cachable : BoolIs (mget env c!"cachable") p.cachable
  base : TextIs (mget env c!"base") p.base
  hashedVariants : BoolIs (mget env c!"hashed_variants") p.hashedVariants
  hasPlugins : BoolIs (mget env c!"has_plugins") p.hasPlugins
  pluginFor : ListIs (mget env c!"plugin_for") p.pluginFor
  formatVersion : FormatIs (mget env c!"format_version") p.formatVersion
  preprocess : TextIs (mget env c!"preprocess") p.preprocess
  rest : p.config = [] ∧ p.timestamp = none ∧ p.revision = none ∧ p.changelog = none ∧ p.releaseMessage = none ∧
    p.previousVersion = none ∧ p.previousRevision = none ∧ p.vcs = none ∧ p.isDev = none ∧ p.filepath = none ∧
    p.includes = none

/-- A package that can be accepted: it has a proper name, and no version or requirement is empty. -/
structure Acceptable (w : World) (p : Pkg) : Prop where
  name : p.name ≠ [] ∧ ∀ c ∈ p.name, w.alnum c = true ∨ c = '_' ∨ c = '-'
  version : ∀ v, p.version = some v → v.asStr ≠ []
  requires : [] ∉ p.requires
  buildRequires : [] ∉ p.buildRequires
  privateBuildRequires : [] ∉ p.privateBuildRequires
  variants : ∀ l ∈ p.variants, [] ∉ l

/-- The text of the commands that a function may define. -/
def commandText (p : Pkg) (n : Str) : Option Str :=
  if n = c!"commands" then p.commands
  else if n = c!"pre_commands" then p.preCommands
  else if n = c!"post_commands" then p.postCommands
  else if n = c!"pre_test_commands" then p.preTestCommands
  else none

/-- The text, if there is one, is read as these actions; no text means no action. -/
def Performs (text : Option Str) (acts : List Action) : Prop :=
  match text with
  | none => acts = []
  | some t => Rez.Rex.parse t = some acts

end Rez.Spec.Py
