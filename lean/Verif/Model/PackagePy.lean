/-
Model of how package.py is read: `crates/rez-next-package/src/python_ast_parser/{mod,types,eval,extract,commands}.rs`.
The Python parser (RustPython's) is trusted: the model starts from the syntax tree.
-/
import Verif.Base.Map
import Verif.Base.Text
import Verif.Model.Requirement
import Verif.Model.Rex
import Verif.Model.Serialization

namespace Rez.PackagePy
open Rez.Serial (Pkg)

/-- `map_err`-free chaining of calls with `?`. -/
def bind {α β : Type} (x : Outcome α) (f : α → Outcome β) : Outcome β :=
  match x with
  | .ok a => f a
  | .err => .err
  | .panic => .panic

/-- `.map`. -/
def map {α β : Type} (f : α → β) (x : Outcome α) : Outcome β := bind x fun a => .ok (f a)

/-! ## The syntax tree (`rustpython_ast`) -/

/-- `rustpython_ast::Constant`; integers are unbounded, fractions are given by their bits, `other` stands for bytes,
complex numbers, tuples and `...`. -/
inductive Const where
  | str (s : Str)
  | int (i : Int)
  | float (bits : Nat)
  | bool (b : Bool)
  | none
  | other
deriving DecidableEq

/-- `rustpython_ast::Operator`. -/
inductive BinOp where
  | add | sub | mul | other
deriving DecidableEq

/-- `rustpython_ast::UnaryOp`. -/
inductive UnOp where
  | not | plus | minus | other
deriving DecidableEq

/-- `rustpython_ast::CmpOp`. -/
inductive CmpOp where
  | eq | ne | lt | gt | other
deriving DecidableEq

/-- `rustpython_ast::Expr`. A comparison holds its first operand and the pairs of operators and further operands (their
numbers agree in every tree the parser returns). A call holds its positional arguments and whether it has keyword
arguments, which are never looked at. An item of a dictionary without key is `**value`. `other` stands for the kinds of
expression that are always refused. -/
inductive Expr where
  | const (c : Const)
  | name (x : Str)
  | bin (l : Expr) (op : BinOp) (r : Expr)
  | un (op : UnOp) (e : Expr)
  | cmp (l : Expr) (rest : List (CmpOp × Expr))
  | and (es : List Expr)
  | or (es : List Expr)
  | list (es : List Expr)
  | tuple (es : List Expr)
  | dict (items : List (Option Expr × Expr))
  | call (f : Expr) (args : List Expr) (keywords : Bool)
  | attr (e : Expr) (a : Str)
  | sub (e i : Expr)
  | ifexp (test body orelse : Expr)
  | other

/-- `rustpython_ast::Stmt`. An import holds the names it binds and what they stand for. `other` stands for the kinds of
statement that are always refused: loops, `try`, `with`, classes, augmented assignments and so on. -/
inductive Stmt where
  | assign (targets : List Expr) (value : Expr)
  | function (name : Str) (body : List Stmt)
  | imports (names : List (Str × Str))
  | ifStmt (test : Expr) (body orelse : List Stmt)
  | expr (e : Expr)
  | pass
  | other

/-! ## Values (`types.rs`) -/

/-- types.rs:15-24 `PythonValue`. -/
inductive Value where
  | str (s : Str)
  | int (i : Int)
  | float (bits : Nat)
  | bool (b : Bool)
  | list (l : List Value)
  | dict (m : List (Str × Value))
  | none

/-- types.rs:8-9 `ParsingContext::variables`; the imports are never read. -/
abbrev Vars := List (Str × Value)

/-- What the program gets from outside: environment variables (`std::env::var`), `str::to_lowercase`, arithmetic on
fractions and how they are written, the two texts chosen by `cfg!` (eval.rs:309-325), `char::is_alphanumeric`, and
whether the build checks integer overflow (debug builds do, the release profile does not). `provided` are names Python
itself knows; only the reference semantics looks at it. -/
structure World where
  getenv : Str → Option Str
  lower : Str → Str
  fadd : Nat → Nat → Nat
  fneg : Nat → Nat
  fshow : Nat → Str
  platform : Str
  osName : Str
  alnum : Char → Bool
  checks : Bool
  provided : Str → Bool

/-- The integer is an `i64`. -/
def fits (i : Int) : Bool := -2 ^ 63 ≤ i && i < 2 ^ 63

/-- The result of an operation on `i64`. -/
def arith (w : World) (i : Int) : Outcome Value :=
  if fits i then .ok (.int i) else if w.checks then .panic else .ok (.int (i.bmod (2 ^ 64)))

/-- `i64::to_string`. -/
def intText : Int → Str
  | .ofNat n => decimal n
  | .negSucc n => '-' :: decimal (n + 1)

/-- `bool::to_string`. -/
def boolText (b : Bool) : Str := if b then c!"true" else c!"false"

/-- `str::repeat(n as usize)`: a capacity above `isize::MAX` panics. -/
def repeatStr (s : Str) (n : Int) : Outcome Value :=
  let n := (n % 2 ^ 64).toNat
  if 2 ^ 63 ≤ byteLen s * n then .panic else .ok (.str (List.replicate n s).flatten)

/-- eval.rs:47-69 `evaluate_constant`. -/
def constant : Const → Outcome Value
  | .str s => .ok (.str s)
  | .int i => if fits i then .ok (.int i) else .err
  | .float f => .ok (.float f)
  | .bool b => .ok (.bool b)
  | .none => .ok .none
  | .other => .err

/-- eval.rs:79-107, once both sides are known. -/
def binop (w : World) : Value → BinOp → Value → Outcome Value
  | .str l, .add, .str r => .ok (.str (l ++ r))
  | .int l, .add, .int r => arith w (l + r)
  | .float l, .add, .float r => .ok (.float (w.fadd l r))
  | .list l, .add, .list r => .ok (.list (l ++ r))
  | .int l, .sub, .int r => arith w (l - r)
  | .int l, .mul, .int r => arith w (l * r)
  | .str l, .mul, .int r => repeatStr l r
  | _, _, _ => .err

/-- eval.rs:117-127, once the operand is known. -/
def unop (w : World) : UnOp → Value → Outcome Value
  | .not, .bool b => .ok (.bool !b)
  | .plus, .int i => .ok (.int i)
  | .minus, .int i => arith w (-i)
  | .plus, .float f => .ok (.float f)
  | .minus, .float f => .ok (.float (w.fneg f))
  | _, _ => .err

/-- eval.rs:146-159: one comparison. -/
def compareOne : Value → CmpOp → Value → Outcome Bool
  | .int l, .eq, .int r => .ok (l == r)
  | .str l, .eq, .str r => .ok (l == r)
  | .str l, .ne, .str r => .ok (l != r)
  | .bool l, .eq, .bool r => .ok (l == r)
  | .int l, .lt, .int r => .ok (decide (l < r))
  | .int l, .gt, .int r => .ok (decide (l > r))
  | _, _, _ => .err

/-- eval.rs:285-295: the text of an argument of `format`. -/
def formatArg (w : World) : Value → Outcome Str
  | .str s => .ok s
  | .int i => .ok (intText i)
  | .float f => .ok (w.fshow f)
  | .bool b => .ok (boolText b)
  | _ => .err

/-- eval.rs:281-282: the characters that stand for escaped braces. -/
def openMark : Char := Char.ofNat 0xe000
/-- eval.rs:282 -/
def closeMark : Char := Char.ofNat 0xe001

/-- eval.rs:283: the escaped braces are set aside. -/
def formatHide (s : Str) : Str := Rex.replaceAll c!"}}" [closeMark] (Rex.replaceAll c!"{{" [openMark] s)

/-- eval.rs:296: one argument is put in place. -/
def formatPut (s : Str) (i : Nat) (arg : Str) : Str := Rex.replaceAll ('{' :: decimal i ++ c!"}") arg s

/-- eval.rs:298-300: the braces come back. -/
def formatShow (s : Str) : Str := Rex.replaceAll [closeMark] c!"}" (Rex.replaceAll [openMark] c!"{" s)

/-- eval.rs:337-353: `this.version.major` and so on. -/
def versionPart (version a : Str) : Option Str :=
  if a == c!"major" then (splitChar '.' version)[0]?
  else if a == c!"minor" then (splitChar '.' version)[1]?
  else if a == c!"patch" then (splitChar '.' version)[2]?
  else none

/-- eval.rs:303-359 `evaluate_attribute`. -/
def attrValue (w : World) (vars : Vars) : Expr → Str → Outcome Value
  | .name o, a =>
    if o == c!"system" && a == c!"platform" then .ok (.str w.platform)
    else if o == c!"os" && a == c!"name" then .ok (.str w.osName)
    else if o == c!"this" && a == c!"version" then (mget vars c!"version").elim .err .ok
    else if o == c!"this" && a == c!"name" then (mget vars c!"name").elim .err .ok
    else .err
  | .attr (.name o) v, a =>
    if o == c!"this" && v == c!"version" then
      match mget vars c!"version" with
      | some (.str s) => (versionPart s a).elim .err fun t => .ok (.str t)
      | _ => .err
    else .err
  | _, _ => .err

/-- `matches!(e, Expr::Name(n) if n.id == x)`. -/
def isName (x : Str) : Expr → Bool
  | .name y => y == x
  | _ => false

/-- eval.rs:248-256: the default of `os.getenv`. -/
def orDefault : Option Value → Value
  | some v => v
  | none => .none

mutual

/-- eval.rs:11-43 `evaluate_expression`, with `evaluate_binary_operation` (71-108), `evaluate_unary_operation` (111-128),
`evaluate_comparison` (130-166), `evaluate_boolean_operation` (168-193), `evaluate_list` (195-202), `evaluate_tuple`
(204-214), `evaluate_dict` (216-234), `evaluate_function_call` (236-274), `format_string` (276-301) and
`evaluate_subscript` (361-369). -/
def eval (w : World) (vars : Vars) : Expr → Outcome Value
  | .const c => constant c
  | .name x => (mget vars x).elim .err .ok
  | .bin l op r => bind (eval w vars l) fun a => bind (eval w vars r) fun b => binop w a op b
  | .un op e => bind (eval w vars e) fun a => unop w op a
  | .cmp l rest => bind (eval w vars l) fun a => evalCmp w vars a rest
  | .and es => evalAnd w vars es
  | .or es => evalOr w vars es
  | .list es => map Value.list (evalList w vars es)
  | .tuple es => map Value.list (evalList w vars es)
  | .dict items => map Value.dict (evalDict w vars [] items)
  | .call (.attr e m) args _ =>
    if isName c!"os" e && m == c!"getenv" then
      bind (evalFirst w vars args) fun v =>
        match v with
        | some (.str n) =>
          match w.getenv n with
          | some t => .ok (.str t)
          | none => map orDefault (evalSecond w vars args)
        | _ => .err
    else if m == c!"lower" then
      bind (eval w vars e) fun v =>
        match v with
        | .str s => .ok (.str (w.lower s))
        | _ => .err
    else if m == c!"format" then
      bind (eval w vars e) fun v =>
        match v with
        | .str s => map (fun t => .str (formatShow t)) (evalFormat w vars 0 (formatHide s) args)
        | _ => .err
    else .err
  | .call _ _ _ => .err
  | .attr e a => attrValue w vars e a
  | .sub _ _ => .err
  | .ifexp t b e =>
    bind (eval w vars t) fun v =>
      match v with
      | .bool true => eval w vars b
      | .bool false => eval w vars e
      | _ => .err
  | .other => .err

/-- eval.rs:197-201, 209-213: the elements in turn. -/
def evalList (w : World) (vars : Vars) : List Expr → Outcome (List Value)
  | [] => .ok []
  | e :: es => bind (eval w vars e) fun v => map (v :: ·) (evalList w vars es)

/-- eval.rs:143-165: every further operand is compared with the first one. -/
def evalCmp (w : World) (vars : Vars) (left : Value) : List (CmpOp × Expr) → Outcome Value
  | [] => .ok (.bool true)
  | (op, e) :: rest =>
    bind (eval w vars e) fun r => bind (compareOne left op r) fun b =>
      if b then evalCmp w vars left rest else .ok (.bool false)

/-- eval.rs:174-182: the first `False` decides. -/
def evalAnd (w : World) (vars : Vars) : List Expr → Outcome Value
  | [] => .ok (.bool true)
  | e :: es =>
    bind (eval w vars e) fun v =>
      match v with
      | .bool false => .ok (.bool false)
      | _ => evalAnd w vars es

/-- eval.rs:183-191: the first `True` decides. -/
def evalOr (w : World) (vars : Vars) : List Expr → Outcome Value
  | [] => .ok (.bool false)
  | e :: es =>
    bind (eval w vars e) fun v =>
      match v with
      | .bool true => .ok (.bool true)
      | _ => evalOr w vars es

/-- eval.rs:218-233: an item without key is skipped. -/
def evalDict (w : World) (vars : Vars) (acc : List (Str × Value)) : List (Option Expr × Expr) → Outcome (List (Str × Value))
  | [] => .ok acc
  | (none, _) :: items => evalDict w vars acc items
  | (some k, e) :: items =>
    bind (eval w vars k) fun kv => bind (eval w vars e) fun v =>
      match kv with
      | .str s => evalDict w vars (mset acc s v) items
      | _ => .err

/-- eval.rs:244-246: `call.args.first()`, evaluated. -/
def evalFirst (w : World) (vars : Vars) : List Expr → Outcome (Option Value)
  | [] => .ok none
  | e :: _ => map some (eval w vars e)

/-- eval.rs:251-255: `call.args.get(1)`, evaluated. -/
def evalSecond (w : World) (vars : Vars) : List Expr → Outcome (Option Value)
  | _ :: e :: _ => map some (eval w vars e)
  | _ => .ok none

/-- eval.rs:284-297: the arguments are put in place one after the other. -/
def evalFormat (w : World) (vars : Vars) (i : Nat) (text : Str) : List Expr → Outcome Str
  | [] => .ok text
  | e :: es =>
    bind (eval w vars e) fun v => bind (formatArg w v) fun t => evalFormat w vars (i + 1) (formatPut text i t) es

end

/-! ## Typed values (`extract.rs`) -/

/-- extract.rs:10-33 `extract_string_value`. -/
def extractText (w : World) (vars : Vars) (e : Expr) : Outcome Str :=
  match eval w vars e with
  | .panic => .panic
  | .ok (.str s) => .ok s
  | .ok (.int i) => .ok (intText i)
  | .ok (.float f) => .ok (w.fshow f)
  | .ok (.bool b) => .ok (boolText b)
  | _ =>
    match e with
    | .const (.str s) => .ok s
    | .const (.int i) => .ok (intText i)
    | .const (.float f) => .ok (w.fshow f)
    | _ => .err

/-- extract.rs:35-55 `extract_bool_value`. -/
def extractBool (w : World) (vars : Vars) (e : Expr) : Outcome (Option Bool) :=
  match eval w vars e with
  | .panic => .panic
  | .ok (.bool b) => .ok (some b)
  | .ok .none => .ok none
  | _ =>
    match e with
    | .const (.bool b) => .ok (some b)
    | .const .none => .ok none
    | _ => .err

/-- extract.rs:57-77 `extract_int_value`; `as i32` keeps the low 32 bits. -/
def extractInt (w : World) (vars : Vars) (e : Expr) : Outcome Int :=
  match eval w vars e with
  | .panic => .panic
  | .ok (.int i) => .ok (i.bmod (2 ^ 32))
  | _ =>
    match e with
    | .const (.int i) => if -2 ^ 31 ≤ i && i < 2 ^ 31 then .ok i else .err
    | _ => .err

/-- extract.rs:83-97: the items of a list field. -/
def itemTexts (w : World) : List Value → Outcome (List Str)
  | [] => .ok []
  | v :: vs => bind (formatArg w v) fun t => map (t :: ·) (itemTexts w vs)

/-- extract.rs:101-114: the elements one by one. -/
def extractTexts (w : World) (vars : Vars) : List Expr → Outcome (List Str)
  | [] => .ok []
  | e :: es => bind (extractText w vars e) fun t => map (t :: ·) (extractTexts w vars es)

/-- extract.rs:79-120 `extract_string_list`; the items are turned into texts as in `format`. -/
def extractList (w : World) (vars : Vars) (e : Expr) : Outcome (List Str) :=
  match eval w vars e with
  | .panic => .panic
  | .ok (.list l) => itemTexts w l
  | _ =>
    match e with
    | .list es => extractTexts w vars es
    | .tuple es => extractTexts w vars es
    | _ => .err

/-- extract.rs:125-131: the variants one by one. -/
def extractLists (w : World) (vars : Vars) : List Expr → Outcome (List (List Str))
  | [] => .ok []
  | e :: es => bind (extractList w vars e) fun t => map (t :: ·) (extractLists w vars es)

/-- extract.rs:122-137 `extract_variants`. -/
def extractVariants (w : World) (vars : Vars) : Expr → Outcome (List (List Str))
  | .list es => extractLists w vars es
  | _ => .err

/-- extract.rs:145-158: the tests when all are texts. The order in which the map is visited does not matter. -/
def testTexts : List (Str × Value) → Outcome (List (Str × Str))
  | [] => .ok []
  | (k, .str s) :: m => map ((k, s) :: ·) (testTexts m)
  | _ :: _ => .err

/-- extract.rs:160-171: the items one by one. -/
def extractItems (w : World) (vars : Vars) (acc : List (Str × Str)) : List (Option Expr × Expr) → Outcome (List (Str × Str))
  | [] => .ok acc
  | (none, _) :: items => extractItems w vars acc items
  | (some k, e) :: items =>
    bind (extractText w vars k) fun s => bind (extractText w vars e) fun t => extractItems w vars (mset acc s t) items

/-- extract.rs:139-178 `extract_tests`. -/
def extractTests (w : World) (vars : Vars) (e : Expr) : Outcome (List (Str × Str)) :=
  match eval w vars e with
  | .panic => .panic
  | .ok (.dict m) => testTexts m
  | _ =>
    match e with
    | .dict items => extractItems w vars [] items
    | _ => .err

/-! ## Commands (`commands.rs`) -/

/-- `format!("name('{}')", a)`. -/
def say1 (name a : Str) : Str := name ++ c!"('" ++ a ++ c!"')"

/-- `format!("name('{}', '{}')", a, b)`. -/
def say2 (name a b : Str) : Str := name ++ c!"('" ++ a ++ c!"', '" ++ b ++ c!"')"

/-- `if let (Ok(a), Ok(b)) = (x, y)`: both are evaluated. -/
def both (x y : Outcome Str) (f : Str → Str → Str) : Outcome Str :=
  match x, y with
  | .panic, _ => .panic
  | _, .panic => .panic
  | .ok a, .ok b => .ok (f a b)
  | _, _ => .err

/-- A call with two texts: at least two arguments are needed, further ones are ignored. -/
def callTwo (w : World) (vars : Vars) (name : Str) : List Expr → Outcome Str
  | a :: b :: _ => both (extractText w vars a) (extractText w vars b) (say2 name)
  | _ => .err

/-- A call with one text: further arguments are ignored. -/
def callOne (w : World) (vars : Vars) (name : Str) : List Expr → Outcome Str
  | a :: _ => map (say1 name) (extractText w vars a)
  | _ => .err

/-- commands.rs:130-179: `env.method(...)`. -/
def envMethod (w : World) (vars : Vars) (m : Str) (args : List Expr) : Outcome Str :=
  if m == c!"setenv" then callTwo w vars c!"env.setenv" args
  else if m == c!"unsetenv" then callOne w vars c!"env.unsetenv" args
  else if m == c!"prepend_path" then callTwo w vars c!"env.prepend_path" args
  else if m == c!"append_path" then callTwo w vars c!"env.append_path" args
  else if m == c!"setenv_if_empty" then callTwo w vars c!"env.setenv_if_empty" args
  else .err

/-- commands.rs:187-216: `env.VAR.method(value)`; the argument is evaluated before the method is looked at. -/
def varMethod (w : World) (vars : Vars) (x m : Str) : List Expr → Outcome Str
  | a :: _ =>
    bind (extractText w vars a) fun v =>
      if m == c!"prepend" then .ok (say2 c!"env.prepend_path" x v)
      else if m == c!"append" then .ok (say2 c!"env.append_path" x v)
      else if m == c!"set" then .ok (say2 c!"env.setenv" x v)
      else if m == c!"unset" then .ok (say1 c!"env.unsetenv" x)
      else .err
  | [] => .err

/-- commands.rs:222-305: calls without object. -/
def freeCall (w : World) (vars : Vars) (f : Str) (args : List Expr) : Outcome Str :=
  if f == c!"alias" then callTwo w vars f args
  else if f == c!"command" then callOne w vars f args
  else if f == c!"source" then callOne w vars f args
  else if f == c!"info" then callOne w vars f args
  else if f == c!"error" then callOne w vars f args
  else if f == c!"stop" then if args.isEmpty then .ok c!"stop()" else callOne w vars f args
  else if f == c!"resetenv" then callOne w vars f args
  else if f == c!"setenv" then callTwo w vars f args
  else if f == c!"prependenv" then callTwo w vars f args
  else if f == c!"appendenv" then callTwo w vars f args
  else if f == c!"unsetenv" then callOne w vars f args
  else .err

/-- commands.rs:122-311: a call as a statement. -/
def callText (w : World) (vars : Vars) : Expr → List Expr → Outcome Str
  | .attr (.name o) m, args => if o == c!"env" then envMethod w vars m args else .err
  | .attr (.attr (.name o) x) m, args => if o == c!"env" then varMethod w vars x m args else .err
  | .name f, args => freeCall w vars f args
  | _, _ => .err

/-- commands.rs:103-118: an assignment in a command function. A value that cannot be evaluated drops the assignment to a
variable of the environment, and so does any other target. -/
def commandAssign (w : World) (vars : Vars) (targets : List Expr) (value : Expr) : Outcome (Vars × Option Str) :=
  match targets with
  | .name x :: _ => map (fun v => (mset vars x v, none)) (eval w vars value)
  | .attr (.name o) x :: _ =>
    if o == c!"env" then
      match extractText w vars value with
      | .panic => .panic
      | .ok v => .ok (vars, some (say2 c!"env.setenv" x v))
      | .err => .ok (vars, none)
    else .ok (vars, none)
  | _ => .ok (vars, none)

/-- `(!commands.is_empty()).then(|| commands.join("\n"))`. -/
def joinCommands (l : List Str) : Option Str := if l.isEmpty then none else some (joinWith c!"\n" l)

mutual

/-- commands.rs:76-322 `extract_command_from_statement`. -/
def command (w : World) (vars : Vars) : Stmt → Outcome (Vars × Option Str)
  | .ifStmt t b e =>
    bind (eval w vars t) fun v =>
      match v with
      | .bool true => map (fun r => (r.1, joinCommands r.2)) (commands w vars b)
      | .bool false => map (fun r => (r.1, joinCommands r.2)) (commands w vars e)
      | _ => .err
  | .assign targets value => commandAssign w vars targets value
  | .expr (.call f args _) => map (fun t => (vars, some t)) (callText w vars f args)
  | .expr _ => .ok (vars, none)
  | .imports _ => .ok (vars, none)
  | .pass => .ok (vars, none)
  | .function _ _ => .err
  | .other => .err

/-- commands.rs:91-96, 56-61: the commands of the statements in turn. -/
def commands (w : World) (vars : Vars) : List Stmt → Outcome (Vars × List Str)
  | [] => .ok (vars, [])
  | s :: ss =>
    bind (command w vars s) fun r => map (fun q => (q.1, r.2.toList ++ q.2)) (commands w r.1 ss)

end

/-- commands.rs:50-66 `process_command_function_body`: the variables set inside are forgotten. -/
def functionBody (w : World) (vars : Vars) (body : List Stmt) : Outcome (Option Str) :=
  map (fun r => joinCommands r.2) (commands w vars body)

/-! ## Statements (`mod.rs`) -/

/-- types.rs:28-59 `PackageData`: the fields of each type by name. A field that is absent has its default. `extra_fields`
is never read. -/
structure Data where
  texts : List (Str × Option Str) := []
  lists : List (Str × List Str) := []
  bools : List (Str × Option Bool) := []
  variants : List (List Str) := []
  tests : List (Str × Str) := []
  formatVersion : Option Int := none
  commands : Option Str := none

/-- The fields of `PackageData` of type `Option<String>` set from a text. -/
def textFields : List Str :=
  [c!"name", c!"version", c!"description", c!"build_command", c!"build_system", c!"uuid", c!"pre_commands",
   c!"post_commands", c!"pre_test_commands", c!"pre_build_commands", c!"requires_rez_version", c!"help", c!"base",
   c!"preprocess"]

/-- The fields of type `Vec<String>`. -/
def listFields : List Str :=
  [c!"authors", c!"requires", c!"build_requires", c!"private_build_requires", c!"tools", c!"plugin_for"]

/-- The fields of type `Option<bool>`. -/
def boolFields : List Str := [c!"relocatable", c!"cachable", c!"hashed_variants", c!"has_plugins"]

/-- mod.rs:209-301: the field set by an assignment; the value is evaluated again. -/
def setField (w : World) (vars : Vars) (x : Str) (value : Expr) (d : Data) : Outcome Data :=
  if x ∈ textFields then map (fun t => { d with texts := mset d.texts x (some t) }) (extractText w vars value)
  else if x ∈ listFields then map (fun l => { d with lists := mset d.lists x l }) (extractList w vars value)
  else if x ∈ boolFields then map (fun b => { d with bools := mset d.bools x b }) (extractBool w vars value)
  else if x == c!"variants" then map (fun l => { d with variants := l }) (extractVariants w vars value)
  else if x == c!"tests" then map (fun l => { d with tests := l }) (extractTests w vars value)
  else if x == c!"format_version" then map (fun i => { d with formatVersion := some i }) (extractInt w vars value)
  else if x == c!"commands" then
    match extractText w vars value with
    | .panic => .panic
    | .ok t => .ok { d with commands := some t }
    | .err => .ok d
  else .ok d

/-- mod.rs:197-303 `process_assignment`. -/
def assignment (w : World) (x : Str) (value : Expr) (s : Vars × Data) : Outcome (Vars × Data) :=
  bind (eval w s.1 value) fun v =>
    let vars := mset s.1 x v
    map (fun d => (vars, d)) (setField w vars x value s.2)

/-- mod.rs:142-169 `process_function_definition`. -/
def definition (w : World) (name : Str) (body : List Stmt) (s : Vars × Data) : Outcome (Vars × Data) :=
  if name == c!"commands" then map (fun t => (s.1, { s.2 with commands := t })) (functionBody w s.1 body)
  else if name ∈ [c!"pre_commands", c!"post_commands", c!"pre_test_commands"] then
    map (fun t => (s.1, { s.2 with texts := mset s.2.texts name t })) (functionBody w s.1 body)
  else .err

mutual

/-- mod.rs:56-103 `process_statement`, with `process_if_statement` (171-195). -/
def process (w : World) (s : Vars × Data) : Stmt → Outcome (Vars × Data)
  | .assign targets value =>
    match targets with
    | .name x :: _ => assignment w x value s
    | _ => .ok s
  | .function name body => definition w name body s
  | .imports _ => .ok s
  | .ifStmt t b e =>
    bind (eval w s.1 t) fun v =>
      match v with
      | .bool true => processAll w s b
      | .bool false => processAll w s e
      | _ => .err
  | .expr e => map (fun _ => s) (eval w s.1 e)
  | .pass => .ok s
  | .other => .err

/-- mod.rs:49-51: the statements in turn. -/
def processAll (w : World) (s : Vars × Data) : List Stmt → Outcome (Vars × Data)
  | [] => .ok s
  | st :: rest => bind (process w s st) fun s => processAll w s rest

end

/-- A field of type `Option<String>`. -/
def Data.text (d : Data) (f : Str) : Option Str := (mget d.texts f).join

/-- A field of type `Vec<String>`. -/
def Data.list (d : Data) (f : Str) : List Str := (mget d.lists f).getD []

/-- A field of type `Option<bool>`. -/
def Data.bool (d : Data) (f : Str) : Option Bool := (mget d.bools f).join

/-- mod.rs:369-405: the package, with the version already parsed. -/
def Data.package (d : Data) (name : Str) (version : Option Version) : Pkg :=
  { Pkg.new name with
    version := version
    description := d.text c!"description"
    buildCommand := d.text c!"build_command"
    buildSystem := d.text c!"build_system"
    preCommands := d.text c!"pre_commands"
    postCommands := d.text c!"post_commands"
    preTestCommands := d.text c!"pre_test_commands"
    preBuildCommands := d.text c!"pre_build_commands"
    tests := d.tests
    requiresRezVersion := d.text c!"requires_rez_version"
    uuid := d.text c!"uuid"
    authors := d.list c!"authors"
    requires := d.list c!"requires"
    buildRequires := d.list c!"build_requires"
    privateBuildRequires := d.list c!"private_build_requires"
    tools := d.list c!"tools"
    variants := d.variants
    help := d.text c!"help"
    relocatable := d.bool c!"relocatable"
    cachable := d.bool c!"cachable"
    commands := d.commands
    commandsFunction := d.commands
    base := d.text c!"base"
    hashedVariants := d.bool c!"hashed_variants"
    hasPlugins := d.bool c!"has_plugins"
    pluginFor := d.list c!"plugin_for"
    formatVersion := d.formatVersion
    preprocess := d.text c!"preprocess" }

/-- mod.rs:363-410 `build_package`. -/
def build (w : World) (d : Data) : Outcome Pkg :=
  match d.text c!"name" with
  | none => .err
  | some name =>
    match (d.text c!"version").elim (some none) fun t => (Version.parse t).map some with
    | none => .err
    | some version =>
      let p := d.package name version
      if p.validate w.alnum then .ok p else .err

/-- mod.rs:36-54 `parse_package_py`, from the syntax tree. -/
def load (w : World) (file : List Stmt) : Outcome Pkg :=
  bind (processAll w ([], {}) file) fun s => build w s.2

end Rez.PackagePy
