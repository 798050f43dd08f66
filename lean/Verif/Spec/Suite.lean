import Verif.Model.Suite
/-!
# Specification vocabulary for suites
-/
namespace Rez.Spec.Suite
open Rez Rez.Suite

/-- The calls that change a suite. -/
inductive Op where
  | add (name : Str) (requests : List Str)
  | remove (name : Str)
  | setAlias (context name tool : Str)
  | hide (context tool : Str)

/-- A call: the answer, as an error or not. -/
def call (alnum : Char → Bool) (s : Suite) : Op → Except Err Suite
  | .add n r => s.add alnum n r
  | .remove n => s.remove n
  | .setAlias c n t => s.alias c n t
  | .hide c t => s.hide c t

/-- The suite after a call; an error leaves the suite alone. -/
def after (s : Suite) (answer : Except Err Suite) : Suite :=
  match answer with
  | .ok s' => s'
  | .error _ => s

/-- The suite after a sequence of calls on a new suite. -/
def history (alnum : Char → Bool) (ops : List Op) : Suite :=
  ops.foldl (fun s op => after s (call alnum s op)) Suite.new

/-- A name that a context may have. -/
def Valid (alnum : Char → Bool) (name : Str) : Prop := name ≠ [] ∧ ∀ c ∈ name, alnum c = true ∨ c = '-' ∨ c = '_'

/-- What a user put into a context: the requests, the tool behind each alias, the hidden tools. -/
structure Content where
  requests : List Str
  tool : Str → Option Str
  hidden : Str → Prop

/-- What can be seen of a context. -/
def view (c : Ctx) : Content := ⟨c.requests, mget c.aliases, (· ∈ c.hidden)⟩

open Classical in
/-- The contexts by name after a sequence of calls, told without suites: a valid new name comes with nothing but its
requests, the rest follows the calls. -/
noncomputable def contents (alnum : Char → Bool) : List Op → Str → Option Content
  | [], _ => none
  | op :: ops, name =>
    -- `ops` are the calls before `op`
    let f := contents alnum ops
    match op with
    | .add n r => if name = n ∧ Valid alnum n ∧ f n = none then some ⟨r, fun _ => none, fun _ => False⟩ else f name
    | .remove n => if name = n then none else f name
    | .setAlias c n t =>
      if name = c then (f c).map fun x => { x with tool := fun m => if m = n then some t else x.tool m } else f name
    | .hide c t =>
      if name = c then (f c).map fun x => { x with hidden := fun m => m = t ∨ x.hidden m } else f name

/-- The tool that a context offers under a name, if it is enabled, has that alias and does not hide the tool. -/
def offer (c : Ctx) (name : Str) : Option Tool :=
  if c.disabled then none
  else match mget c.aliases name with
    | none => none
    | some original =>
      if original ∈ c.hidden then none
      else some { name := name, original := original, context := c.name, package := c.requests.headD [],
                  isAlias := name ≠ original, isHidden := false }

/-- No name is offered by two contexts. -/
def NoClash (contexts : List Ctx) : Prop := contexts.Pairwise fun a b => ∀ name, offer a name = none ∨ offer b name = none

/-- The name under which a clashing tool is kept in prefix mode. -/
def prefixed (c : Ctx) (name : Str) : Str := c.name ++ c!"_" ++ name

end Rez.Spec.Suite
