import Verif.Spec.Serialization
import Verif.Spec.PackagePy
/-!
# Specification vocabulary for package.py files that are saved and loaded
-/
namespace Rez.Spec.Saved
open Rez Rez.Serial
open Rez.Spec.Serial (Program)

mutual

/-- The syntax tree of a string, a truth value or a list. -/
def exprOf : Spec.Serial.Py → PackagePy.Expr
  | .str s => .const (.str s)
  | .bool b => .const (.bool b)
  | .list l => .list (exprsOf l)

def exprsOf : List Spec.Serial.Py → List PackagePy.Expr
  | [] => []
  | e :: es => exprOf e :: exprsOf es

end

/-- The syntax tree of an assignment. -/
def stmtOf : Spec.Serial.Stmt → PackagePy.Stmt
  | .assign n e => .assign [.name n] (exprOf e)
  | .function _ _ => .other

/-- The Python parser gives the syntax tree of every program that is made of assignments. -/
def ParserOk (parse : Str → Option (List PackagePy.Stmt)) : Prop :=
  ∀ s l, Program s l → (∀ st ∈ l, ∃ n e, st = .assign n e) → parse s = some (l.map stmtOf)

/-- Python files are read by that parser and the reader of package.py files. -/
def ReadsPython (c : Codecs) (w : PackagePy.World) (parse : Str → Option (List PackagePy.Stmt)) : Prop :=
  ∀ s, c.python s = (parse s).bind fun f =>
    match PackagePy.load w f with
    | .ok p => some p
    | _ => none

/-- What files that are saved as Python keep of a package. -/
def kept (p : Pkg) : Pkg :=
  { name := p.name, version := p.version, description := p.description, authors := p.authors, requires := p.requires,
    buildRequires := p.buildRequires, variants := p.variants, tools := p.tools }

/-- What the `package.py` of a package without commands keeps. -/
def exported (p : Pkg) : Pkg :=
  { name := p.name, version := p.version, description := p.description, authors := p.authors, requires := p.requires,
    buildRequires := p.buildRequires, privateBuildRequires := p.privateBuildRequires, variants := p.variants,
    tools := p.tools, uuid := p.uuid }

end Rez.Spec.Saved
