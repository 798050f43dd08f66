import Verif.Base.Map
/-!
# `serde_json::Value`

Numbers are integers: the modelled code writes and reads no others.
-/
namespace Rez

inductive Json where
  | null
  | bool (b : Bool)
  | num (n : Int)
  | str (s : Str)
  | arr (items : List Json)
  | obj (fields : List (Str × Json))

namespace Json

/-- `Value::get` with a text. -/
def get (j : Json) (k : Str) : Option Json :=
  match j with
  | .obj fs => mget fs k
  | _ => none

/-- `Value::as_str`. -/
def asStr : Json → Option Str
  | .str s => some s
  | _ => none

/-- `Value::as_bool`. -/
def asBool : Json → Option Bool
  | .bool b => some b
  | _ => none

/-- `Value::as_array`. -/
def asArr : Json → Option (List Json)
  | .arr l => some l
  | _ => none

/-- `Value::as_i64`: no value for a number out of range. -/
def asI64 : Json → Option Int
  | .num n => if -(2 ^ 63) ≤ n ∧ n < 2 ^ 63 then some n else none
  | _ => none

end Json
end Rez
