import Verif.Model.Serialization
import Verif.Model.PackagePy
import Mathlib.Data.List.Sort
/-!
# Package data as text: `rez-next-serialise/src/package_serialise.rs` and `rez-next-python/src/serialise_bindings.rs`

Parameters: how floats are shown, `to_lowercase`, and the texts that `serde_yaml` and `serde_json` make.  Left out: reading
and writing of files, Python's `json` module.
-/
namespace Rez.Attributes
open Rez

/-- `serde_json::Value`.  An integer is one of 64 bits, signed or not; a float is what is shown of it.  The keys of an object are
distinct, in the order of the map. -/
inductive Datum where
  | null
  | bool (b : Bool)
  | int (i : Int)
  | float (shown : Str)
  | str (s : Str)
  | arr (l : List Datum)
  | obj (m : List (Str × Datum))

/-- `u64 as f64` above 2^63: the nearest multiple of 2048, half to even. -/
def roundBig (n : Nat) : Nat :=
  let q := n / 2048
  let r := n % 2048
  2048 * (if r < 1024 then q else if r > 1024 then q + 1 else if q % 2 = 0 then q else q + 1)

/-- package_serialise.rs:49-79 `PACKAGE_KEY_ORDER`. -/
def keyOrder : List Str :=
  [c!"name", c!"version", c!"description", c!"authors", c!"license", c!"requires", c!"variants", c!"build_requires",
   c!"private_build_requires", c!"uuid", c!"revision", c!"timestamp", c!"config", c!"help", c!"tests", c!"pre_commands", c!"commands",
   c!"post_commands", c!"release_commands", c!"pre_build_commands", c!"build_commands", c!"post_build_commands",
   c!"pre_test_commands", c!"test_commands", c!"post_test_commands", c!"implicit", c!"cachable", c!"universal", c!"hashed_variants"]

/-- package_serialise.rs:294-303: the comparison of keys. -/
def cmpKey (a b : Str) : Ordering :=
  match keyOrder.idxOf? a, keyOrder.idxOf? b with
  | some i, some j => compare i j
  | some _, none => .lt
  | none, some _ => .gt
  | none, none => cmpStr a b

/-- `str::replace` of three single quotes by three escaped ones. -/
def escapeTriple : Str → Str
  | '\'' :: '\'' :: '\'' :: s => c!"\\'\\'\\'" ++ escapeTriple s
  | c :: s => c :: escapeTriple s
  | [] => []

/-- package_serialise.rs:324-336 `format_python_string`; in the last case there is no quote to replace. -/
def pyString (s : Str) : Str :=
  if s.contains '\n' then c!"'''" ++ escapeTriple s ++ c!"'''"
  else if s.contains '\'' && s.contains '"' then c!"'''" ++ escapeTriple s ++ c!"'''"
  else if s.contains '\'' then '"' :: (s ++ c!"\"")
  else '\'' :: (s ++ c!"'")

/-- `" ".repeat(n)`. -/
def spaces (n : Nat) : Str := List.replicate n ' '

/-- package_serialise.rs:288-317: the attributes of an object, given the text of each value; sorted by key. -/
def attributes (indent : Nat) (l : List (Str × Str)) : Str :=
  joinWith c!",\n" ((l.insertionSort fun a b => cmpKey a.1 b.1 ≠ .gt).map fun e => spaces indent ++ e.1 ++ c!" = " ++ e.2)

mutual

/-- package_serialise.rs:250-321 `dict_to_python_code`; the values of an object are made before they are put in order, which
changes no text.  `shown` is `f64::to_string`. -/
def code (shown : Nat → Str) (indent : Nat) : Datum → Str
  | .null => c!"None"
  | .bool b => if b then c!"True" else c!"False"
  | .int i => if i < 2 ^ 63 then PackagePy.intText i else shown (roundBig i.toNat)
  | .float f => f
  | .str s => pyString s
  | .arr l => c!"[\n" ++ codeItems shown indent l ++ spaces indent ++ c!"]"
  | .obj m => attributes indent (codeValues shown indent m)

/-- package_serialise.rs:276-284: the items of a list. -/
def codeItems (shown : Nat → Str) (indent : Nat) : List Datum → Str
  | [] => []
  | [x] => spaces indent ++ c!"    " ++ code shown (indent + 4) x ++ c!"\n"
  | x :: y :: l => spaces indent ++ c!"    " ++ code shown (indent + 4) x ++ c!",\n" ++ codeItems shown indent (y :: l)

def codeValues (shown : Nat → Str) (indent : Nat) : List (Str × Datum) → List (Str × Str)
  | [] => []
  | (k, x) :: l => (k, code shown indent x) :: codeValues shown indent l

end

/-- package_serialise.rs:225-236 `dict_to_attributes_code`. -/
def attributesCode (shown : Nat → Str) (data : Datum) : Str :=
  c!"# -*- coding: utf-8 -*-\n" ++ c!"# Rez package definition\n\n" ++ code shown 0 data

/-- package_serialise.rs:197-204: one line of a block. -/
def blockLine (indent : Nat) (l : Str) : Str := if l.isEmpty then c!"\n" else spaces indent ++ l ++ c!"\n"

/-- package_serialise.rs:183-207 `as_block_string`. -/
def blockString (s : Str) (indent : Nat) : Str :=
  match Serial.linesOf s with
  | [] => c!"''"
  | [l] => '\'' :: (l ++ c!"'")
  | ls => c!"|\n" ++ ls.flatMap (blockLine indent)

/-! ## serialise_bindings.rs -/

/-- The libraries. -/
structure Lib where
  lower : Str → Str
  shown : Nat → Str
  yaml : Datum → Option Str
  json : Datum → Option Str

/-- serialise_bindings.rs:56-63: the attributes that are left out. -/
def skip (l : Option (List Str)) : Datum → Datum
  | .obj m => .obj ((l.getD []).foldl (fun m k => mdel m k) m)
  | j => j

/-- serialise_bindings.rs:83-105 `validate_package_data`. -/
def valid : Datum → Bool
  | .obj m =>
    match mget m c!"name" with
    | none => false
    | some (.str _) => true
    | some _ => false
  | _ => true

/-- serialise_bindings.rs:108-127 `serialise_to_string`; `none` is `Err`. -/
def asText (w : Lib) (data : Datum) (format : Str) : Option Str :=
  if w.lower format = c!"py" ∨ w.lower format = c!"python" then some (attributesCode w.shown data)
  else if w.lower format = c!"yaml" ∨ w.lower format = c!"yml" then w.yaml data
  else if w.lower format = c!"json" then w.json data
  else none

/-- serialise_bindings.rs:39-78 `py_dump_package_data`: what is written, if anything is; `none` is an error. -/
def dump (w : Lib) (data : Datum) (format : Str) (skipped : Option (List Str)) : Option Str :=
  if w.lower format = c!"txt" then none
  else if !valid (skip skipped data) then none
  else asText w (skip skipped data) format

end Rez.Attributes
