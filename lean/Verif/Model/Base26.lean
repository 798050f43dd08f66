import Verif.Base.Map
/-!
# Base-26 names and links

`crates/rez-next-util/src/base26.rs`.
-/
namespace Rez.Base26

/-- `char::is_ascii_lowercase`. -/
def isLower (c : Char) : Bool := 97 ≤ c.toNat && c.toNat ≤ 122

/-- base26.rs:82-100: the carry loop, on the reversed text. -/
def bump : List Char → List Char
  | [] => ['a']
  | c :: cs => if c = 'z' then 'a' :: bump cs else Char.ofNat (c.toNat + 1) :: cs

/-- base26.rs:69-103 `get_next_base26`; `none` is the error. -/
def next (prev : Option Str) : Option Str :=
  match prev with
  | none => some c!"a"
  | some s => if s.all isLower then some (bump s.reverse).reverse else none

/-- A directory: each name with the target if it is a symbolic link. -/
abbrev Dir := List (Str × Option Str)

/-- Rust's order on `str`, by code points. -/
def strLt (s t : Str) : Bool := cmpStr s t == .lt

/-- base26.rs:186-207 `find_matching_symlink`: the first link to the target in the order of the listing. -/
def findMatching (scan : Dir) (target : Str) : Option Str := (scan.find? fun p => p.2 == some target).map Prod.fst

/-- base26.rs:225-231: keep the greater name. -/
def keepMax (cur : Option Str) (name : Str) : Option Str :=
  match cur with
  | none => some name
  | some c => if strLt c name then some name else some c

/-- base26.rs:211-236 `get_max_base26_name`. -/
def maxName (scan : Dir) : Option Str := ((scan.map Prod.fst).filter fun n => n.all isLower).foldl keepMax none

/-- What `create_unique_base26_symlink` returns. -/
inductive Result where
  | existing (name : Str)
  | created (name : Str)
  | exhausted
  | invalid
  deriving DecidableEq

/-- base26.rs:154-177: up to `n` tries.  Without other writers a name that is free is created at once. -/
def tries (d : Dir) : Nat → Str → Result
  | 0, _ => .exhausted
  | n + 1, name =>
    if name ∈ mkeys d then
      match next (some name) with
      | some name' => tries d n name'
      | none => .invalid
    else .created name

/-- base26.rs:130-183 `create_unique_base26_symlink`, without other writers; `scan` is the listing of the directory, in
some order, and errors of the file system are not modelled. -/
def create (scan : Dir) (target : Str) : Result :=
  match findMatching scan target with
  | some name => .existing name
  | none =>
    match next (maxName scan) with
    | some name => tries scan 10 name
    | none => .invalid

/-- The directory afterwards. -/
def after (d : Dir) (target : Str) : Result → Dir
  | .created name => (name, some target) :: d
  | _ => d

end Rez.Base26
