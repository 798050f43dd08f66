import Verif.Base.Text
/-!
# The text of a variant handle

`crates/rez-next-package/src/package_cache.rs`, `VariantHandle`.
-/
namespace Rez.Handle

/-- package_cache.rs:128-141 `VariantHandle`.  The attributes are a `HashMap`; they are used only after they were sorted
by name (163-164), so the model keeps them as the sorted list. -/
structure Handle where
  name : Str
  version : Option Str
  index : Option Nat
  attributes : List (Str × Str)

/-- package_cache.rs:157-159. -/
def versionPart : Option Str → Str
  | none => []
  | some v => c!", version=" ++ v

/-- package_cache.rs:160-162. -/
def indexPart : Option Nat → Str
  | none => []
  | some i => c!", index=" ++ decimal i

/-- package_cache.rs:155-170 `hashable_repr`: the text by which handles are hashed and compared. -/
def repr (h : Handle) : Str :=
  c!"name=" ++ h.name ++ versionPart h.version ++ indexPart h.index ++
    h.attributes.flatMap fun p => c!", " ++ p.1 ++ c!"=" ++ p.2

end Rez.Handle
