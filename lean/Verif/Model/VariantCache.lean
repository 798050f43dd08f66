import Verif.Base.Map
import Verif.Base.Text
import Mathlib.Data.Rat.Defs
/-!
# The cache of variants, reductions and modes of the solver: `rez-next-solver/src/{package_variant,reduction,variant_select_mode,
solver_status}.rs`, `rez-next-python/src/{package_variant,reduction}_bindings.rs`

The counters are natural numbers: 2^64 lookups are not reached.  `hit_rate` is the quotient as a rational number: the rounding of
`f64` is left out.
-/
namespace Rez.VariantCache
open Rez

variable {α : Type}

/-- package_variant.rs:60-67 `PackageVariantCache`; `α` are the variants. -/
structure Cache (α : Type) where
  variants : List (Str × List α)
  hits : Nat
  misses : Nat

/-- package_variant.rs:71-77 `new`. -/
def Cache.new : Cache α := ⟨[], 0, 0⟩

/-- package_variant.rs:80-88 `get_variants`: the answer and the cache after it. -/
def Cache.get (c : Cache α) (name : Str) : Option (List α) × Cache α :=
  if (mget c.variants name).isSome then (mget c.variants name, { c with hits := c.hits + 1 })
  else (none, { c with misses := c.misses + 1 })

/-- package_variant.rs:91-93 `cache_variants`. -/
def Cache.put (c : Cache α) (name : Str) (vs : List α) : Cache α := { c with variants := mset c.variants name vs }

/-- package_variant.rs:96-98 `invalidate`. -/
def Cache.invalidate (c : Cache α) (name : Str) : Cache α := { c with variants := mdel c.variants name }

/-- package_variant.rs:101-105 `clear`. -/
def Cache.clear (_ : Cache α) : Cache α := ⟨[], 0, 0⟩

/-- package_variant.rs:108-115 `hit_rate`. -/
def Cache.hitRate (c : Cache α) : ℚ :=
  let total := c.hits + c.misses
  if total = 0 then 0 else (c.hits : ℚ) / (total : ℚ)

/-- The calls on a cache. -/
inductive Call (α : Type) where
  | get (name : Str)
  | put (name : Str) (vs : List α)
  | invalidate (name : Str)
  | clear

/-- One call. -/
def Cache.step (c : Cache α) : Call α → Cache α
  | .get n => (c.get n).2
  | .put n vs => c.put n vs
  | .invalidate n => c.invalidate n
  | .clear => c.clear

/-- Calls one after another. -/
def Cache.run (c : Cache α) (cs : List (Call α)) : Cache α := cs.foldl Cache.step c

/-! ## Reductions -/

/-- reduction.rs:12-22 `Reduction`. -/
structure Reduction where
  package : Str
  version : Option Str
  reason : Str
  time : Nat

/-- reduction.rs:46-51 `TotalReduction`. -/
structure Total where
  reductions : List Reduction
  count : Nat

/-- reduction.rs:56-61 `new`. -/
def Total.new : Total := ⟨[], 0⟩

/-- reduction.rs:64-67 `add_reduction`. -/
def Total.add (t : Total) (r : Reduction) : Total := ⟨t.reductions ++ [r], t.count + 1⟩

/-- reduction.rs:70-72 `is_empty`. -/
def Total.isEmpty (t : Total) : Bool := t.reductions.isEmpty

/-- reduction.rs:75-77 `len`. -/
def Total.len (t : Total) : Nat := t.reductions.length

/-- reduction_bindings.rs `__repr__`. -/
def Total.repr (t : Total) : Str := c!"<TotalReduction count=" ++ decimal t.count ++ c!">"

/-! ## Modes and statuses -/

/-- variant_select_mode.rs:8-15 `VariantSelectMode`. -/
inductive Mode where
  | versionPriority
  | intersectionPriority
  deriving DecidableEq

/-- variant_select_mode.rs:21-23 `value`. -/
def Mode.value : Mode → Int
  | .versionPriority => 0
  | .intersectionPriority => 1

/-- variant_select_mode.rs:34-40 `from_value`. -/
def Mode.ofValue (v : Int) : Option Mode :=
  if v = 0 then some .versionPriority else if v = 1 then some .intersectionPriority else none

/-- variant_select_mode.rs:43-51 `Display`. -/
def Mode.show : Mode → Str
  | .versionPriority => c!"version_priority"
  | .intersectionPriority => c!"intersection_priority"

/-- solver_status.rs:13-32 `SolverStatus`. -/
inductive Status where
  | pending
  | solved
  | exhausted
  | failed
  | cyclic
  | unsolved
  deriving DecidableEq

/-- solver_status.rs:52-61 `name`. -/
def Status.name : Status → Str
  | .pending => c!"pending"
  | .solved => c!"solved"
  | .exhausted => c!"exhausted"
  | .failed => c!"failed"
  | .cyclic => c!"cyclic"
  | .unsolved => c!"unsolved"

/-- solver_status.rs:38-49 `description`. -/
def Status.description : Status → Str
  | .pending => c!"The solve has not yet started."
  | .solved => c!"The solve has completed successfully."
  | .exhausted => c!"The current solve is exhausted and must be split to continue further."
  | .failed => c!"The solve is not possible."
  | .cyclic => c!"The solve contains a cycle."
  | .unsolved => c!"The solve has started, but is not yet solved."

/-- solver_status.rs:64-68 `Display`. -/
def Status.show (s : Status) : Str := s.name ++ c!" (" ++ s.description ++ c!")"

end Rez.VariantCache
