import Verif.Model.BuildCommand
/-!
# What the build command promises

The forms in which a source can be given, paths with their `..`, and the builds of a command.
-/
namespace Rez.Build.Spec
open Rez

/-! ## Sources -/

/-- A URL of the web. -/
def Web (u : Str) : Prop := c!"http://" <+: u ∨ c!"https://" <+: u

/-- A text that names one of the three places that are known for repositories. -/
def Hosted (u : Str) : Prop := c!"github.com" <:+: u ∨ c!"gitlab.com" <:+: u ∨ c!"bitbucket.org" <:+: u

/-- A text without white space. -/
def Solid (u : Str) : Prop := ∀ c ∈ u, isWs c = false

/-- A branch, tag or commit as it is given after a URL. -/
def marked : Option Str → Str
  | none => []
  | some r => '@' :: r

/-- A path of the machine: it does not begin like a URL, or like `git@`. -/
def LocalPath (u : Str) : Prop :=
  ∀ s ∈ [c!"http://", c!"https://", c!"ssh://", c!"git://", c!"git@"], ¬ s <+: u

/-! ## Paths -/

/-- The parts of a path once its `.` and `..` are followed; `done` are those so far, the last first. -/
def follow : List Str → List Str → List Str
  | acc, [] => acc.reverse
  | acc, x :: l =>
    if x = [] ∨ x = c!"." then follow acc l
    else if x = c!".." then follow acc.tail l
    else follow (x :: acc) l

/-- The parts of an absolute path. -/
def parts (p : Str) : List Str := follow [] (splitChar '/' p)

/-- A path below a directory. -/
def Below (dir p : Str) : Prop := parts dir <+: parts p ∧ parts p ≠ parts dir

/-- The name of a file, as opposed to a path. -/
def PlainName (n : Str) : Prop := n ≠ [] ∧ '/' ∉ n ∧ n ≠ c!"." ∧ n ≠ c!".."

/-! ## Builds -/

/-- The builds that are to be done for the variants that were asked for, of this many. -/
inductive Runs : Option (List Nat) → Nat → List (Option Nat) → Prop where
  | plain : Runs none 0 [none]
  | all (n : Nat) (h : 0 < n) : Runs none n ((List.range n).map some)
  | some_ (l : List Nat) (n : Nat) (h : l ≠ []) (hr : ∀ i ∈ l, i < n) : Runs (some l) n (l.map some)

/-- The requirements that a variant is built with: those of the package, and its own. -/
def AllRequirements (p : Wanted) (v : Option Nat) : List Str :=
  p.requires ++ p.buildRequires ++ p.privateRequires ++ (v.map fun i => p.variants[i]?.getD []).getD []

/-- A list without repetition, in the order of the first occurrences in another. -/
def FirstsOf (out l : List Str) : Prop :=
  out.Nodup ∧ (∀ r, r ∈ out ↔ r ∈ l) ∧ ∀ r ∈ l, ∀ s ∈ l, out.idxOf r < out.idxOf s ↔ l.idxOf r < l.idxOf s

/-- A build that was done: its environment, if it needs one, and itself. -/
def BuiltOne {W : Type} (b : Builder W) (p : Wanted) (v : Option Nat) (w w' : W) : Prop :=
  ∃ w₁ reqs, FirstsOf reqs (AllRequirements p v) ∧
    ((reqs = [] ∧ w₁ = w) ∨ (reqs ≠ [] ∧ b.resolve reqs w = (w₁, true))) ∧ b.build v w₁ = (w', true)

/-- A build that failed, in its environment or itself. -/
def FailedOne {W : Type} (b : Builder W) (p : Wanted) (v : Option Nat) (w w' : W) : Prop :=
  ∃ reqs, FirstsOf reqs (AllRequirements p v) ∧
    ((reqs ≠ [] ∧ b.resolve reqs w = (w', false)) ∨
     ∃ w₁, ((reqs = [] ∧ w₁ = w) ∨ (reqs ≠ [] ∧ b.resolve reqs w = (w₁, true))) ∧ b.build v w₁ = (w', false))

/-- Builds that were done, one after the other. -/
inductive Built {W : Type} (b : Builder W) (p : Wanted) : List (Option Nat) → W → W → Prop where
  | nil (w : W) : Built b p [] w w
  | cons {v : Option Nat} {l : List (Option Nat)} {w w₁ w₂ : W} (h : BuiltOne b p v w w₁) (h' : Built b p l w₁ w₂) :
      Built b p (v :: l) w w₂

end Rez.Build.Spec
