import Verif.Model.Scanner
import Verif.Spec.BuildCopy
/-!
# What scanning repositories promises
-/
namespace Rez.Scanner.Spec
open Rez Rez.Files Rez.Scanner Rez.Build Rez.Spec.Files Rez.Build.Spec

/-- A pattern fits a text.  (`dot` is what the code does; the documentation says that a `.` stands for itself.) -/
inductive Fits : Str → Str → Prop
  | nil : Fits [] []
  | deep {p a s : Str} : '\n' ∉ a → Fits p s → Fits ('*' :: '*' :: p) (a ++ s)
  | star {p a s : Str} : p.head? ≠ some '*' → '/' ∉ a → Fits p s → Fits ('*' :: p) (a ++ s)
  | one {p s : Str} {d : Char} : d ≠ '\n' → Fits p s → Fits ('?' :: p) (d :: s)
  | dot {p s : Str} {d : Char} : d ≠ '\n' → Fits p s → Fits ('.' :: p) (d :: s)
  | char {p s : Str} {c : Char} : c ≠ '*' → c ≠ '?' → c ≠ '.' → Fits p s → Fits (c :: p) (c :: s)

/-- A pattern as it is documented: a `.` stands for itself. -/
inductive Documented : Str → Str → Prop
  | nil : Documented [] []
  | deep {p a s : Str} : Documented p s → Documented ('*' :: '*' :: p) (a ++ s)
  | star {p a s : Str} : p.head? ≠ some '*' → '/' ∉ a → Documented p s → Documented ('*' :: p) (a ++ s)
  | one {p s : Str} {d : Char} : Documented p s → Documented ('?' :: p) (d :: s)
  | char {p s : Str} {c : Char} : c ≠ '*' → c ≠ '?' → Documented p s → Documented (c :: p) (c :: s)

/-- A directory that is to be left out: a pattern fits its path, or the last parts of it. -/
def LeftOut (cfg : Config) (p : Path) : Prop :=
  ∃ x ∈ cfg.excludePatterns, Fits x ('/' :: joinWith c!"/" p) ∨ ∃ q, q ≠ [] ∧ q <:+ p ∧ Fits x (joinWith c!"/" q)

/-- Parts of paths on this system: not empty, without `/`; and without backslashes, which are taken for it. -/
def Plain (p : Path) : Prop := ∀ x ∈ p, x ≠ [] ∧ '/' ∉ x ∧ '\\' ∉ x

/-- A directory that a scan comes to: it is at most so many levels below the root, and none on the way is left out. -/
def Reached (cfg : Config) (d : Disk) (root p : Path) : Prop :=
  ∃ r, p = root ++ r ∧ r.length ≤ cfg.maxDepth ∧
    ∀ q, root <+: q → q <+: p → mget d.fs q = some .dir ∧ excluded cfg q = false

/-- A file that a scan examines. -/
def Examined (cfg : Config) (d : Disk) (root f : Path) : Prop :=
  ∃ p x s, f = p ++ [x] ∧ Reached cfg d root p ∧ mget d.fs f = some (.file s) ∧ isPackageFile cfg x = true

/-- The time and the length of a file say what is in it, in all the history. -/
def Honest (content : Path → Nat → Nat → Str) (d : Disk) : Prop :=
  ∀ f s, mget d.fs f = some (.file s) → content f (d.mtime f) (byteLen s) = s

/-- What the scanner is used for. -/
inductive Act (α : Type) where
  | change (d : Disk)
  | scan (w : Sched α) (root : Path)
  | clear
  | refresh
  | look (order : List (Path × Cached α) → List (Path × Cached α)) (t : Nat) (p : Path)

variable {α : Type}

/-- The scanner after it. -/
def step (cfg : Config) (parse : Str → Option α) (x : Disk × State α) : Act α → Disk × State α
  | .change d => (d, x.2)
  | .scan w root => (x.1, (scanRepository cfg x.1 parse w x.2 root).2)
  | .clear => (x.1, clear x.2)
  | .refresh => (x.1, refresh x.1 x.2)
  | .look order t p => (x.1, (getByPrefix cfg x.1 order t x.2 p).2)

/-- A new scanner after a history. -/
def after (cfg : Config) (parse : Str → Option α) (d : Disk) (acts : List (Act α)) : Disk × State α := acts.foldl (step cfg parse) (d, {})

/-- What is in a file, as a result. -/
def held (d : Disk) (parse : Str → Option α) (f : Path) : Option (Result α) :=
  match mget d.fs f with
  | some (.file s) => (parse s).map fun p => ⟨p, f, byteLen s⟩
  | _ => none

/-- A directory below another that can be come to. -/
def Below (d : Disk) (root q : Path) : Prop :=
  ∃ r, r ≠ [] ∧ q = root ++ r ∧ mget d.fs q = some .dir ∧ ∀ m, root <+: m → m <+: q → m ≠ q → d.readable m = true

/-- A `package.py` in such a directory. -/
def PackagePy (d : Disk) (root f : Path) : Prop :=
  ∃ q s, f = q ++ [c!"package.py"] ∧ Below d root q ∧ d.readable q = true ∧ mget d.fs f = some (.file s)

end Rez.Scanner.Spec
