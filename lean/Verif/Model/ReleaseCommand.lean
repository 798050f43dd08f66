import Verif.Model.Requirement
/-!
# The release command: `src/cli/commands/release.rs`

What the command asks of the machine is a list of acts, each with its answer; the machine is any function of what happened so
far.  Simplifications: loading the package is a parameter; resolving the requirements of a build and building are one act
each (C154, C142); printing is left out.
-/
namespace Rez.Release
open Rez

/-- What the command asks of the machine. -/
inductive Act where
  | status
  | unpushed
  | tagged (t : Str)
  | prepare (i : Option Nat)
  | build (i : Option Nat)
  | tag (t m : Str)
  | push (t : Str)
  | untag (t : Str)
deriving DecidableEq

/-- What comes back: whether the program could be started, whether it succeeded, and what it printed. -/
structure Answer where
  started : Bool
  success : Bool
  out : Str
deriving DecidableEq

/-- It ran and succeeded. -/
def Answer.ok (a : Answer) : Bool := a.started && a.success

/-- A machine: how each act changes it, and its answer. -/
abbrev Machine (W : Type) := Act → W → W × Answer

/-- The acts so far. -/
abbrev Log := List (Act × Answer)

/-- The machine now, and the acts so far. -/
structure St (W : Type) where
  w : W
  log : Log

/-- One act. -/
def ask {W : Type} (m : Machine W) (a : Act) (s : St W) : St W × Answer :=
  (⟨(m a s.w).1, s.log ++ [(a, (m a s.w).2)]⟩, (m a s.w).2)

/-- The package as far as the command looks at it. -/
structure Pkg where
  name : Str
  version : Option Str
  variants : Nat
deriving DecidableEq

/-- release.rs:15-62 `ReleaseArgs`; of the file of the message its content, if it can be read. -/
structure Args where
  message : Option Str := none
  messageFile : Option (Option Str) := none
  vcs : Option Str := none
  buildsys : Option Str := none
  process : Str := c!"local"
  skipRepoErrors : Bool := false
  ignoreExistingTag : Bool := false
  noLatest : Bool := false
  variants : Option Str := none
  dryRun : Bool := false

/-- The directory: release.rs:225-235 looks for these. -/
structure Dir where
  package : Option Pkg
  git : Bool := true
  svn : Bool := false
  hg : Bool := false

/-- Why a release failed. -/
inductive Problem where
  | package
  | vcs
  | status
  | dirty
  | tagged
  | variants
  | prepare (i : Option Nat)
  | build (i : Option Nat)
  | tag
  | push
deriving DecidableEq

/-- release.rs:225-235 `detect_vcs`. -/
def detectVcs (d : Dir) : Str :=
  if d.git then c!"git" else if d.svn then c!"svn" else if d.hg then c!"hg" else c!"unknown"

/-- release.rs:195-216: the loop over the texts between commas. -/
def chooseEach (n : Nat) : List Str → List Nat → Option (List Nat)
  | [], acc => some acc
  | t :: l, acc =>
    match parseU64 t with
    | none => none
    | some i => if n ≤ i then none else chooseEach n l (if i ∈ acc then acc else acc ++ [i])

/-- release.rs:178-223 `release_variant_indices`. -/
def chooseVariants (p : Pkg) (selected : Option Str) : Option (List (Option Nat)) :=
  if p.variants = 0 then
    if selected.any (fun v => !(trim v).isEmpty) then none else some [none]
  else
    match selected with
    | none => some ((List.range p.variants).map some)
    | some t =>
      match chooseEach p.variants (((splitChar ',' t).map trim).filter fun v => !v.isEmpty) [] with
      | none => none
      | some [] => none
      | some l => some (l.map some)

/-- release.rs:76-80, 99, 165: the tag. -/
def tagOf (p : Pkg) : Str := p.name ++ c!"-" ++ p.version.getD c!"unknown"

/-- release.rs:166-170: the message. -/
def messageOf (a : Args) (p : Pkg) : Str :=
  (a.message.or a.messageFile.join).getD (c!"Release " ++ tagOf p)

/-- release.rs:263-294 `validate_vcs_state`. -/
def validate {W : Type} (m : Machine W) (s : St W) : St W × Option Problem :=
  let r := ask m .status s
  if !r.2.started then (r.1, some .status)
  else if !r.2.out.isEmpty then (r.1, some .dirty)
  else ((ask m .unpushed r.1).1, none)

/-- release.rs:132-161: the variants in turn. -/
def buildEach {W : Type} (m : Machine W) : List (Option Nat) → St W → St W × Option Problem
  | [], s => (s, none)
  | i :: l, s =>
    let r := ask m (.prepare i) s
    if !r.2.ok then (r.1, some (.prepare i))
    else
      let q := ask m (.build i) r.1
      if !q.2.ok then (q.1, some (.build i)) else buildEach m l q.1

/-- release.rs:306-355 `create_git_tag`. -/
def createTag {W : Type} (m : Machine W) (t msg : Str) (s : St W) : St W × Option Problem :=
  let r := ask m (.tag t msg) s
  if !r.2.ok then (r.1, some .tag)
  else
    let q := ask m (.push t) r.1
    if !q.2.ok then ((ask m (.untag t) q.1).1, some .push) else (q.1, none)

/-- What comes next, unless there is a problem. -/
def next {W : Type} (r : St W × Option Problem) (k : St W → St W × Option Problem) : St W × Option Problem :=
  match r.2 with
  | none => k r.1
  | some e => (r.1, some e)

/-- release.rs:98-106: the check of the tag. -/
def checkTag {W : Type} (m : Machine W) (t : Str) (s : St W) : St W × Option Problem :=
  let r := ask m (.tagged t) s
  if r.2.started && !r.2.out.isEmpty then (r.1, some .tagged) else (r.1, none)

/-- release.rs:117-174: after the checks. -/
def perform {W : Type} (m : Machine W) (a : Args) (p : Pkg) (s : St W) : St W × Option Problem :=
  match chooseVariants p a.variants with
  | none => (s, some .variants)
  | some l => next (buildEach m l s) (createTag m (tagOf p) (messageOf a p))

/-- release.rs:65-176 `execute`. -/
def release {W : Type} (m : Machine W) (a : Args) (d : Dir) (w : W) : St W × Option Problem :=
  match d.package with
  | none => (⟨w, []⟩, some .package)
  | some p =>
    if a.vcs.getD (detectVcs d) ≠ c!"git" then (⟨w, []⟩, some .vcs)
    else
      next (if a.skipRepoErrors then (⟨w, []⟩, none) else validate m ⟨w, []⟩) fun s =>
        next (if a.ignoreExistingTag then (s, none) else checkTag m (tagOf p) s) fun s =>
          if a.dryRun then (s, none) else perform m a p s

end Rez.Release
