import Verif.Base.Map
import Verif.Model.Requirement
/-!
# Version control: `rez-next-build/src/vcs/{mod,git,hg,svn}.rs`

What the programs print is a parameter.  Simplifications: of git (the library `git2`) the tags and the current commit; where
there is no text the reasons of errors are left out.
-/
namespace Rez.Vcs
open Rez

/-- `str::lines`, for a text that does not end in a carriage return. -/
def lines (s : Str) : List Str :=
  let l := splitChar '\n' s
  (if l.getLast? = some [] then l.dropLast else l).map fun t => if t.getLast? = some '\r' then t.dropLast else t

/-- What a program did: if it failed, `none`; otherwise what it printed. -/
abbrev Printed := Option Str

/-- hg.rs:52-76 `run_hg`, svn.rs:30-54 `run_svn`: what is printed, trimmed. -/
def shown (p : Printed) : Printed := p.map trim

/-! ## Which one -/

inductive Kind where
  | git
  | hg
  | svn
deriving DecidableEq

/-- mod.rs:338-363 `detect_vcs`, with support for git. -/
def detect (git hg svn : Bool) : Option Kind :=
  if git then some .git else if hg then some .hg else if svn then some .svn else none

/-- git.rs:571-578, hg.rs:320-325, svn.rs:317-323 `is_releasable_branch`. -/
def releasable (k : Kind) (branch : Str) : Bool :=
  match k with
  | .git => branch = c!"main" || branch = c!"master" || c!"release/".isPrefixOf branch
  | .hg => branch = c!"default" || c!"release".isPrefixOf branch
  | .svn => containsStr branch c!"/trunk" || containsStr branch c!"/branches/release"

/-! ## Mercurial -/

/-- hg.rs:18-30 `parse_hg_timestamp`: a slice whose end lies before its start is a panic. -/
def hgTimestamp (line : Str) : Outcome (Option Int) :=
  let t := trim line
  if '(' ∈ t ∧ ',' ∈ t then
    if t.idxOf ',' < t.idxOf '(' + 1 then .panic
    else .ok (parseI64 (trim ((t.take (t.idxOf ',')).drop (t.idxOf '(' + 1))))
  else .ok none

/-- hg.rs:107-111 `tag_exists`. -/
def hgTagExists (tags : Printed) (tag : Str) : Option Bool :=
  (shown tags).map fun t => (lines t).any fun l => containsStr l tag

/-- What is known of a revision. -/
structure Meta where
  url : Option Str := none
  branch : Option Str := none
  commit : Str
  message : Option Str := none
  author : Option Str := none
  time : Option Int := none
deriving DecidableEq

/-- hg.rs:140-185 `get_metadata`, from what `hg log -T {node}`, `hg branch`, `hg log` with its template, and `hg paths` print. -/
def hgMetadata (node branch info paths : Printed) : Outcome Meta :=
  match shown node, shown branch, shown info with
  | some n, some b, some i =>
    let l := lines i
    let rest := fun (t : Option Int) =>
      ({ url := shown paths, branch := some b, commit := n, message := l[1]?, author := l[0]?, time := t } : Meta)
    match l[2]? with
    | none => .ok (rest none)
    | some d =>
      match hgTimestamp d with
      | .panic => .panic
      | .err => .err
      | .ok t => .ok (rest t)
  | _, _, _ => .err

/-! ## Subversion -/

/-- svn.rs:62-66: one line of it. -/
def svnItem (m : List (Str × Str)) (l : Str) : List (Str × Str) :=
  match splitOnce c!": " l with
  | some (k, v) => mset m k v
  | none => m

/-- svn.rs:58-69 `get_svn_info`. -/
def svnInfo (info : Printed) : Option (List (Str × Str)) := (shown info).map fun t => (lines t).foldl svnItem []

/-- svn.rs:117-141 `create_tag`: what is copied, and where. -/
def svnTag (info : Printed) (tag : Str) : Option (Str × Str) :=
  (svnInfo info).bind fun m => (mget m c!"Repository Root").map fun r => (r ++ c!"/trunk", r ++ c!"/tags/" ++ tag)

/-- svn.rs:104-115 `tag_exists`: `there` says whether `svn info` of an address succeeds. -/
def svnTagExists (info : Printed) (there : Str → Bool) (tag : Str) : Option Bool :=
  (svnInfo info).bind fun m => (mget m c!"Repository Root").map fun r => there (r ++ c!"/tags/" ++ tag)

/-- svn.rs:167-197 `get_metadata`. -/
def svnMetadata (info : Printed) : Option Meta :=
  (svnInfo info).map fun m =>
    { url := mget m c!"Repository Root", branch := mget m c!"Relative URL",
      commit := (mget m c!"Last Changed Rev").getD c!"unknown", message := mget m c!"Last Changed Author",
      author := mget m c!"Last Changed Author", time := none }

/-! ## Git -/

/-- The tags and the current commit. -/
structure Git where
  head : Option Str
  tags : List (Str × Str)
deriving DecidableEq

/-- git.rs:179-202 `tag_exists`. -/
def gitTagExists (g : Git) (tag : Str) : Bool := (mget g.tags tag).isSome

/-- git.rs:203-251 `create_tag`, not by force. -/
def gitTag (g : Git) (tag : Str) : Option Git :=
  match g.head with
  | none => none
  | some c => if (mget g.tags tag).isSome then none else some { g with tags := mset g.tags tag c }

/-- What happens in a repository: a commit, or a request for a tag. -/
inductive Event where
  | commit (c : Str)
  | tag (t : Str)

/-- What it comes to. -/
def Git.step (g : Git) : Event → Git
  | .commit c => { g with head := some c }
  | .tag t => (gitTag g t).getD g

end Rez.Vcs
