import Verif.Model.ReleaseManager
import Verif.Spec.PackageFiles
/-!
# What the release manager promises
-/
namespace Rez.ReleaseManager.Spec
open Rez Rez.Files Rez.ReleaseManager

/-- The acts that have to work: looking at the repository, making directories, the tests, and the tag. -/
def needed : Act → Bool
  | .validate | .mkdirs _ | .test _ _ | .tag _ _ => true
  | _ => false

/-- All of them worked. -/
def Worked (log : Log) : Prop := ∀ x ∈ log, needed x.1 = true → x.2.ok = true

/-- Acts on the repository that only look. -/
def looks : Act → Bool
  | .validate | .metadata => true
  | _ => false

/-- Acts on files. -/
def files : Act → Bool
  | .mkdirs _ | .copy _ _ | .write _ _ => true
  | _ => false

/-- Acts of testing. -/
def tests : Act → Bool
  | .listTests | .test _ _ => true
  | _ => false

/-- The tag of a release. -/
def tag (p : Pkg) : Str := p.name ++ c!"-" ++ (match p.version with | some v => v | none => c!"unknown")

/-- The package that is there can be released. -/
def Good (src : Source) (p : Pkg) : Prop :=
  (src.py = true ∨ src.yaml = true) ∧ src.loaded = some p ∧ p.name ≠ [] ∧ p.version ≠ none

/-- The tag is made, unless it is there; then the changelog. -/
inductive Tagging (p : Pkg) (message : Option Str) : Log → Prop where
  | there (x y : Answer) (hx : x.ok = true) (hy : x.yes = true) : Tagging p message [(.tagged (tag p), x), (.changelog, y)]
  | made (x y z : Answer) (msg : Str) (hx : x.ok = false ∨ x.yes = false)
      (hm : message = some msg ∨ (message = none ∧ msg = c!"Release " ++ tag p)) :
      Tagging p message [(.tagged (tag p), x), (.tag (tag p) msg, y), (.changelog, z)]

/-- The directory of each variant, and what is put there. -/
inductive Variants (t : Texts) (src : Source) (path : Path) : List (List Str) → Log → Prop where
  | nil : Variants t src path [] []
  | failed (v : List Str) (l : List (List Str)) (x : Answer) (log : Log) (hx : x.ok = false) (h : Variants t src path l log) :
      Variants t src path (v :: l) ((.mkdirs (path ++ [(t.digest v).take 8]), x) :: log)
  | filled (v : List Str) (l : List (List Str)) (x y z : Answer) (log : Log) (hx : x.ok = true) (h : Variants t src path l log) :
      Variants t src path (v :: l)
        ((.mkdirs (path ++ [(t.digest v).take 8]), x) ::
          ((if src.py then [(.copy (src.dir ++ [c!"package.py"]) (path ++ [(t.digest v).take 8, c!"package.py"]), y)] else []) ++
            (.write (path ++ [(t.digest v).take 8, c!"variant.json"]) (t.variantJson v ((t.digest v).take 8)), z) :: log))

/-- The directory of the package, and then the variants, or the definition. -/
inductive Building (t : Texts) (src : Source) (p : Pkg) (path : Path) : Log → Prop where
  | failed (x : Answer) (hx : x.ok = false) : Building t src p path [(.mkdirs path, x)]
  | variants (x : Answer) (log : Log) (hx : x.ok = true) (hv : p.variants ≠ []) (h : Variants t src path p.variants log) :
      Building t src p path ((.mkdirs path, x) :: log)
  | plain (x y : Answer) (hx : x.ok = true) (hv : p.variants = []) (hp : src.py = true) :
      Building t src p path [(.mkdirs path, x), (.copy (src.dir ++ [c!"package.py"]) (path ++ [c!"package.py"]), y)]
  | empty (x : Answer) (hx : x.ok = true) (hv : p.variants = []) (hp : src.py = false) : Building t src p path [(.mkdirs path, x)]

/-- What is written last: what the repository says, if there is one, and the definition of the package. -/
inductive Installing (src : Source) (path : Path) (vcs : Bool) : Log → Prop where
  | nothing (y : Answer) (file : Str) (hv : vcs = false) (hf : file = if src.py then c!"package.py" else c!"package.yaml") :
      Installing src path vcs [(.copy (src.dir ++ [file]) (path ++ [file]), y)]
  | unknown (x y : Answer) (file : Str) (hv : vcs = true) (hx : x.ok = false)
      (hf : file = if src.py then c!"package.py" else c!"package.yaml") :
      Installing src path vcs [(.metadata, x), (.copy (src.dir ++ [file]) (path ++ [file]), y)]
  | known (x y z : Answer) (file : Str) (hv : vcs = true) (hx : x.ok = true)
      (hf : file = if src.py then c!"package.py" else c!"package.yaml") :
      Installing src path vcs [(.metadata, x), (.write (path ++ [c!"vcs_metadata.json"]) x.text, z),
        (.copy (src.dir ++ [file]) (path ++ [file]), y)]

/-- Looking at the repository. -/
inductive Looking (src : Source) : Bool → Log → Prop where
  | none (h : src.vcs = false) : Looking src false []
  | bad (x : Answer) (h : src.vcs = true) (hx : x.ok = false) : Looking src false [(.validate, x)]
  | good (x y : Answer) (h : src.vcs = true) (hx : x.ok = true) : Looking src true [(.validate, x), (.metadata, y)]

/-- The tests, in their order. -/
inductive Testing (src : Source) (path : Path) : Log → Prop where
  | none (h : src.py = false) : Testing src path []
  | unlisted (x : Answer) (h : src.py = true) (hx : x.ok = false) : Testing src path [(.listTests, x)]
  | all (x : Answer) (log : Log) (h : src.py = true) (hx : x.ok = true)
      (hl : log.map (·.1) = x.texts.map fun c => .test c path) : Testing src path ((.listTests, x) :: log)

/-- A whole release of a package that can be released: its acts, and whether it succeeds; `none` is an error. -/
inductive Runs (t : Texts) (g : Manager) (src : Source) (p : Pkg) (message : Option Str) (path : Path) : Log → Option Bool → Prop where
  | dry (vcs : Bool) (a : Log) (hd : g.mode = .dryRun) (ha : if g.skipVcs then a = [] else Looking src vcs a) :
      Runs t g src p message path a (some true)
  | noDir (vcs : Bool) (a : Log) (x : Answer) (hd : g.mode ≠ .dryRun) (ha : if g.skipVcs then a = [] else Looking src vcs a)
      (hb : g.skipBuild = false) (hx : x.ok = false) : Runs t g src p message path (a ++ [(.mkdirs path, x)]) none
  | failed (vcs : Bool) (a b c d e : Log) (f : Act) (x : Answer) (hd : g.mode ≠ .dryRun)
      (ha : if g.skipVcs then a = [] ∧ vcs = false else Looking src vcs a)
      (hb : if g.skipBuild then b = [] else Building t src p path b) (hc : if g.skipTests then c = [] else Testing src path c)
      (ht : if vcs then Tagging p message d else d = []) (he : Installing src path vcs e)
      (hl : e.getLast? = some (f, x)) (hx : x.ok = false) : Runs t g src p message path (a ++ b ++ c ++ d ++ e) none
  | done (vcs : Bool) (a b c d e : Log) (f : Act) (x : Answer) (ok : Bool) (hd : g.mode ≠ .dryRun)
      (ha : if g.skipVcs then a = [] ∧ vcs = false else Looking src vcs a)
      (hb : if g.skipBuild then b = [] else Building t src p path b) (hc : if g.skipTests then c = [] else Testing src path c)
      (ht : if vcs then Tagging p message d else d = []) (he : Installing src path vcs e)
      (hl : e.getLast? = some (f, x)) (hx : x.ok = true) (hok : ok = true ↔ Worked (a ++ b ++ c ++ d ++ e)) :
      Runs t g src p message path (a ++ b ++ c ++ d ++ e) (some ok)

/-- The directory that a mode installs to, as it is written in the settings. -/
def baseOf (mode : Mode) (c : Settings) : Str :=
  match mode with
  | .release => if c.releasePath = [] ∨ c.releasePath = c!"~/.rez/packages/int" then c.localPath else c.releasePath
  | _ => c.localPath

end Rez.ReleaseManager.Spec
