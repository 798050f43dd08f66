import Verif.Model.PackageFiles
/-!
# Installing by copying: `rez-next-build/src/systems/custom.rs` `copy_package_files`

A directory is listed when it is reached, after the one to copy to was made, so that a copy into the source itself sees what
it makes.  The depth of the recursion is a parameter: copying that is not over at that depth is `unfinished`.
Simplifications: a link counts as what it points to, so there are none, and other special files cannot be copied; what
appears in a directory while it is listed is not seen; directories can be read; the copying of a file (`fs::copy`) is
creating it and then writing it.
-/
namespace Rez.Build
open Rez Rez.Files

/-- custom.rs:549-571 `should_skip_file`. -/
def skipped (x : Str) : Bool :=
  [c!".git", c!".gitignore", c!".gitmodules", c!".hg", c!".hgignore", c!".svn", c!"build", c!"dist", c!"__pycache__",
    c!".pytest_cache", c!".tox", c!"node_modules", c!".DS_Store", c!"Thumbs.db", c!".coverage", c!"coverage.xml"].contains x ||
  c!".pyc".isSuffixOf x || c!".pyo".isSuffixOf x || c!".log".isSuffixOf x

/-- What came of copying. -/
inductive CopyEnd where
  | done (files : Nat)
  | failed
  | unfinished
deriving DecidableEq

/-- `read_dir`: the names in a directory. -/
def children (fs : FS) (p : Path) : List (Str × Entry) :=
  fs.filterMap fun e => match e.1.getLast? with
    | some x => if e.1.dropLast = p then some (x, e.2) else none
    | none => none

/-- The steps of one entry.  `fs::copy` empties the file to copy to before it reads, so that a file copied to itself is
lost. -/
def copyOne (sub : FS → Path → Path → List Step × CopyEnd) (src dst : Path) (fs : FS) (x : Str) : Entry → List Step × CopyEnd
  | .dir => sub fs (src ++ [x]) (dst ++ [x])
  | .file c =>
    if mget fs (dst ++ [x]) = some .dir then ([], .failed)
    else ([.create (dst ++ [x]), .write (dst ++ [x]) (.file (if src = dst then [] else c))], .done 1)
  | _ => ([], .failed)

/-- custom.rs:476-507, 524-544: the loops over the entries; the first that fails ends them. -/
def copyEach (sub : FS → Path → Path → List Step × CopyEnd) (skip : Str → Bool) (src dst : Path) :
    FS → List (Str × Entry) → List Step × CopyEnd
  | _, [] => ([], .done 0)
  | fs, (x, e) :: rest =>
    if skip x then copyEach sub skip src dst fs rest
    else
      match copyOne sub src dst fs x e with
      | (s, .done n) =>
        match copyEach sub skip src dst (run fs s) rest with
        | (s', .done n') => (s ++ s', .done (n + n'))
        | (s', r) => (s ++ s', r)
      | (s, r) => (s, r)

/-- The order in which the system lists a directory. -/
abbrev Listing := List (Str × Entry) → List (Str × Entry)

/-- custom.rs:510-546 `copy_dir_recursive`, and with names to skip 466-507 `copy_package_files` after the directory to
install in was made (150-152, 183-185). -/
def copyDir (order : Listing) (skip : Str → Bool) : Nat → FS → Path → Path → List Step × CopyEnd
  | 0, _, _, _ => ([], .unfinished)
  | n + 1, fs, src, dst =>
    if blocked fs dst then ([], .failed)
    else
      let fs1 := run fs (mkdirAll dst)
      let r := copyEach (copyDir order (fun _ => false) n) skip src dst fs1 (order (children fs1 src))
      (mkdirAll dst ++ r.1, r.2)

/-- custom.rs:141-178 `copy_files_install`. -/
def copyInstall (order : Listing) (depth : Nat) (fs : FS) (src dst : Path) : List Step × CopyEnd :=
  copyDir order skipped depth fs src dst

end Rez.Build
