import Verif.Model.BuildArchive
import Verif.Spec.BuildCopy
/-!
# What installing a binary archive promises
-/
namespace Rez.Build.Spec
open Rez Rez.Files Rez.Spec.Files

/-- The archive holds this file: its last entry of that path. -/
def IsFile (entries : List ArchiveEntry) (p : Path) (c : Str) : Prop :=
  ∃ pre post, entries = pre ++ (some p, some c) :: post ∧ ∀ c', (some p, some c') ∉ post

/-- The archive holds this directory: as an entry, or on the way to one. -/
def IsDir (entries : List ArchiveEntry) (p : Path) : Prop :=
  (∃ q, (some q, none) ∈ entries ∧ p <+: q) ∨ ∃ q c, (some q, some c) ∈ entries ∧ p <+: q ∧ p ≠ q

/-- The archive holds something at this path. -/
def Holds (entries : List ArchiveEntry) (p : Path) : Prop := (∃ c, IsFile entries p c) ∨ IsDir entries p

/-- The name and content of the archive that the variables ask for: a file of the machine, or what comes from the network,
which is called like the last part of the URL. -/
inductive Obtained (t : ArchiveTools) (v : ArchiveVars) (cwd : Path) (fs : FS) : Str → Str → Prop where
  | file (a n c : Str) (h : v.artifact = some a) (hn : (join cwd a).getLast? = some n)
      (hc : mget fs (join cwd a) = some (.file c)) : Obtained t v cwd fs n c
  | url (u n c : Str) (h : v.artifact = none) (hu : v.url = some u) (hn : u = n ∨ ∃ a, u = a ++ '/' :: n) (hs : '/' ∉ n)
      (hc : t.fetch u = some c) : Obtained t v cwd fs n c

/-- What is in the archive, by the end of its name, whatever the case. -/
def Reads (t : ArchiveTools) (n c : Str) (entries : List ArchiveEntry) : Prop :=
  (c!".zip" <:+ n.map lowerChar ∧ t.unzip c = some entries) ∨
  ((c!".tar.gz" <:+ n.map lowerChar ∨ c!".tgz" <:+ n.map lowerChar) ∧ t.untar c = some entries)

/-- The directory of the archive that is installed: all of it, or the one that a variable names. -/
def PayloadAt (v : ArchiveVars) (parts : Path) : Prop :=
  (v.pre = none ∧ parts = []) ∨ (parts ≠ [] ∧ (∀ c ∈ parts, Component c) ∧ v.pre = some (joinWith c!"/" parts))

/-- The directory for the files of the archive. -/
def extractDir (temp : Path) : Path := temp ++ [c!"binary_archive", c!"extract"]

/-- A change that only concerns the directories `a` and `b`, and directories that lead to them. -/
def WithinBoth (fs : FS) (a b : Path) (fs' : FS) : Prop :=
  ∀ q, ¬ a <+: q → ¬ b <+: q →
    mget fs' q = mget fs q ∨ ((q <+: a ∨ q <+: b) ∧ mget fs q = none ∧ mget fs' q = some .dir)

end Rez.Build.Spec
