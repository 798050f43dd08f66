import Verif.Model.ReleaseCommand
import Mathlib.Data.List.Forall2
/-!
# What the release command promises
-/
namespace Rez.Release.Spec
open Rez Rez.Release

/-- The number that a text stands for: digits, perhaps after a plus sign, below 2^64. -/
def Number (t : Str) (i : Nat) : Prop :=
  ∃ ds, (t = ds ∨ t = '+' :: ds) ∧ ds ≠ [] ∧ (∀ c ∈ ds, isDigit c = true) ∧ digitsVal ds = i ∧ i < 2 ^ 64

/-- The texts between the commas, without blanks around them, and without those that are empty. -/
def pieces (t : Str) : List Str := ((splitChar ',' t).map trim).filter fun v => !v.isEmpty

/-- The list has each element of the other once, in the order of their first appearance. -/
def Firsts (l all : List Nat) : Prop :=
  (∀ i, i ∈ l ↔ i ∈ all) ∧ l.Pairwise fun i j => all.idxOf i < all.idxOf j

/-- The variants that a release is to have. -/
inductive Chosen (p : Pkg) : Option Str → List (Option Nat) → Prop where
  | whole (sel : Option Str) (h : p.variants = 0) (hs : ∀ t, sel = some t → trim t = []) : Chosen p sel [none]
  | all (h : p.variants ≠ 0) : Chosen p none ((List.range p.variants).map some)
  | given (t : Str) (is l : List Nat) (h : p.variants ≠ 0) (hn : pieces t ≠ []) (hi : List.Forall₂ Number (pieces t) is)
      (hr : ∀ i ∈ is, i < p.variants) (hl : Firsts l is) : Chosen p (some t) (l.map some)

/-- The acts that build these variants in turn, all with success. -/
inductive BuiltAll : List (Option Nat) → Log → Prop where
  | nil : BuiltAll [] []
  | cons (i : Option Nat) (l : List (Option Nat)) (a b : Answer) (log : Log) (ha : a.ok = true) (hb : b.ok = true) (h : BuiltAll l log) :
      BuiltAll (i :: l) ((.prepare i, a) :: (.build i, b) :: log)

/-- The acts that only look. -/
def Act.looks : Act → Bool
  | .status | .unpushed | .tagged _ => true
  | _ => false

/-- The repository is found clean. -/
def FoundClean (log : Log) : Prop := ∃ a, (Act.status, a) ∈ log ∧ a.started = true ∧ a.out = []

/-- The tag is not found. -/
def NotFound (t : Str) (log : Log) : Prop := ∃ a, (Act.tagged t, a) ∈ log ∧ (a.started = true → a.out = [])

/-- The tag of a release. -/
def tag (p : Pkg) : Str :=
  match p.version with
  | some v => p.name ++ c!"-" ++ v
  | none => p.name ++ c!"-unknown"

/-- The message of the tag: what is given, or else what is in the file, or else a text of its own. -/
inductive Message (a : Args) (p : Pkg) : Str → Prop where
  | given (t : Str) (h : a.message = some t) : Message a p t
  | file (t : Str) (h : a.message = none) (hf : a.messageFile = some (some t)) : Message a p t
  | own (h : a.message = none) (hf : a.messageFile = none ∨ a.messageFile = some none) : Message a p (c!"Release " ++ tag p)

/-- What is asked for before anything is done. -/
def Checked (a : Args) (d : Dir) (p : Pkg) (log : Log) : Prop :=
  d.package = some p ∧ (a.vcs = some c!"git" ∨ (a.vcs = none ∧ d.git = true)) ∧
  (a.skipRepoErrors = true ∨ FoundClean log) ∧ (a.ignoreExistingTag = true ∨ NotFound (tag p) log) ∧
  ∀ e ∈ log, Act.looks e.1 = true

end Rez.Release.Spec
