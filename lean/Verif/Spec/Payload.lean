import Verif.Model.Payload
import Mathlib.Logic.Relation
/-!
# Processes at work on a payload cache
-/
namespace Rez.Spec.Payload
open Rez Rez.Payload
variable {H F C : Type} [DecidableEq H] [DecidableEq F]

/-- The payload has every file of the source, complete, and no other. -/
def Complete (p : Files F C) (src : List (F × C)) : Prop := ∀ f, mget p f = (mget src f).map some

/-- The directory listing names every metadata file once. -/
def ScanOk (scan : List Str) (b : Bucket H F C) : Prop := scan.Perm (mkeys b.metas)

/-- The directory, the steps that readers (`get_cached_root`) have before them, those of the one process that adds, and a
record of all adds begun: handle and source. -/
structure Sys (H F C : Type) where
  bucket : Bucket H F C
  readers : List (List (Payload.Step H F C))
  adder : List (Payload.Step H F C)
  adds : List (H × List (F × C))

/-- Nothing yet. -/
def Sys.empty : Sys H F C := ⟨⟨[], [], []⟩, [], [], []⟩

/-- One event.  Any number of readers run at any time; adds run one at a time; a removal runs alone and to its end.
Readers and the adder may die at any point. -/
inductive Sys.Step : Sys H F C → Sys H F C → Prop where
  | read (s : Sys H F C) (h : H) (now : Nat) (scan : List Str) (hs : ScanOk scan s.bucket) :
    Sys.Step s { s with readers := (getCached now scan s.bucket h).2.2 :: s.readers }
  | readStep (b : Bucket H F C) (pre post : List (List (Payload.Step H F C))) (x : Payload.Step H F C)
      (rest : List (Payload.Step H F C)) (adder : List (Payload.Step H F C)) (adds : List (H × List (F × C))) :
    Sys.Step ⟨b, pre ++ (x :: rest) :: post, adder, adds⟩ ⟨x.apply b, pre ++ rest :: post, adder, adds⟩
  | readDies (b : Bucket H F C) (pre post : List (List (Payload.Step H F C))) (r : List (Payload.Step H F C))
      (adder : List (Payload.Step H F C)) (adds : List (H × List (F × C))) :
    Sys.Step ⟨b, pre ++ r :: post, adder, adds⟩ ⟨b, pre ++ post, adder, adds⟩
  | add (s : Sys H F C) (h : H) (src : List (F × C)) (now : Nat) (scan : List Str) (space : Bool)
      (hs : ScanOk scan s.bucket) (hn : (mkeys src).Nodup) (hidle : s.adder = []) :
    Sys.Step s { s with adder := (addVariant now scan space s.bucket h src).2.2, adds := (h, src) :: s.adds }
  | addStep (b : Bucket H F C) (readers : List (List (Payload.Step H F C))) (x : Payload.Step H F C)
      (rest : List (Payload.Step H F C)) (adds : List (H × List (F × C))) :
    Sys.Step ⟨b, readers, x :: rest, adds⟩ ⟨x.apply b, readers, rest, adds⟩
  | addDies (s : Sys H F C) : Sys.Step s { s with adder := [] }
  | remove (s : Sys H F C) (h : H) (now : Nat) (scan : List Str) (hs : ScanOk scan s.bucket)
      (hr : s.readers = []) (hidle : s.adder = []) :
    Sys.Step s { s with bucket := applyAll s.bucket (removeVariant now scan s.bucket h).2.2 }

/-- A state that some run of events leads to. -/
def Sys.Reachable (s : Sys H F C) : Prop := Relation.ReflTransGen Sys.Step Sys.empty s

end Rez.Spec.Payload
