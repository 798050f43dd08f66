import Verif.Model.Rex
/-!
# Specification vocabulary for Rex
-/
namespace Rez.Spec.Rex
open Rez Rez.Rex

/-- The variable `k` gets the value `v` (or goes away); the others stay. -/
def upd (f : Str → Option Str) (k : Str) (v : Option Str) : Str → Option Str := fun j => if j = k then v else f j

/-- `value` in front of the current value, or behind it; alone when there is no current value or an empty one. -/
def front (value sep : Str) : Option Str → Str
  | none => value
  | some [] => value
  | some cur => value ++ sep ++ cur
def behind (value sep : Str) : Option Str → Str
  | none => value
  | some [] => value
  | some cur => cur ++ sep ++ value

/-- What one statement does to the variables. -/
def varEffect (f : Str → Option Str) : Action → (Str → Option Str)
  | .setenv n v => upd f n (some v)
  | .unsetenv n => upd f n none
  | .resetenv n => upd f n none
  | .prependPath n v sep => upd f n (some (front v (sep.getD c!":") (f n)))
  | .appendPath n v sep => upd f n (some (behind v (sep.getD c!":") (f n)))
  | .setenvIfEmpty n v => if f n = none then upd f n (some v) else f
  | _ => f

/-- What one statement does to the aliases. -/
def aliasEffect (f : Str → Option Str) : Action → (Str → Option Str)
  | .alias n v => upd f n (some v)
  | _ => f

/-- The statements before the first stop. -/
def live : List Action → List Action
  | [] => []
  | .stop _ :: _ => []
  | a :: rest => a :: live rest

/-- The message of the first stop, if there is a stop. -/
def firstStop : List Action → Option (Option Str)
  | [] => none
  | .stop m :: _ => some m
  | _ :: rest => firstStop rest

/-- The commands, scripts and messages among the statements. -/
def commands (l : List Action) : List Str := l.filterMap fun | .command c => some c | _ => none
def scripts (l : List Action) : List Str := l.filterMap fun | .source p => some p | _ => none
def messages (l : List Action) : List Str :=
  l.filterMap fun | .info m => some m | .error m => some (c!"[error] " ++ m) | _ => none

/-- A text that can stand between quotes in a statement. -/
def Quotable (s : Str) : Prop := ∀ c ∈ s, c ≠ '"' ∧ c ≠ '\'' ∧ c ≠ '\n'

/-- How each statement is written between quotes `q` (lib.rs:6-18); comments are written in two ways, and
paths with a separator of their own cannot be written. -/
inductive Writes (q : Char) : Action → Str → Prop
  | setenv (n v) : n ≠ [] → Quotable n → Quotable v → Writes q (.setenv n v) (c!"env.setenv(" ++ [q] ++ n ++ [q] ++ c!", " ++ [q] ++ v ++ [q] ++ c!")")
  | setenvShort (n v) : n ≠ [] → Quotable n → Quotable v → Writes q (.setenv n v) (c!"setenv(" ++ [q] ++ n ++ [q] ++ c!", " ++ [q] ++ v ++ [q] ++ c!")")
  | unsetenv (n) : n ≠ [] → Quotable n → Writes q (.unsetenv n) (c!"env.unsetenv(" ++ [q] ++ n ++ [q] ++ c!")")
  | unsetenvShort (n) : n ≠ [] → Quotable n → Writes q (.unsetenv n) (c!"unsetenv(" ++ [q] ++ n ++ [q] ++ c!")")
  | prepend (n v) : n ≠ [] → Quotable n → Quotable v →
      Writes q (.prependPath n v none) (c!"env.prepend_path(" ++ [q] ++ n ++ [q] ++ c!", " ++ [q] ++ v ++ [q] ++ c!")")
  | prependShort (n v) : n ≠ [] → Quotable n → Quotable v →
      Writes q (.prependPath n v none) (c!"prependenv(" ++ [q] ++ n ++ [q] ++ c!", " ++ [q] ++ v ++ [q] ++ c!")")
  | append (n v) : n ≠ [] → Quotable n → Quotable v →
      Writes q (.appendPath n v none) (c!"env.append_path(" ++ [q] ++ n ++ [q] ++ c!", " ++ [q] ++ v ++ [q] ++ c!")")
  | appendShort (n v) : n ≠ [] → Quotable n → Quotable v →
      Writes q (.appendPath n v none) (c!"appendenv(" ++ [q] ++ n ++ [q] ++ c!", " ++ [q] ++ v ++ [q] ++ c!")")
  | setenvIfEmpty (n v) : n ≠ [] → Quotable n → Quotable v →
      Writes q (.setenvIfEmpty n v) (c!"env.setenv_if_empty(" ++ [q] ++ n ++ [q] ++ c!", " ++ [q] ++ v ++ [q] ++ c!")")
  | alias (n v) : n ≠ [] → Quotable n → Quotable v → Writes q (.alias n v) (c!"alias(" ++ [q] ++ n ++ [q] ++ c!", " ++ [q] ++ v ++ [q] ++ c!")")
  | command (a) : Quotable a → Writes q (.command a) (c!"command(" ++ [q] ++ a ++ [q] ++ c!")")
  | source (a) : Quotable a → Writes q (.source a) (c!"source(" ++ [q] ++ a ++ [q] ++ c!")")
  | resetenv (n) : n ≠ [] → Quotable n → Writes q (.resetenv n) (c!"env.resetenv(" ++ [q] ++ n ++ [q] ++ c!")")
  | resetenvShort (n) : n ≠ [] → Quotable n → Writes q (.resetenv n) (c!"resetenv(" ++ [q] ++ n ++ [q] ++ c!")")
  | info (a) : Quotable a → Writes q (.info a) (c!"info(" ++ [q] ++ a ++ [q] ++ c!")")
  | error (a) : Quotable a → Writes q (.error a) (c!"error(" ++ [q] ++ a ++ [q] ++ c!")")
  | stop : Writes q (.stop none) c!"stop()"
  | stopMessage (a) : Quotable a → Writes q (.stop (some a)) (c!"stop(" ++ [q] ++ a ++ [q] ++ c!")")
  | comment (a) : Quotable a → Writes q (.comment a) (c!"comment(" ++ [q] ++ a ++ [q] ++ c!")")

/-- The texts of a statement in which references count: everything but the name of the variable and comments. -/
def texts : Action → List Str
  | .setenv _ v | .prependPath _ v _ | .appendPath _ v _ | .setenvIfEmpty _ v | .alias _ v => [v]
  | .command t | .source t | .info t | .error t => [t]
  | .stop (some m) => [m]
  | .stop none | .unsetenv _ | .resetenv _ | .comment _ => []

/-- The statement with those texts blanked out. -/
def blank : Action → Action
  | .setenv n _ => .setenv n []
  | .prependPath n _ sep => .prependPath n [] sep
  | .appendPath n _ sep => .appendPath n [] sep
  | .setenvIfEmpty n _ => .setenvIfEmpty n []
  | .alias n _ => .alias n []
  | .command _ => .command []
  | .source _ => .source []
  | .info _ => .info []
  | .error _ => .error []
  | .stop m => .stop (m.map fun _ => [])
  | .unsetenv n => .unsetenv n
  | .resetenv n => .resetenv n
  | .comment t => .comment t

/-- The variable or alias that a statement names. -/
def named : Action → Option Str
  | .setenv n _ | .prependPath n _ _ | .appendPath n _ _ | .setenvIfEmpty n _ | .alias n _ | .unsetenv n | .resetenv n =>
    some n
  | _ => none

/-- A part of a text with references: a plain character, or the reference `{name}`. -/
inductive Part where
  | char (c : Char)
  | ref (name : Str)

/-- Characters with no meaning to the expansion. -/
def Plain (c : Char) : Prop := c ≠ '{' ∧ c ≠ '}' ∧ c ≠ '$'

def Part.text : Part → Str
  | .char c => [c]
  | .ref k => c!"{" ++ k ++ c!"}"

def Part.Ok : Part → Prop
  | .char c => Plain c
  | .ref k => ∀ c ∈ k, Plain c

/-- The value of a reference; references to unknown names stay. -/
def Part.value (vars : List (Str × Str)) : Part → Str
  | .char c => [c]
  | .ref k => (mget vars k).getD (c!"{" ++ k ++ c!"}")

end Rez.Spec.Rex
