/-
Lemmas about reading package.py: expressions.
-/
import Verif.Model.PackagePy
import Verif.Spec.PackagePy
import Verif.Props.Rex

namespace Rez.PyLemmas
open Rez.PackagePy
open Rez.Spec
open Rez.Spec.Py (Res Val quirk Scope)

/-! ## Python with and without the quirks -/

/-- Where the careful semantics has a result, so has Python. -/
def Sub {α : Type} (r r' : Res α) : Prop := r = .beyond ∨ r' = r

theorem Sub.refl {α : Type} (r : Res α) : Sub r r := .inr rfl

theorem Sub.quirk {α : Type} (r r' : Res α) : Sub (Py.quirk true r) r' := .inl rfl

theorem Sub.bind {α β : Type} {r r' : Res α} {k k' : α → Res β} (h : Sub r r') (hk : ∀ a, Sub (k a) (k' a)) :
    Sub (r.bind k) (r'.bind k') := by
  rcases h with rfl | rfl
  · exact .inl rfl
  · cases r' with
    | ok a => exact hk a
    | raises => exact .inr rfl
    | beyond => exact .inl rfl

theorem Sub.map {α β : Type} {r r' : Res α} (f : α → β) (h : Sub r r') : Sub (r.map f) (r'.map f) :=
  h.bind fun _ => .refl _

theorem Sub.unnoticed {α : Type} {r r' : Res α} (h : Sub r r') : Sub (Py.unnoticed true r) (Py.unnoticed false r') := by
  rcases h with rfl | rfl
  · exact .inl rfl
  · cases r' with
    | ok a => exact .inr rfl
    | raises => exact .inl rfl
    | beyond => exact .inl rfl

theorem sub_num (i : Int) : Sub (Py.num true i) (Py.num false i) := by
  unfold Py.num
  split
  · exact .refl _
  · exact .quirk _ _

theorem sub_constant (c : Const) : Sub (Py.constant true c) (Py.constant false c) := by
  cases c <;> first | exact .refl _ | exact sub_num _

theorem sub_get (w : World) (sc : Scope) (x : Str) : Sub (sc.get true w x) (sc.get false w x) := by
  unfold Scope.get
  split
  · split
    · exact .quirk _ _
    · exact .refl _
  · split
    · exact .quirk _ _
    · exact .refl _

theorem sub_binop (w : World) (a b : Val) (op : BinOp) : Sub (Py.binop true w a op b) (Py.binop false w a op b) := by
  unfold Py.binop
  split <;> first | exact .refl _ | exact sub_num _ | exact .quirk _ _ | skip
  split
  · exact .refl _
  · exact .quirk _ _

theorem sub_truth (v : Val) : Sub (Py.truth true v) (Py.truth false v) := by
  unfold Py.truth
  split
  · exact .refl _
  · exact .quirk _ _

theorem sub_unop (w : World) (op : UnOp) (a : Val) : Sub (Py.unop true w op a) (Py.unop false w op a) := by
  unfold Py.unop
  split <;> first | exact .refl _ | exact sub_num _ | exact (sub_truth _).map _

theorem sub_compareOne (a b : Val) (op : CmpOp) : Sub (Py.compareOne true a op b) (Py.compareOne false a op b) := by
  unfold Py.compareOne
  split <;> first | exact .refl _ | exact .quirk _ _

theorem sub_formatArgs (vs : List Val) : Sub (Py.formatArgs true vs) (Py.formatArgs false vs) := by
  induction vs with
  | nil => exact .refl _
  | cons v vs ih =>
    unfold Py.formatArgs
    split
    · exact ih.map _
    · exact ih.map _
    · exact .quirk _ _
    · exact .refl _

theorem sub_formatted (t : Str) (ts : List Str) : Sub (Py.formatted true t ts) (Py.formatted false t ts) := by
  unfold Py.formatted
  split
  · split
    · exact .refl _
    · exact .quirk _ _
  · exact .refl _

theorem sub_this (sc : Scope) (x : Str) : Sub (Py.this true sc x) (Py.this false sc x) := by
  unfold Py.this
  split
  · by_cases h : sc.names.contains x = true
    · simp only [Bool.true_and, if_pos h]
      exact .inl rfl
    · rw [if_neg (by simpa using h), if_neg (by simp)]
      exact .refl _
  · exact .quirk _ _

theorem sub_part (v a : Str) : Sub (Py.part true v a) (Py.part false v a) := by
  unfold Py.part
  by_cases h : (!v.all fun c => isTok c || c == '.') = true
  · rw [if_pos (by rw [h]; rfl)]
    exact .inl rfl
  · rw [Bool.not_eq_true] at h
    rw [h]
    exact .refl _

theorem sub_member (w : World) (sc : Scope) (e : Expr) (a : Str) : Sub (Py.member true w sc e a) (Py.member false w sc e a) := by
  unfold Py.member
  split
  · split
    · split <;> first | exact .refl _ | exact .quirk _ _
    · split
      · split
        · exact .refl _
        · exact .refl _
        · split
          · exact .refl _
          · exact .quirk _ _
      · split
        · exact (sub_this _ _).map _
        · exact .refl _
  · split
    · exact (sub_this _ _).bind fun _ => sub_part _ _
    · exact .refl _
  · exact .refl _

mutual

theorem sub_eval (w : World) (sc : Scope) : (e : Expr) → Sub (Py.eval true w sc e) (Py.eval false w sc e)
  | .const c => by unfold Py.eval; exact sub_constant c
  | .name x => by unfold Py.eval; exact sub_get _ _ _
  | .bin l op r => by
    unfold Py.eval
    exact (sub_eval w sc l).bind fun a => (sub_eval w sc r).bind fun b => sub_binop _ _ _ _
  | .un op e => by unfold Py.eval; exact (sub_eval w sc e).bind fun a => sub_unop _ _ _
  | .cmp l rest => by
    unfold Py.eval
    by_cases h : (rest.length != 1) = true
    · rw [if_pos (by rw [h]; rfl)]
      exact .inl rfl
    · rw [if_neg (by simpa using h), if_neg (by simp)]
      exact (sub_eval w sc l).bind fun a => sub_compare w sc a rest
  | .and es => by unfold Py.eval; exact sub_allOf w sc es
  | .or es => by unfold Py.eval; exact sub_anyOf w sc es
  | .list es => by unfold Py.eval; exact (sub_evalList w sc es).map _
  | .tuple es => by unfold Py.eval; exact (sub_evalList w sc es).map _
  | .dict items => by unfold Py.eval; exact (sub_evalDict w sc [] items).map _
  | .call f args kw => by
    cases f with
    | attr e m =>
      unfold Py.eval
      split
      · exact .refl _
      · split
        · split
          · split
            · exact (sub_evalList w sc args).unnoticed.bind fun _ => .refl _
            · exact .refl _
          · exact .refl _
          · exact .quirk _ _
        · refine (sub_eval w sc e).bind fun v => ?_
          exact .refl _
        · refine (sub_eval w sc e).bind fun v => ?_
          split
          · exact (sub_evalList w sc args).bind fun _ => (sub_formatArgs _).bind fun _ => sub_formatted _ _
          · exact .refl _
        · exact .refl _
    | _ => unfold Py.eval; exact .refl _
  | .attr e a => by unfold Py.eval; exact sub_member _ _ _ _
  | .sub _ _ => by unfold Py.eval; exact .refl _
  | .ifexp t b e => by
    unfold Py.eval
    refine (sub_eval w sc t).bind fun v => (sub_truth v).bind fun c => ?_
    split
    · exact sub_eval w sc b
    · exact sub_eval w sc e
  | .other => by unfold Py.eval; exact .refl _

theorem sub_evalList (w : World) (sc : Scope) : (es : List Expr) → Sub (Py.evalList true w sc es) (Py.evalList false w sc es)
  | [] => by unfold Py.evalList; exact .refl _
  | e :: es => by unfold Py.evalList; exact (sub_eval w sc e).bind fun v => (sub_evalList w sc es).map _

theorem sub_compare (w : World) (sc : Scope) (a : Val) :
    (rest : List (CmpOp × Expr)) → Sub (Py.compare true w sc a rest) (Py.compare false w sc a rest)
  | [] => by unfold Py.compare; exact .refl _
  | (op, e) :: rest => by
    unfold Py.compare
    refine (sub_eval w sc e).bind fun r => (sub_compareOne _ _ _).bind fun b => ?_
    split
    · exact sub_compare w sc r rest
    · exact .refl _

theorem sub_allOf (w : World) (sc : Scope) : (es : List Expr) → Sub (Py.allOf true w sc es) (Py.allOf false w sc es)
  | [] => by unfold Py.allOf; exact .refl _
  | e :: es => by
    unfold Py.allOf
    refine (sub_eval w sc e).bind fun v => (sub_truth v).bind fun b => ?_
    split
    · exact sub_allOf w sc es
    · exact .refl _

theorem sub_anyOf (w : World) (sc : Scope) : (es : List Expr) → Sub (Py.anyOf true w sc es) (Py.anyOf false w sc es)
  | [] => by unfold Py.anyOf; exact .refl _
  | e :: es => by
    unfold Py.anyOf
    refine (sub_eval w sc e).bind fun v => (sub_truth v).bind fun b => ?_
    split
    · exact sub_anyOf w sc es
    · exact .refl _

theorem sub_evalDict (w : World) (sc : Scope) (acc : Py.Env) :
    (items : List (Option Expr × Expr)) → Sub (Py.evalDict true w sc acc items) (Py.evalDict false w sc acc items)
  | [] => by unfold Py.evalDict; exact .refl _
  | (none, e) :: items => by unfold Py.evalDict; exact .quirk _ _
  | (some k, e) :: items => by
    unfold Py.evalDict
    refine (sub_eval w sc k).bind fun kv => (sub_eval w sc e).bind fun v => ?_
    split
    · exact sub_evalDict w sc _ items
    · exact .refl _

end

theorem sub_argument (v : Val) : Sub (Py.argument true v) (Py.argument false v) := by
  unfold Py.argument
  split
  · split
    · exact .refl _
    · exact .quirk _ _
  · exact .refl _
  · exact .quirk _ _
  · exact .refl _

theorem sub_arguments (vs : List Val) : Sub (Py.arguments true vs) (Py.arguments false vs) := by
  induction vs with
  | nil => exact .refl _
  | cons v vs ih =>
    unfold Py.arguments
    exact (sub_argument v).bind fun _ => ih.map _

theorem sub_doing (a : Option Rex.Action) : Sub (Py.doing true a) (Py.doing false a) := by
  unfold Py.doing
  split
  · split
    · exact .refl _
    · exact .quirk _ _
  · exact .refl _

theorem sub_assign (w : World) (sc : Scope) (ts : List Expr) (v : Expr) :
    Sub (Py.assign true w sc ts v) (Py.assign false w sc ts v) := by
  unfold Py.assign
  split
  · exact (sub_eval w sc v).map _
  · split
    · exact (sub_eval w sc v).unnoticed.bind fun _ => (sub_argument _).bind fun _ => (sub_doing _).map _
    · exact .refl _
  · split
    · exact .quirk _ _
    · exact .refl _
  · exact .refl _

theorem sub_call (w : World) (sc : Scope) (f : Expr) (args : List Expr) :
    Sub (Py.call true w sc f args) (Py.call false w sc f args) := by
  unfold Py.call
  split
  · rename_i h r hp
    split
    · exact .refl _
    · split
      · exact .refl _
      · by_cases hh : (args.isEmpty && !r.isEmpty) = true
        · rw [if_pos (by simpa using hh)]
          exact .inl rfl
        · rw [if_neg (by simpa using hh), if_neg (by simp)]
          exact (sub_evalList w sc args).bind fun _ => (sub_arguments _).bind fun _ => sub_doing _
  · exact .refl _

mutual

theorem sub_run (w : World) (sc : Scope) : (s : Stmt) → Sub (Py.run true w sc s) (Py.run false w sc s)
  | .assign ts v => by unfold Py.run; exact sub_assign _ _ _ _
  | .ifStmt t b e => by
    unfold Py.run
    refine (sub_eval w sc t).bind fun v => (sub_truth v).bind fun c => ?_
    split
    · exact sub_runAll w sc b
    · exact sub_runAll w sc e
  | .expr e => by
    cases e with
    | call f args kw =>
      unfold Py.run
      split
      · exact .refl _
      · exact (sub_call w sc f args).map _
    | _ => unfold Py.run; exact .refl _
  | .imports names => by unfold Py.run; exact .refl _
  | .pass => by unfold Py.run; exact .refl _
  | .function _ _ => by unfold Py.run; exact .refl _
  | .other => by unfold Py.run; exact .refl _

theorem sub_runAll (w : World) (sc : Scope) : (ss : List Stmt) → Sub (Py.runAll true w sc ss) (Py.runAll false w sc ss)
  | [] => by unfold Py.runAll; exact .refl _
  | s :: ss => by unfold Py.runAll; exact (sub_run w sc s).bind fun r => (sub_runAll w _ ss).map _

end

theorem sub_actions (w : World) (env : Py.Env) (body : List Stmt) :
    Sub (Py.actions true w env body) (Py.actions false w env body) := (sub_runAll _ _ _).map _

mutual

theorem sub_exec (w : World) (env : Py.Env) : (s : Stmt) → Sub (Py.exec true w env s) (Py.exec false w env s)
  | .assign ts v => by
    unfold Py.exec
    split
    · refine (sub_eval w _ v).bind fun v => ?_
      split
      · exact .refl _
      · exact .quirk _ _
    · exact .quirk _ _
  | .function n body => by
    unfold Py.exec
    simp only [if_true, Bool.false_eq_true, if_false]
    split
    · split
      · exact .refl _
      · exact .inl rfl
    · exact .inl rfl
  | .imports names => by
    unfold Py.exec
    by_cases h : (names.any fun p => (mget Py.fields p.1).isSome) = true
    · rw [if_pos (by rw [h]; rfl)]
      exact .inl rfl
    · rw [if_neg (by simpa using h), if_neg (by simp)]
      exact .refl _
  | .ifStmt t b e => by
    unfold Py.exec
    refine (sub_eval w _ t).bind fun v => (sub_truth v).bind fun c => ?_
    split
    · exact sub_execAll w env b
    · exact sub_execAll w env e
  | .expr e => by unfold Py.exec; exact (sub_eval w _ e).map _
  | .pass => by unfold Py.exec; exact .refl _
  | .other => by unfold Py.exec; exact .refl _

theorem sub_execAll (w : World) (env : Py.Env) : (ss : List Stmt) → Sub (Py.execAll true w env ss) (Py.execAll false w env ss)
  | [] => by unfold Py.execAll; exact .refl _
  | s :: ss => by unfold Py.execAll; exact (sub_exec w env s).bind fun env => sub_execAll w env ss

end

end Rez.PyLemmas
