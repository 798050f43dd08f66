/-
Lemmas about reading package.py: command functions.
-/
import Verif.Lemmas.PackagePyEval

namespace Rez.PyLemmas
open Rez.PackagePy
open Rez.Spec
open Rez.Spec.Py (Res Val quirk Scope)
open Rez.Rex (Action)

/-! ## What does not depend on a variable -/

/-- The variables that are read, by `r`, have the same values. -/
structure Keeps (names : List Str) (cmd : Bool) (g g' : Py.Env) (r : Str → Bool) : Prop where
  read : ∀ y, r y = true → y ∉ names → mget g y = mget g' y
  this : cmd = true → r c!"this" = true → ∀ y, y = c!"name" ∨ y = c!"version" → y ∉ names → mget g y = mget g' y

theorem Keeps.mono {names : List Str} {cmd : Bool} {g g' : Py.Env} {r r' : Str → Bool} (h : Keeps names cmd g g' r)
    (hr : ∀ y, r' y = true → r y = true) : Keeps names cmd g g' r' :=
  ⟨fun y hy => h.read y (hr y hy), fun hc ht => h.this hc (hr _ ht)⟩

section cong
variable {w : World} {g g' l : Py.Env} {names : List Str} {cmd : Bool}

theorem Keeps.look {r : Str → Bool} (h : Keeps names cmd g g' r) {x : Str} (hx : r x = true) :
    Scope.look ⟨g, l, names, cmd⟩ x = Scope.look ⟨g', l, names, cmd⟩ x := by
  unfold Scope.look
  simp only
  split
  · rfl
  · rename_i hn
    exact h.read x hx hn

theorem cong_this (r : Str → Bool) (h : Keeps names cmd g g' r) (ht : r c!"this" = true) {x : Str} (hx : x = c!"name" ∨ x = c!"version") :
    Py.this true ⟨g, l, names, cmd⟩ x = Py.this true ⟨g', l, names, cmd⟩ x := by
  unfold Py.this
  rw [h.look ht]
  simp only
  split
  · rename_i hc
    simp only [Bool.and_eq_true] at hc
    by_cases hn : names.contains x = true
    · simp only [Bool.true_and, hn, if_true]
    · rw [Bool.not_eq_true] at hn
      simp only [Bool.true_and, hn, Bool.false_eq_true, if_false]
      rw [h.this hc.1 ht x hx (by simpa using hn)]
  · rfl

theorem cong_member (e : Expr) (a : Str) (h : Keeps names cmd g g' (fun y => Py.reads y e)) :
    Py.member true w ⟨g, l, names, cmd⟩ e a = Py.member true w ⟨g', l, names, cmd⟩ e a := by
  unfold Py.member
  split
  · rename_i o a
    split
    · rename_i hc
      rw [h.look (l := l) (x := c!"os") (by rw [hc.1]; rfl)]
    · split
      · rename_i hc
        rw [h.look (l := l) (x := c!"system") (by rw [hc.1]; rfl)]
      · split
        · rename_i hc
          rw [cong_this (l := l) _ h (by rw [hc.1]; rfl) (by tauto)]
        · rfl
  · rename_i o v a
    split
    · rename_i hc
      rw [cong_this (l := l) _ h (by rw [hc.1]; rfl) (.inr rfl)]
    · rfl
  · rfl

mutual

theorem cong_eval : (e : Expr) → Keeps names cmd g g' (fun y => Py.reads y e) →
    Py.eval true w ⟨g, l, names, cmd⟩ e = Py.eval true w ⟨g', l, names, cmd⟩ e
  | .const c, _ => by unfold Py.eval; rfl
  | .name x, h => by
    unfold Py.eval Scope.get
    rw [h.look (by unfold Py.reads; exact beq_self_eq_true x)]
  | .bin a op b, h => by
    unfold Py.eval
    rw [cong_eval a (h.mono fun y hy => by unfold Py.reads; rw [hy]; rfl),
      cong_eval b (h.mono fun y hy => by unfold Py.reads; rw [hy]; simp)]
  | .un op e, h => by
    unfold Py.eval
    rw [cong_eval e (h.mono fun y hy => by unfold Py.reads; exact hy)]
  | .cmp a rest, h => by
    unfold Py.eval
    rw [cong_eval a (h.mono fun y hy => by unfold Py.reads; rw [hy]; rfl)]
    congr 2
    funext v
    exact cong_compare v rest (h.mono fun y hy => by unfold Py.reads; rw [hy]; simp)
  | .and es, h => by
    unfold Py.eval
    exact cong_allOf es (h.mono fun y hy => by unfold Py.reads; exact hy)
  | .or es, h => by
    unfold Py.eval
    exact cong_anyOf es (h.mono fun y hy => by unfold Py.reads; exact hy)
  | .list es, h => by
    unfold Py.eval
    rw [cong_evalList es (h.mono fun y hy => by unfold Py.reads; exact hy)]
  | .tuple es, h => by
    unfold Py.eval
    rw [cong_evalList es (h.mono fun y hy => by unfold Py.reads; exact hy)]
  | .dict items, h => by
    unfold Py.eval
    rw [cong_evalDict [] items (h.mono fun y hy => by unfold Py.reads; exact hy)]
  | .call f args kw, h => by
    cases f with
    | attr e m =>
      have h1 := h.mono (r' := fun y => Py.reads y e) fun y hy => by
        unfold Py.reads; rw [show Py.reads y (.attr e m) = Py.reads y e by rw [Py.reads.eq_11], hy]; rfl
      have h2 := h.mono (r' := fun y => Py.readsList y args) fun y hy => by unfold Py.reads; rw [hy]; simp
      unfold Py.eval
      rw [cong_eval e h1, cong_evalList args h2]
      rcases callee_spec e m with ⟨hc, hn, _⟩ | ⟨_, hc, _⟩ | ⟨_, hc, _⟩ | hc
      · have : Py.reads c!"os" e = true := by
          cases e with
          | name o => unfold Py.reads; exact hn
          | _ => cases hn
        rw [hc, h1.look (l := l) this]
      · rw [hc]
      · rw [hc]
      · rw [hc]
    | _ => unfold Py.eval; rfl
  | .attr e a, h => by
    unfold Py.eval
    exact cong_member e a (h.mono fun y hy => by unfold Py.reads; exact hy)
  | .sub _ _, _ => by unfold Py.eval; rfl
  | .ifexp t b e, h => by
    unfold Py.eval
    rw [cong_eval t (h.mono fun y hy => by unfold Py.reads; rw [hy]; simp),
      cong_eval b (h.mono fun y hy => by unfold Py.reads; rw [hy]; simp),
      cong_eval e (h.mono fun y hy => by unfold Py.reads; rw [hy]; simp)]
  | .other, _ => by unfold Py.eval; rfl

theorem cong_evalList : (es : List Expr) → Keeps names cmd g g' (fun y => Py.readsList y es) →
    Py.evalList true w ⟨g, l, names, cmd⟩ es = Py.evalList true w ⟨g', l, names, cmd⟩ es
  | [], _ => by unfold Py.evalList; rfl
  | e :: es, h => by
    unfold Py.evalList
    rw [cong_eval e (h.mono fun y hy => by unfold Py.readsList; rw [hy]; rfl),
      cong_evalList es (h.mono fun y hy => by unfold Py.readsList; rw [hy]; simp)]

theorem cong_compare (a : Val) : (rest : List (CmpOp × Expr)) → Keeps names cmd g g' (fun y => Py.readsCmp y rest) →
    Py.compare true w ⟨g, l, names, cmd⟩ a rest = Py.compare true w ⟨g', l, names, cmd⟩ a rest
  | [], _ => by unfold Py.compare; rfl
  | (op, e) :: rest, h => by
    unfold Py.compare
    rw [cong_eval e (h.mono fun y hy => by unfold Py.readsCmp; rw [hy]; rfl)]
    congr 1
    funext r
    rw [cong_compare r rest (h.mono fun y hy => by unfold Py.readsCmp; rw [hy]; simp)]

theorem cong_allOf : (es : List Expr) → Keeps names cmd g g' (fun y => Py.readsList y es) →
    Py.allOf true w ⟨g, l, names, cmd⟩ es = Py.allOf true w ⟨g', l, names, cmd⟩ es
  | [], _ => by unfold Py.allOf; rfl
  | e :: es, h => by
    unfold Py.allOf
    rw [cong_eval e (h.mono fun y hy => by unfold Py.readsList; rw [hy]; rfl),
      cong_allOf es (h.mono fun y hy => by unfold Py.readsList; rw [hy]; simp)]

theorem cong_anyOf : (es : List Expr) → Keeps names cmd g g' (fun y => Py.readsList y es) →
    Py.anyOf true w ⟨g, l, names, cmd⟩ es = Py.anyOf true w ⟨g', l, names, cmd⟩ es
  | [], _ => by unfold Py.anyOf; rfl
  | e :: es, h => by
    unfold Py.anyOf
    rw [cong_eval e (h.mono fun y hy => by unfold Py.readsList; rw [hy]; rfl),
      cong_anyOf es (h.mono fun y hy => by unfold Py.readsList; rw [hy]; simp)]

theorem cong_evalDict (acc : Py.Env) : (items : List (Option Expr × Expr)) →
    Keeps names cmd g g' (fun y => Py.readsDict y items) →
    Py.evalDict true w ⟨g, l, names, cmd⟩ acc items = Py.evalDict true w ⟨g', l, names, cmd⟩ acc items
  | [], _ => by unfold Py.evalDict; rfl
  | (none, e) :: items, _ => by unfold Py.evalDict; rfl
  | (some k, e) :: items, h => by
    unfold Py.evalDict
    rw [cong_eval k (h.mono fun y hy => by unfold Py.readsDict; rw [hy]; rfl),
      cong_eval e (h.mono fun y hy => by unfold Py.readsDict; rw [hy]; simp)]
    congr 1
    funext kv
    congr 1
    funext v
    cases kv with
    | str s => exact cong_evalDict (mset acc s v) items (h.mono fun y hy => by unfold Py.readsDict; rw [hy]; simp)
    | _ => rfl

end

theorem path_ne_nil : (e : Expr) → Py.path e ≠ some []
  | .name x => by unfold Py.path; exact fun h => by cases h
  | .attr e a => by
    unfold Py.path
    cases Py.path e with
    | none => exact fun h => by cases h
    | some l => simp
  | .const _ | .bin .. | .un .. | .cmp .. | .and _ | .or _ | .list _ | .tuple _ | .dict _ | .call .. | .sub .. | .ifexp .. |
    .other => fun h => by cases h

theorem path_head : (f : Expr) → {h : Str} → {r : List Str} → Py.path f = some (h :: r) → Py.reads h f = true
  | .name x, h, r, hp => by
    unfold Py.path at hp
    cases hp
    unfold Py.reads
    exact beq_self_eq_true _
  | .attr e a, h, r, hp => by
    unfold Py.path at hp
    unfold Py.reads
    cases he : Py.path e with
    | none => rw [he] at hp; cases hp
    | some l =>
      rw [he] at hp
      simp only [Option.map_some, Option.some.injEq] at hp
      cases l with
      | nil => exact absurd he (path_ne_nil e)
      | cons x l =>
        rw [List.cons_append] at hp
        cases hp
        exact path_head e he
  | .const _, _, _, hp | .bin .., _, _, hp | .un .., _, _, hp | .cmp .., _, _, hp | .and _, _, _, hp | .or _, _, _, hp
  | .list _, _, _, hp | .tuple _, _, _, hp | .dict _, _, _, hp | .call .., _, _, hp | .sub .., _, _, hp
  | .ifexp .., _, _, hp | .other, _, _, hp => by cases hp

theorem cong_call (f : Expr) (args : List Expr) (hf : Keeps names cmd g g' (fun y => Py.reads y f))
    (ha : Keeps names cmd g g' (fun y => Py.readsList y args)) :
    Py.call true w ⟨g, l, names, cmd⟩ f args = Py.call true w ⟨g', l, names, cmd⟩ f args := by
  unfold Py.call
  rw [cong_evalList args ha]
  cases hp : Py.path f with
  | none => rfl
  | some p =>
    cases p with
    | nil => rfl
    | cons h r =>
      simp only
      rw [hf.look (l := l) (path_head f hp)]

theorem cong_assign (targets : List Expr) (value : Expr)
    (h : Keeps names cmd g g' (fun y => Py.uses y (.assign targets value))) :
    Py.assign true w ⟨g, l, names, cmd⟩ targets value = Py.assign true w ⟨g', l, names, cmd⟩ targets value := by
  unfold Py.assign
  rw [cong_eval value (h.mono fun y hy => by unfold Py.uses; rw [hy]; simp)]
  split
  · rfl
  · rename_i o x
    by_cases ho : o = c!"env"
    · rw [h.look (l := l) (x := c!"env") (by unfold Py.uses; rw [ho]; simp [Py.target, Py.reads])]
    · rw [if_neg (fun hc => ho hc.1), if_neg (fun hc => ho hc.1)]
  · unfold Py.quirk
    simp only [if_true]
    split <;> split <;> rfl
  · rfl

mutual

theorem cong_run : (s : Stmt) → (l : Py.Env) → Keeps names cmd g g' (fun y => Py.uses y s) →
    Py.run true w ⟨g, l, names, cmd⟩ s = Py.run true w ⟨g', l, names, cmd⟩ s
  | .assign targets value, l, h => by
    unfold Py.run
    exact cong_assign targets value h
  | .ifStmt t b e, l, h => by
    unfold Py.run
    rw [cong_eval t (h.mono fun y hy => by unfold Py.uses; rw [hy]; simp),
      cong_runAll b l (h.mono fun y hy => by unfold Py.uses; rw [hy]; simp),
      cong_runAll e l (h.mono fun y hy => by unfold Py.uses; rw [hy]; simp)]
  | .expr e, l, h => by
    cases e with
    | call f args kw =>
      unfold Py.run
      rw [cong_call f args (h.mono fun y hy => by unfold Py.uses Py.reads; rw [hy]; simp)
        (h.mono fun y hy => by unfold Py.uses Py.reads; rw [hy]; simp)]
    | _ => unfold Py.run; rfl
  | .imports _, l, h => by unfold Py.run; rfl
  | .pass, l, h => by unfold Py.run; rfl
  | .function _ _, l, h => by unfold Py.run; rfl
  | .other, l, h => by unfold Py.run; rfl

theorem cong_runAll : (ss : List Stmt) → (l : Py.Env) → Keeps names cmd g g' (fun y => Py.usesIn y ss) →
    Py.runAll true w ⟨g, l, names, cmd⟩ ss = Py.runAll true w ⟨g', l, names, cmd⟩ ss
  | [], l, _ => by unfold Py.runAll; rfl
  | s :: ss, l, h => by
    unfold Py.runAll
    rw [cong_run s l (h.mono fun y hy => by unfold Py.usesIn; rw [hy]; rfl)]
    congr 1
    funext r
    rw [cong_runAll ss r.1 (h.mono fun y hy => by unfold Py.usesIn; rw [hy]; simp)]

end

end cong

theorem cong_actions {w : World} {g g' : Py.Env} {body : List Stmt}
    (h : ∀ x, Py.needs x body = true → mget g x = mget g' x) : Py.actions true w g body = Py.actions true w g' body := by
  unfold Py.actions
  rw [cong_runAll body []]
  refine ⟨fun y hy _ => h y (by unfold Py.needs; rw [hy]; rfl), fun _ ht y hy _ => h y ?_⟩
  unfold Py.needs
  rw [ht]
  rcases hy with rfl | rfl <;> simp

/-! ## The text of a call -/

theorem digit_quotable {c : Char} (h : isDigit c = true) : c ≠ '"' ∧ c ≠ '\'' ∧ c ≠ '\n' := by
  refine ⟨?_, ?_, ?_⟩ <;> (rintro rfl; exact absurd h (by decide))

theorem numeral_quotable (i : Int) : Rex.Quotable (Py.numeral i) := by
  unfold Py.numeral
  split
  · intro c hc
    rcases List.mem_cons.mp hc with rfl | hc
    · decide
    · exact digit_quotable (List.all_eq_true.mp (decimal_digits _) _ hc)
  · intro c hc
    exact digit_quotable (List.all_eq_true.mp (decimal_digits _) _ hc)

theorem quotable_iff {s : Str} : Py.quotable s = true ↔ Rex.Quotable s := by
  unfold Py.quotable Rex.Quotable
  simp [List.all_eq_true, and_assoc]

/-- The text of an expression, as an argument. -/
def Says (w : World) (vars : Vars) (e : Expr) (s : Str) : Prop := extractText w vars e = .ok s ∧ Rex.Quotable s

theorem says_of {w : World} {vars : Vars} {e : Expr} {v : Val} {s : Str} (he : PackagePy.eval w vars e = .ok (erase v))
    (hs : Py.argument true v = .ok s) : Says w vars e s := by
  cases v with
  | str t =>
    unfold Py.argument at hs
    simp only at hs
    split at hs
    · rename_i hq
      cases hs
      exact ⟨by unfold extractText; rw [he]; rfl, quotable_iff.mp hq⟩
    · cases hs
  | int i =>
    cases hs
    exact ⟨by unfold extractText; rw [he, ← intText_numeral]; rfl, numeral_quotable i⟩
  | _ => cases hs

theorem says_all {w : World} {vars : Vars} : ∀ {args : List Expr} {vs : List Val} {ts : List Str},
    PackagePy.evalList w vars args = .ok (eraseL vs) → Py.arguments true vs = .ok ts →
      List.Forall₂ (Says w vars) args ts
  | [], vs, ts, h1, h2 => by
    rw [PackagePy.evalList] at h1
    cases vs with
    | nil => cases h2; exact .nil
    | cons => cases h1
  | e :: es, vs, ts, h1, h2 => by
    obtain ⟨v, l, hv, he, hl⟩ := evalList_cons h1
    cases vs with
    | nil => cases hv
    | cons x xs =>
      rw [eraseL] at hv
      cases hv
      unfold Py.arguments at h2
      cases ha : Py.argument true x with
      | ok s =>
        rw [ha] at h2
        cases hr : Py.arguments true xs with
        | ok r =>
          rw [show (Res.ok s).bind (fun s => (Py.arguments true xs).map (s :: ·)) = (Py.arguments true xs).map (s :: ·) from rfl, hr] at h2
          cases h2
          exact .cons (says_of he ha) (says_all hl hr)
        | raises => rw [hr] at h2; cases h2
        | beyond => rw [hr] at h2; cases h2
      | raises => rw [ha] at h2; cases h2
      | beyond => rw [ha] at h2; cases h2

theorem say1_eq (name a : Str) : say1 name a = (name ++ c!"(") ++ ['\''] ++ a ++ ['\''] ++ c!")" := by
  simp [say1]

theorem say2_eq (name a b : Str) :
    say2 name a b = (name ++ c!"(") ++ ['\''] ++ a ++ ['\''] ++ c!", " ++ ['\''] ++ b ++ ['\''] ++ c!")" := by
  simp [say2]

theorem sound_name {n : Str} (h : (!n.isEmpty && Py.quotable n) = true) : n ≠ [] := by
  rintro rfl
  simp at h

theorem path_one {f : Expr} {x : Str} (h : Py.path f = some [x]) : f = .name x := by
  cases f with
  | name y => unfold Py.path at h; cases h; rfl
  | attr e a =>
    unfold Py.path at h
    cases he : Py.path e with
    | none => rw [he] at h; cases h
    | some l =>
      rw [he] at h
      cases l with
      | nil => exact absurd he (path_ne_nil e)
      | cons y l => simp at h
  | _ => cases h

theorem path_more {f : Expr} {x y : Str} {r : List Str} (h : Py.path f = some (x :: y :: r)) :
    ∃ e a p, f = .attr e a ∧ Py.path e = some p ∧ p ++ [a] = x :: y :: r := by
  cases f with
  | name y => unfold Py.path at h; cases h
  | attr e a =>
    unfold Py.path at h
    cases he : Py.path e with
    | none => rw [he] at h; cases h
    | some l =>
      rw [he] at h
      exact ⟨e, a, l, rfl, he, by simpa using h⟩
  | _ => cases h

theorem path_two {f : Expr} {o m : Str} (h : Py.path f = some [o, m]) : f = .attr (.name o) m := by
  obtain ⟨e, a, p, rfl, hp, ha⟩ := path_more h
  match p, ha with
  | [x], ha =>
    simp only [List.cons_append, List.nil_append, List.cons.injEq, and_true] at ha
    rw [path_one hp, ha.1, ha.2]
  | [], ha => simp at ha
  | _ :: _ :: _, ha => simp at ha

theorem path_three {f : Expr} {o x m : Str} (h : Py.path f = some [o, x, m]) : f = .attr (.attr (.name o) x) m := by
  obtain ⟨e, a, p, rfl, hp, ha⟩ := path_more h
  match p, ha with
  | [y, z], ha =>
    simp only [List.cons_append, List.nil_append, List.cons.injEq, and_true] at ha
    rw [path_two hp, ha.1, ha.2.1, ha.2.2]
  | [], ha => simp at ha
  | [_], ha => simp at ha
  | _ :: _ :: _ :: _, ha => simp at ha

theorem two_ok {w : World} {vars : Vars} {e f : Expr} {a b name : Str} (h1 : extractText w vars e = .ok a)
    (h2 : extractText w vars f = .ok b) : callTwo w vars name [e, f] = .ok (say2 name a b) := by
  show both (extractText w vars e) (extractText w vars f) _ = _
  rw [h1, h2]
  rfl

theorem one_ok {w : World} {vars : Vars} {e : Expr} {a name : Str} (h1 : extractText w vars e = .ok a) :
    callOne w vars name [e] = .ok (say1 name a) := by
  show PackagePy.map _ (extractText w vars e) = _
  rw [h1]
  rfl

theorem written {w : World} {vars : Vars} {f : Expr} {h : Str} {r : List Str} {args : List Expr} {ts : List Str}
    {a : Action} (hp : Py.path f = some (h :: r)) (hs : List.Forall₂ (Says w vars) args ts)
    (ha : Py.actionOf (h :: r) ts = some a) (hsound : Py.sound a = true) (hne : args = [] → r = []) :
    ∃ t, callText w vars f args = .ok t ∧ Rex.Writes '\'' a t := by
  unfold Py.actionOf at ha
  split at ha
  · -- `stop()`
    rename_i f' hl
    cases hl
    cases hs
    rw [path_one hp]
    split at ha
    · rename_i hf
      cases ha
      subst hf
      exact ⟨c!"stop()", rfl, .stop⟩
    · cases ha
  · rename_i f' x hl
    cases hl
    cases hs with
    | cons hx hs =>
      cases hs
      rename_i e
      rw [path_one hp]
      repeat' split at ha
      all_goals first | (cases ha; done) | skip
      all_goals rename_i hf; subst hf
      all_goals obtain ⟨ht, hq⟩ := hx
      all_goals cases ha
      · exact ⟨_, one_ok ht, by rw [say1_eq]; exact .unsetenvShort _ (sound_name hsound) hq⟩
      · exact ⟨_, one_ok ht, by rw [say1_eq]; exact .resetenvShort _ (sound_name hsound) hq⟩
      · exact ⟨_, one_ok ht, by rw [say1_eq]; exact .command _ hq⟩
      · exact ⟨_, one_ok ht, by rw [say1_eq]; exact .source _ hq⟩
      · exact ⟨_, one_ok ht, by rw [say1_eq]; exact .info _ hq⟩
      · exact ⟨_, one_ok ht, by rw [say1_eq]; exact .error _ hq⟩
      · exact ⟨_, one_ok ht, by rw [say1_eq]; exact .stopMessage _ hq⟩
  · rename_i f' x y hl
    cases hl
    cases hs with
    | cons hx hs =>
      cases hs with
      | cons hy hs =>
        cases hs
        rename_i e e'
        rw [path_one hp]
        repeat' split at ha
        all_goals first | (cases ha; done) | skip
        all_goals rename_i hf; subst hf
        all_goals obtain ⟨hx, hqx⟩ := hx
        all_goals obtain ⟨hy, hqy⟩ := hy
        all_goals cases ha
        · exact ⟨_, two_ok hx hy, by rw [say2_eq]; exact .setenvShort _ _ (sound_name hsound) hqx hqy⟩
        · exact ⟨_, two_ok hx hy, by rw [say2_eq]; exact .prependShort _ _ (sound_name hsound) hqx hqy⟩
        · exact ⟨_, two_ok hx hy, by rw [say2_eq]; exact .appendShort _ _ (sound_name hsound) hqx hqy⟩
        · exact ⟨_, two_ok hx hy, by rw [say2_eq]; exact .alias _ _ (sound_name hsound) hqx hqy⟩
  · rename_i o f' x hl
    cases hl
    cases hs with
    | cons hx hs =>
      cases hs
      rename_i e
      rw [path_two hp]
      split at ha
      · rename_i hf
        obtain ⟨rfl, rfl⟩ := hf
        cases ha
        obtain ⟨ht, hq⟩ := hx
        exact ⟨_, one_ok ht, by rw [say1_eq]; exact .unsetenv _ (sound_name hsound) hq⟩
      · cases ha
  · rename_i o f' x y hl
    cases hl
    cases hs with
    | cons hx hs =>
      cases hs with
      | cons hy hs =>
        cases hs
        rename_i e e'
        rw [path_two hp]
        split at ha
        · cases ha
        rename_i ho
        rw [not_not] at ho
        subst ho
        repeat' split at ha
        all_goals first | (cases ha; done) | skip
        all_goals rename_i hf; subst hf
        all_goals obtain ⟨hx, hqx⟩ := hx
        all_goals obtain ⟨hy, hqy⟩ := hy
        all_goals cases ha
        · exact ⟨_, two_ok hx hy, by rw [say2_eq]; exact .setenv _ _ (sound_name hsound) hqx hqy⟩
        · exact ⟨_, two_ok hx hy, by rw [say2_eq]; exact .prepend _ _ (sound_name hsound) hqx hqy⟩
        · exact ⟨_, two_ok hx hy, by rw [say2_eq]; exact .append _ _ (sound_name hsound) hqx hqy⟩
        · exact ⟨_, two_ok hx hy, by rw [say2_eq]; exact .setenvIfEmpty _ _ (sound_name hsound) hqx hqy⟩
  · rename_i o x f' hl
    cases hl
    cases hs
    cases hne rfl
  · rename_i o x f' v hl
    cases hl
    cases hs with
    | cons hv hs =>
      cases hs
      rename_i e
      rw [path_three hp]
      split at ha
      · cases ha
      rename_i ho
      rw [not_not] at ho
      subst ho
      have hm : callText w vars (.attr (.attr (.name c!"env") x) f') [e] =
          (if f' == c!"prepend" then .ok (say2 c!"env.prepend_path" x v)
            else if f' == c!"append" then .ok (say2 c!"env.append_path" x v)
            else if f' == c!"set" then .ok (say2 c!"env.setenv" x v)
            else if f' == c!"unset" then .ok (say1 c!"env.unsetenv" x)
            else .err) := by
        show PackagePy.bind (extractText w vars e) _ = _
        rw [hv.1]
        rfl
      rw [hm]
      have hqv := hv.2
      repeat' split at ha
      all_goals first | (cases ha; done) | skip
      all_goals rename_i hf; subst hf
      all_goals cases ha
      all_goals have hn := sound_name hsound
      all_goals
        have hqx : Rex.Quotable x := by
          have := hsound
          simp only [Py.sound, Bool.and_eq_true] at this
          exact quotable_iff.mp this.2
      · exact ⟨_, rfl, by rw [say2_eq]; exact .prepend _ _ hn hqx hqv⟩
      · exact ⟨_, rfl, by rw [say2_eq]; exact .append _ _ hn hqx hqv⟩
      · exact ⟨_, rfl, by rw [say2_eq]; exact .setenv _ _ hn hqx hqv⟩
  · cases ha

/-! ## Statements of a command function -/

/-- The text, if any, is read as these actions. -/
abbrev Said := Py.Performs

theorem said_join {t : Option Str} {ts : List Str} {a b : List Action} (h1 : Said t a) (h2 : Said (joinCommands ts) b) :
    Said (joinCommands (t.toList ++ ts)) (a ++ b) := by
  cases t with
  | none =>
    rw [show a = [] from h1]
    exact h2
  | some t =>
    have h1 : Rez.Rex.parse t = some a := h1
    show Said (some (joinWith c!"\n" (t :: ts))) (a ++ b)
    cases ts with
    | nil =>
      rw [show b = [] from h2, List.append_nil]
      exact h1
    | cons u us =>
      have h2 : Rez.Rex.parse (joinWith c!"\n" (u :: us)) = some b := h2
      show Rez.Rex.parse (t ++ c!"\n" ++ joinWith c!"\n" (u :: us)) = some (a ++ b)
      rw [List.append_assoc]
      show Rez.Rex.parse (t ++ '\n' :: joinWith c!"\n" (u :: us)) = some (a ++ b)
      rw [Rez.Props.C102_lines, h1, h2]
      rfl

theorem said_writes {a : Action} {t : Str} (h : Rex.Writes '\'' a t) : Said (some t) [a] := by
  have := Rez.Props.C102_statement_partial '\'' (.inr rfl) a t h [] [] (by simp) (by simp)
  rw [List.nil_append, List.append_nil] at this
  exact this

theorem doing_ok {a : Option Action} {l : List Action} (h : Py.doing true a = .ok l) :
    ∃ x, a = some x ∧ l = [x] ∧ Py.sound x = true := by
  cases a with
  | none => cases h
  | some x =>
    unfold Py.doing at h
    simp only at h
    split at h
    · rename_i hs
      cases h
      exact ⟨x, rfl, rfl, hs⟩
    · cases h

theorem bind_ok {α β : Type} {r : Res α} {k : α → Res β} {b : β} (h : r.bind k = .ok b) : ∃ a, r = .ok a ∧ k a = .ok b := by
  cases r with
  | ok a => exact ⟨a, rfl, h⟩
  | raises => cases h
  | beyond => cases h

theorem map_ok {α β : Type} {r : Res α} {k : α → β} {b : β} (h : r.map k = .ok b) : ∃ a, r = .ok a ∧ k a = b := by
  obtain ⟨a, ha, hb⟩ := bind_ok h
  exact ⟨a, ha, by cases hb; rfl⟩

theorem unnoticed_ok {α : Type} {r : Res α} {a : α} (h : Py.unnoticed true r = .ok a) : r = .ok a := by
  cases r with
  | ok b => exact h
  | raises => cases h
  | beyond => cases h

theorem follows_ok {α β : Type} {r : Res α} {o : Outcome β} {f : α → β} {a : α} (h : Follows r o f) (hr : r = .ok a) :
    o = .ok (f a) := by
  subst hr
  exact h

/-- Modules bound by an import. -/
theorem imported (names : List (Str × Str)) : ∀ (m : Py.Env) (x : Str),
    (∀ v, mget (names.foldl (fun m p => mset m p.1 (.module p.2)) m) x = some v → v.opaque = false → mget m x = some v) ∧
      (mget (names.foldl (fun m p => mset m p.1 (.module p.2)) m) x = none → mget m x = none) ∧
      (x ∉ names.map Prod.fst → mget (names.foldl (fun m p => mset m p.1 (.module p.2)) m) x = mget m x) := by
  induction names with
  | nil => exact fun m x => ⟨fun v h _ => h, fun h => h, fun _ => rfl⟩
  | cons p ps ih =>
    intro m x
    obtain ⟨h1, h2, h3⟩ := ih (mset m p.1 (.module p.2)) x
    rw [List.foldl_cons]
    refine ⟨fun v hv ho => ?_, fun h => ?_, fun hx => ?_⟩
    · have := h1 v hv ho
      rw [mget_mset] at this
      split at this
      · cases this
        cases ho
      · exact this
    · have := h2 h
      rw [mget_mset] at this
      split at this
      · cases this
      · exact this
    · rw [List.map_cons, List.mem_cons, not_or] at hx
      rw [h3 hx.2, mget_mset, if_neg hx.1]

theorem scope_set {sc : Scope} {vars : Vars} (h : ScopeOk sc vars) {x : Str} (hx : x ∈ sc.names) (v : Val) :
    ScopeOk { sc with locals := mset sc.locals x v } (mset vars x (erase v)) := by
  refine ⟨fun y u hy ho => ?_, fun y hy hn => ?_⟩
  · rw [mget_mset]
    unfold Scope.look at hy
    simp only at hy
    by_cases hyx : y = x
    · rw [if_pos hyx]
      rw [hyx, if_pos hx, mget_mset, if_pos rfl] at hy
      cases hy
      rfl
    · rw [if_neg hyx]
      refine h.some y u ?_ ho
      unfold Scope.look
      rw [mget_mset, if_neg hyx] at hy
      exact hy
  · rw [mget_mset]
    have hyx : y ≠ x := fun e => hn (e ▸ hx)
    rw [if_neg hyx]
    refine h.none y ?_ hn
    unfold Scope.look at hy ⊢
    simp only at hy
    rw [if_neg hn] at hy ⊢
    exact hy

mutual

theorem run_ok {w : World} : (s : Stmt) → (sc : Scope) → (vars : Vars) → ScopeOk sc vars →
    (∀ x ∈ Py.assigned s, x ∈ sc.names) → (r : Py.Env × List Action) → Py.run true w sc s = .ok r →
      ∃ vars' t, command w vars s = .ok (vars', t) ∧ ScopeOk { sc with locals := r.1 } vars' ∧ Said t r.2
  | .assign targets value, sc, vars, hs, ha, r, h => by
    unfold Py.run Py.assign at h
    unfold command
    split at h
    · rename_i x
      obtain ⟨v, hv, rfl⟩ := map_ok h
      refine ⟨mset vars x (erase v), none, ?_, scope_set hs (ha x ?_) v, rfl⟩
      · show PackagePy.map _ (PackagePy.eval w vars value) = _
        rw [follows_ok (follows_eval hs value) hv]
        rfl
      · unfold Py.assigned
        simp [Py.target]
    · rename_i o x
      split at h
      · rename_i ho
        obtain ⟨v, hv, h⟩ := bind_ok h
        obtain ⟨s, hsv, h⟩ := bind_ok h
        obtain ⟨l, hl, rfl⟩ := map_ok h
        obtain ⟨a, hact, rfl, hsound⟩ := doing_ok hl
        cases hact
        obtain ⟨ht, hq⟩ := says_of (follows_ok (follows_eval hs value) (unnoticed_ok hv)) hsv
        refine ⟨vars, some (say2 c!"env.setenv" x s), ?_, hs, ?_⟩
        · unfold commandAssign
          simp only [ho.1, beq_self_eq_true, if_true]
          rw [ht]
        · simp only [Py.sound, Bool.and_eq_true] at hsound
          refine said_writes ?_
          rw [say2_eq]
          exact .setenv _ _ (sound_name (by simpa using hsound)) (quotable_iff.mp hsound.2) hq
      · cases h
    · split at h
      · cases h
      · cases h
    · cases h
  | .ifStmt t b e, sc, vars, hs, ha, r, h => by
    unfold Py.run at h
    unfold command
    obtain ⟨v, hv, h⟩ := bind_ok h
    obtain ⟨c, hc, h⟩ := bind_ok h
    rw [follows_ok (follows_eval hs t) hv]
    rcases truth_true (v := v) with ⟨d, rfl, hd⟩ | hd
    · rw [hd] at hc
      cases hc
      cases c with
      | true =>
        obtain ⟨vars', ts, h1, h2, h3⟩ := runAll_ok b sc vars hs (fun x hx => ha x (by unfold Py.assigned; simp [hx])) r h
        exact ⟨vars', joinCommands ts, by simp only [PackagePy.bind, erase]; rw [h1]; rfl, h2, h3⟩
      | false =>
        obtain ⟨vars', ts, h1, h2, h3⟩ := runAll_ok e sc vars hs (fun x hx => ha x (by unfold Py.assigned; simp [hx])) r h
        exact ⟨vars', joinCommands ts, by simp only [PackagePy.bind, erase]; rw [h1]; rfl, h2, h3⟩
    · rw [hd] at hc
      cases hc
  | .expr e, sc, vars, hs, ha, r, h => by
    cases e with
    | call f args kw =>
      unfold Py.run at h
      unfold command
      split at h
      · cases h
      obtain ⟨l, hl, rfl⟩ := map_ok h
      unfold Py.call at hl
      split at hl
      · rename_i h0 r0 hp
        split at hl
        · cases hl
        split at hl
        · cases hl
        split at hl
        · cases hl
        rename_i hne
        obtain ⟨vs, hvs, hl⟩ := bind_ok hl
        obtain ⟨ts, hts, hl⟩ := bind_ok hl
        obtain ⟨a, hact, rfl, hsound⟩ := doing_ok hl
        obtain ⟨t, ht, hw⟩ := written hp (says_all (follows_ok (follows_evalList hs args) hvs) hts) hact hsound (by
          intro hargs
          subst hargs
          simpa using hne)
        exact ⟨vars, some t, by rw [ht]; rfl, hs, said_writes hw⟩
      · cases hl
    | const c =>
      unfold Py.run at h
      cases h
      exact ⟨vars, none, by unfold command; rfl, hs, rfl⟩
    | _ => unfold Py.run at h; cases h
  | .imports names, sc, vars, hs, ha, r, h => by
    unfold Py.run at h
    cases h
    refine ⟨vars, none, by unfold command; rfl, ⟨fun y u hy ho => ?_, fun y hy hn => ?_⟩, rfl⟩
    · refine hs.some y u ?_ ho
      unfold Scope.look at hy ⊢
      simp only at hy
      split at hy
      · rename_i hn
        rw [if_pos hn]
        exact (imported names sc.locals y).1 u hy ho
      · rename_i hn
        rw [if_neg hn]
        exact hy
    · refine hs.none y ?_ hn
      unfold Scope.look at hy ⊢
      simp only at hy
      rw [if_neg hn] at hy ⊢
      exact hy
  | .pass, sc, vars, hs, ha, r, h => by
    unfold Py.run at h
    cases h
    exact ⟨vars, none, by unfold command; rfl, hs, rfl⟩
  | .function _ _, sc, vars, hs, ha, r, h => by unfold Py.run at h; cases h
  | .other, sc, vars, hs, ha, r, h => by unfold Py.run at h; cases h

theorem runAll_ok {w : World} : (ss : List Stmt) → (sc : Scope) → (vars : Vars) → ScopeOk sc vars →
    (∀ x ∈ Py.assignedIn ss, x ∈ sc.names) → (r : Py.Env × List Action) → Py.runAll true w sc ss = .ok r →
      ∃ vars' ts, commands w vars ss = .ok (vars', ts) ∧ ScopeOk { sc with locals := r.1 } vars' ∧
        Said (joinCommands ts) r.2
  | [], sc, vars, hs, ha, r, h => by
    unfold Py.runAll at h
    cases h
    exact ⟨vars, [], by unfold commands; rfl, hs, rfl⟩
  | s :: ss, sc, vars, hs, ha, r, h => by
    unfold Py.runAll at h
    obtain ⟨r1, h1, h⟩ := bind_ok h
    obtain ⟨r2, h2, rfl⟩ := map_ok h
    obtain ⟨v1, t, hc1, hs1, ht1⟩ := run_ok s sc vars hs (fun x hx => ha x (by unfold Py.assignedIn; simp [hx])) r1 h1
    obtain ⟨v2, ts, hc2, hs2, ht2⟩ := runAll_ok ss { sc with locals := r1.1 } v1 hs1
      (fun x hx => ha x (by unfold Py.assignedIn; simp [hx])) r2 h2
    refine ⟨v2, t.toList ++ ts, ?_, hs2, said_join ht1 ht2⟩
    unfold commands
    rw [hc1]
    show PackagePy.map _ (commands w v1 ss) = _
    rw [hc2]
    rfl

end

/-- The text of a command function. -/
theorem body_ok {w : World} {env : Py.Env} {vars : Vars} (hs : ScopeOk (.top env) vars) {body : List Stmt} {acts : List Action}
    (h : Py.actions true w env body = .ok acts) : ∃ t, functionBody w vars body = .ok t ∧ Said t acts := by
  unfold Py.actions at h
  obtain ⟨r, hr, rfl⟩ := map_ok h
  have hs' : ScopeOk ⟨env, [], Py.assignedIn body, true⟩ vars := by
    refine ⟨fun y u hy ho => ?_, fun y hy hn => ?_⟩
    · unfold Scope.look at hy
      simp only at hy
      split at hy
      · cases hy
      · refine hs.some y u ?_ ho
        unfold Scope.look Scope.top
        simpa using hy
    · unfold Scope.look at hy
      simp only at hy hn
      rw [if_neg hn] at hy
      refine hs.none y ?_ (by simp [Scope.top])
      unfold Scope.look Scope.top
      simpa using hy
  obtain ⟨vars', ts, h1, _, h3⟩ := runAll_ok body _ vars hs' (fun x hx => hx) r hr
  exact ⟨joinCommands ts, by unfold functionBody; rw [h1]; rfl, h3⟩

end Rez.PyLemmas
