/-
Lemmas about reading package.py: expressions are evaluated as in Python.
-/
import Verif.Lemmas.PackagePy
import Verif.Lemmas.PackagePyFormat

namespace Rez.PyLemmas
open Rez.PackagePy
open Rez.Spec
open Rez.Spec.Py (Res Val quirk Scope)

mutual

/-- A Python value as the program keeps it: tuples are lists. -/
def erase : Val → Value
  | .str s => .str s
  | .int i => .int i
  | .float f => .float f
  | .bool b => .bool b
  | .list l => .list (eraseL l)
  | .tuple l => .list (eraseL l)
  | .dict m => .dict (eraseD m)
  | .none => .none
  | .module _ => .none
  | .func _ => .none

def eraseL : List Val → List Value
  | [] => []
  | v :: vs => erase v :: eraseL vs

def eraseD : List (Str × Val) → List (Str × Value)
  | [] => []
  | (k, v) :: m => (k, erase v) :: eraseD m

end

theorem eraseL_append (l m : List Val) : eraseL (l ++ m) = eraseL l ++ eraseL m := by
  induction l with
  | nil => rfl
  | cons v l ih => rw [List.cons_append, eraseL, eraseL, ih]; rfl

theorem eraseD_mset (m : List (Str × Val)) (k : Str) (v : Val) : eraseD (mset m k v) = mset (eraseD m) k (erase v) := by
  have : ∀ m : List (Str × Val), eraseD (mdel m k) = mdel (eraseD m) k := by
    intro m
    induction m with
    | nil => rfl
    | cons p m ih =>
      obtain ⟨j, x⟩ := p
      unfold mdel at ih ⊢
      rw [List.filter_cons, eraseD, List.filter_cons]
      simp only
      split
      · rw [eraseD, ih]
      · exact ih
  rw [mset, eraseD, this]
  rfl

theorem mget_eraseD (m : List (Str × Val)) (k : Str) : mget (eraseD m) k = (mget m k).map erase := by
  induction m with
  | nil => rfl
  | cons p m ih =>
    obtain ⟨j, x⟩ := p
    rw [eraseD, mget, mget, ih]
    split <;> rfl

/-- The program follows Python: it gets the same result, and no result from what raises an exception. -/
def Follows {α β : Type} (r : Res α) (o : Outcome β) (f : α → β) : Prop :=
  match r with
  | .ok a => o = .ok (f a)
  | .raises => ∀ b, o ≠ .ok b
  | .beyond => True

theorem Follows.quirk {α β : Type} (r : Res α) (o : Outcome β) (f : α → β) : Follows (Py.quirk true r) o f := trivial

theorem Follows.beyond {α β : Type} (o : Outcome β) (f : α → β) : Follows (.beyond : Res α) o f := trivial

theorem Follows.bind {α β γ δ : Type} {r : Res α} {o : Outcome β} {f : α → β} {k : α → Res γ} {k' : β → Outcome δ}
    {g : γ → δ} (h : Follows r o f) (hk : ∀ a, Follows (k a) (k' (f a)) g) :
    Follows (r.bind k) (PackagePy.bind o k') g := by
  cases r with
  | ok a =>
    rw [show o = .ok (f a) from h]
    exact hk a
  | raises =>
    cases o with
    | ok b => exact absurd rfl (h b)
    | err => exact fun b hb => by cases hb
    | panic => exact fun b hb => by cases hb
  | beyond => trivial

theorem Follows.map {α β γ δ : Type} {r : Res α} {o : Outcome β} {f : α → β} {k : α → γ} {k' : β → δ} {g : γ → δ}
    (h : Follows r o f) (hk : ∀ a, k' (f a) = g (k a)) : Follows (r.map k) (PackagePy.map k' o) g := by
  refine h.bind fun a => ?_
  show Outcome.ok (k' (f a)) = _
  rw [hk]

/-- The variables of the program are those of Python. -/
structure ScopeOk (sc : Scope) (vars : Vars) : Prop where
  some : ∀ x v, sc.look x = some v → v.opaque = false → mget vars x = some (erase v)
  none : ∀ x, sc.look x = none → x ∉ sc.names → mget vars x = none

theorem small_fits {i : Int} (h : Py.small i = true) : fits i = true := by
  unfold Py.small at h
  unfold fits
  simp only [Bool.and_eq_true, decide_eq_true_eq] at h ⊢
  omega

theorem follows_num (w : World) (i : Int) : Follows (Py.num true i) (arith w i) erase := by
  unfold Py.num
  split
  · rename_i h
    unfold arith
    rw [if_pos (small_fits h)]
    rfl
  · exact .quirk _ _ _

theorem follows_constant (c : Const) : Follows (Py.constant true c) (PackagePy.constant c) erase := by
  cases c with
  | int i =>
    unfold Py.constant Py.num PackagePy.constant
    simp only
    split
    · rename_i h
      rw [if_pos (small_fits h)]
      rfl
    · exact .quirk _ _ _
  | other => trivial
  | _ => rfl

theorem follows_get {w : World} {sc : Scope} {vars : Vars} (h : ScopeOk sc vars) (x : Str) :
    Follows (sc.get true w x) ((mget vars x).elim .err .ok) erase := by
  unfold Scope.get
  split
  · rename_i v hv
    split
    · exact .quirk _ _ _
    · rename_i ho
      rw [h.some x v hv (by simpa using ho)]
      rfl
  · rename_i hn
    split
    · exact .quirk _ _ _
    · rename_i hx
      split
      · trivial
      · rw [h.none x hn hx]
        exact fun b hb => by cases hb

theorem follows_binop (w : World) (a b : Val) (op : BinOp) :
    Follows (Py.binop true w a op b) (PackagePy.binop w (erase a) op (erase b)) erase := by
  unfold Py.binop
  split
  · rfl
  · exact follows_num w _
  · exact follows_num w _
  · exact follows_num w _
  · rfl
  · rename_i l r
    show Outcome.ok (Value.list (eraseL l ++ eraseL r)) = .ok (.list (eraseL (l ++ r)))
    rw [eraseL_append]
  · rename_i l r
    show Outcome.ok (Value.list (eraseL l ++ eraseL r)) = .ok (.list (eraseL (l ++ r)))
    rw [eraseL_append]
  · exact .quirk _ _ _
  · exact .quirk _ _ _
  · rename_i l n
    split
    · rename_i hc
      simp only [Bool.and_eq_true, decide_eq_true_eq] at hc
      have hf := hc.2
      unfold Py.small at hf
      simp only [Bool.and_eq_true, decide_eq_true_eq] at hf
      show repeatStr l n = _
      unfold repeatStr
      have hn : (n % 2 ^ 64).toNat = n.toNat := by
        rw [Int.emod_eq_of_lt hc.1.1 (by omega)]
      simp only
      rw [hn, if_neg (by omega)]
      rfl
    · exact .quirk _ _ _
  · exact .quirk _ _ _
  · trivial

theorem truth_true {v : Val} : (∃ b, v = .bool b ∧ Py.truth true v = .ok b) ∨ Py.truth true v = .beyond := by
  unfold Py.truth
  split
  · exact .inl ⟨_, rfl, rfl⟩
  · exact .inr rfl

theorem follows_unop (w : World) (op : UnOp) (a : Val) : Follows (Py.unop true w op a) (PackagePy.unop w op (erase a)) erase := by
  unfold Py.unop
  split
  · rcases truth_true (v := a) with ⟨b, rfl, h⟩ | h
    · rw [h]; rfl
    · rw [h]; trivial
  · rfl
  · exact follows_num w _
  · rfl
  · rfl
  · trivial

theorem follows_compareOne (a b : Val) (op : CmpOp) :
    Follows (Py.compareOne true a op b) (PackagePy.compareOne (erase a) op (erase b)) id := by
  unfold Py.compareOne
  split
  · rename_i l r
    show Outcome.ok (l == r) = .ok (decide (l = r))
    rw [Bool.beq_eq_decide_eq]
  · exact .quirk _ _ _
  · rfl
  · rename_i l r
    show Outcome.ok (decide (l > r)) = .ok (decide (r < l))
    rfl
  · rename_i l r
    show Outcome.ok (l == r) = .ok (decide (l = r))
    rw [Bool.beq_eq_decide_eq]
  · rename_i l r
    show Outcome.ok (l != r) = .ok (decide (l ≠ r))
    rw [bne, Bool.beq_eq_decide_eq]
    simp
  · rename_i l r
    show Outcome.ok (l == r) = .ok (decide (l = r))
    rw [Bool.beq_eq_decide_eq]
  · trivial

/-! ## Attributes -/

theorem look_global {sc : Scope} {x : Str} (h : x ∉ sc.names) : sc.look x = mget sc.globals x := by
  unfold Scope.look
  rw [if_neg h]

theorem this_ok {sc : Scope} {vars : Vars} (h : ScopeOk sc vars) (x : Str) :
    (∃ s, Py.this true sc x = .ok s ∧ mget vars x = some (.str s)) ∨ Py.this true sc x = .beyond := by
  unfold Py.this
  split
  · by_cases hx : sc.names.contains x = true
    · rw [if_pos (by rw [hx]; rfl)]
      exact .inr rfl
    · rw [if_neg (by simpa using hx)]
      split
      · rename_i s hs
        refine .inl ⟨s, rfl, ?_⟩
        have hx' : x ∉ sc.names := by simpa using hx
        exact h.some x (.str s) ((look_global hx').trans hs) rfl
      · exact .inr rfl
  · exact .inr rfl

theorem part_ok (s a : Str) :
    (∃ t, Py.part true s a = .ok (.str t) ∧ versionPart s a = some t) ∨ Py.part true s a = .beyond := by
  unfold Py.part
  by_cases hall : (s.all fun c => isTok c || c == '.') = true
  · rw [if_neg (by rw [hall]; simp)]
    have htok : Py.tokens s = splitChar '.' s := by
      unfold Py.tokens
      congr 1
      conv => rhs; rw [← List.map_id s]
      refine List.map_congr_left fun c hc => ?_
      have := List.all_eq_true.mp hall c hc
      simp only [Bool.or_eq_true, beq_iff_eq] at this
      simp only [id_eq]
      split
      · rfl
      · rename_i ht
        rcases this with h | h
        · exact absurd h ht
        · exact h.symm
    simp only [htok]
    have hv : (if a = c!"major" then (splitChar '.' s)[0]? else if a = c!"minor" then (splitChar '.' s)[1]?
        else if a = c!"patch" then (splitChar '.' s)[2]? else none) = versionPart s a := by
      unfold versionPart
      simp only [beq_iff_eq]
    rw [hv]
    cases hp : versionPart s a with
    | none => exact .inr rfl
    | some t => exact .inl ⟨t, rfl, rfl⟩
  · rw [if_pos (by simpa using hall)]
    exact .inr rfl

theorem follows_member {w : World} {sc : Scope} {vars : Vars} (h : ScopeOk sc vars) (e : Expr) (a : Str) :
    Follows (Py.member true w sc e a) (attrValue w vars e a) erase := by
  unfold Py.member
  split
  · rename_i o a
    split
    · rename_i hc
      obtain ⟨rfl, rfl⟩ := hc
      split
      · split
        · rfl
        · trivial
      · trivial
      · exact .quirk _ _ _
    · split
      · rename_i hc
        obtain ⟨rfl, rfl⟩ := hc
        split
        · split
          · rfl
          · trivial
        · trivial
        · split
          · rfl
          · exact .quirk _ _ _
      · split
        · rename_i h1 h2 hc
          obtain ⟨rfl, ha⟩ := hc
          rcases this_ok h a with ⟨s, hs, hv⟩ | hb
          · rw [hs]
            rcases ha with rfl | rfl
            · show (mget vars c!"version").elim Outcome.err Outcome.ok = _
              rw [hv]; rfl
            · show (mget vars c!"name").elim Outcome.err Outcome.ok = _
              rw [hv]; rfl
          · rw [hb]; trivial
        · trivial
  · rename_i o v a
    split
    · rename_i hc
      obtain ⟨rfl, rfl⟩ := hc
      rcases this_ok h c!"version" with ⟨s, hs, hv⟩ | hb
      · rw [hs]
        show Follows (Py.part true s a) _ _
        have : attrValue w vars (.attr (.name c!"this") c!"version") a =
            (versionPart s a).elim .err fun t => .ok (.str t) := by
          unfold attrValue
          simp only [beq_self_eq_true, Bool.and_self, if_true]
          rw [hv]
        rw [this]
        rcases part_ok s a with ⟨t, ht, hp⟩ | hb
        · rw [ht, hp]; rfl
        · rw [hb]; trivial
      · rw [hb]; trivial
    · trivial
  · trivial

/-! ## `format` -/

theorem intText_numeral (i : Int) : intText i = Py.numeral i := by
  unfold Py.numeral
  cases i with
  | ofNat n => rw [if_neg (by simp)]; rfl
  | negSucc n => rw [if_pos (Int.negSucc_lt_zero n)]; rfl

/-- The texts of the arguments. -/
theorem formatArgs_ok (w : World) {vs : List Val} :
    (∃ ts, Py.formatArgs true vs = .ok ts ∧ itemTexts w (eraseL vs) = .ok ts) ∨ Py.formatArgs true vs = .beyond := by
  induction vs with
  | nil => exact .inl ⟨[], rfl, rfl⟩
  | cons v vs ih =>
    unfold Py.formatArgs
    split
    · rename_i s
      rcases ih with ⟨ts, h1, h2⟩ | hb
      · refine .inl ⟨s :: ts, by rw [h1]; rfl, ?_⟩
        rw [eraseL, itemTexts, h2]; rfl
      · rw [hb]; exact .inr rfl
    · rename_i i
      rcases ih with ⟨ts, h1, h2⟩ | hb
      · refine .inl ⟨Py.numeral i :: ts, by rw [h1]; rfl, ?_⟩
        rw [eraseL, itemTexts, h2, ← intText_numeral]; rfl
      · rw [hb]; exact .inr rfl
    · exact .inr rfl
    · exact .inr rfl

theorem evalFormat_ok {w : World} {vars : Vars} {args : List Expr} :
    ∀ {vs : List Value} {ts : List Str} {i : Nat} {text : Str}, PackagePy.evalList w vars args = .ok vs →
      itemTexts w vs = .ok ts → evalFormat w vars i text args = .ok (putAll i text ts) := by
  induction args with
  | nil =>
    intro vs ts i text h1 h2
    rw [PackagePy.evalList] at h1
    cases h1
    cases h2
    rw [evalFormat]; rfl
  | cons e es ih =>
    intro vs ts i text h1 h2
    rw [PackagePy.evalList] at h1
    rw [evalFormat]
    cases he : PackagePy.eval w vars e with
    | ok v =>
      rw [he] at h1
      cases hl : PackagePy.evalList w vars es with
      | ok l =>
        rw [hl] at h1
        cases h1
        rw [itemTexts] at h2
        cases hf : formatArg w v with
        | ok t =>
          rw [hf] at h2
          cases hi : itemTexts w l with
          | ok u =>
            rw [hi] at h2
            cases h2
            show PackagePy.bind (formatArg w v) _ = _
            rw [hf]
            exact ih hl hi
          | err => rw [hi] at h2; cases h2
          | panic => rw [hi] at h2; cases h2
        | err => rw [hf] at h2; cases h2
        | panic => rw [hf] at h2; cases h2
      | err => rw [hl] at h1; cases h1
      | panic => rw [hl] at h1; cases h1
    | err => rw [he] at h1; cases h1
    | panic => rw [he] at h1; cases h1

theorem evalFormat_only {w : World} {vars : Vars} {args : List Expr} :
    ∀ {i : Nat} {text t : Str}, evalFormat w vars i text args = .ok t → ∃ vs, PackagePy.evalList w vars args = .ok vs := by
  induction args with
  | nil => intro i text t _; exact ⟨[], by rw [PackagePy.evalList]⟩
  | cons e es ih =>
    intro i text t h
    rw [evalFormat] at h
    rw [PackagePy.evalList]
    cases he : PackagePy.eval w vars e with
    | ok v =>
      rw [he] at h
      simp only [PackagePy.bind] at h
      cases hf : formatArg w v with
      | ok u =>
        rw [hf] at h
        obtain ⟨vs, hv⟩ := ih h
        exact ⟨v :: vs, by rw [hv]; rfl⟩
      | err => rw [hf] at h; cases h
      | panic => rw [hf] at h; cases h
    | err => rw [he] at h; cases h
    | panic => rw [he] at h; cases h

theorem evalFirst_ok {w : World} {vars : Vars} {args : List Expr} {v : Value} {vs : List Value}
    (h : PackagePy.evalList w vars args = .ok (v :: vs)) : evalFirst w vars args = .ok (some v) := by
  cases args with
  | nil => rw [PackagePy.evalList] at h; cases h
  | cons e es =>
    rw [PackagePy.evalList] at h
    rw [evalFirst]
    cases he : PackagePy.eval w vars e with
    | ok x =>
      rw [he] at h
      cases hl : PackagePy.evalList w vars es with
      | ok l => rw [hl] at h; cases h; rfl
      | err => rw [hl] at h; cases h
      | panic => rw [hl] at h; cases h
    | err => rw [he] at h; cases h
    | panic => rw [he] at h; cases h

theorem evalList_cons {w : World} {vars : Vars} {e : Expr} {es : List Expr} {vs : List Value}
    (h : PackagePy.evalList w vars (e :: es) = .ok vs) :
    ∃ v l, vs = v :: l ∧ PackagePy.eval w vars e = .ok v ∧ PackagePy.evalList w vars es = .ok l := by
  rw [PackagePy.evalList] at h
  cases he : PackagePy.eval w vars e with
  | ok x =>
    rw [he] at h
    cases hl : PackagePy.evalList w vars es with
    | ok l => rw [hl] at h; cases h; exact ⟨x, l, rfl, rfl, rfl⟩
    | err => rw [hl] at h; cases h
    | panic => rw [hl] at h; cases h
  | err => rw [he] at h; cases h
  | panic => rw [he] at h; cases h

theorem evalSecond_ok {w : World} {vars : Vars} {args : List Expr} {vs : List Value}
    (h : PackagePy.evalList w vars args = .ok vs) : evalSecond w vars args = .ok vs[1]? := by
  cases args with
  | nil => rw [PackagePy.evalList] at h; cases h; rw [evalSecond.eq_2]; rfl; simp
  | cons e es =>
    obtain ⟨v, l, rfl, he, hl⟩ := evalList_cons h
    cases es with
    | nil => rw [PackagePy.evalList] at hl; cases hl; rw [evalSecond.eq_2]; rfl; simp
    | cons e2 es =>
      obtain ⟨v2, l2, rfl, he2, hl2⟩ := evalList_cons hl
      rw [evalSecond.eq_1, he2]
      rfl

/-! ## Calls -/

theorem callee_spec (e : Expr) (m : Str) :
    (Py.callee e m = .getenv ∧ isName c!"os" e = true ∧ m = c!"getenv") ∨
    ((isName c!"os" e && m == c!"getenv") = false ∧ Py.callee e m = .lower ∧ m = c!"lower") ∨
    ((isName c!"os" e && m == c!"getenv") = false ∧ Py.callee e m = .format ∧ m = c!"format") ∨
    Py.callee e m = .unknown := by
  unfold Py.callee
  have rest : ∀ e, ((isName c!"os" e && m == c!"getenv") = false) →
      ((isName c!"os" e && m == c!"getenv") = false ∧ (if m = c!"lower" then Py.Callee.lower else if m = c!"format" then .format else .unknown) = .lower ∧ m = c!"lower") ∨
      ((isName c!"os" e && m == c!"getenv") = false ∧ (if m = c!"lower" then Py.Callee.lower else if m = c!"format" then .format else .unknown) = .format ∧ m = c!"format") ∨
      (if m = c!"lower" then Py.Callee.lower else if m = c!"format" then .format else .unknown) = .unknown := by
    intro e he
    by_cases h1 : m = c!"lower"
    · rw [if_pos h1]
      exact .inl ⟨he, rfl, h1⟩
    · rw [if_neg h1]
      by_cases h2 : m = c!"format"
      · rw [if_pos h2]
        exact .inr (.inl ⟨he, rfl, h2⟩)
      · rw [if_neg h2]
        exact .inr (.inr rfl)
  cases e with
  | name o =>
    simp only
    by_cases h : o = c!"os" ∧ m = c!"getenv"
    · rw [if_pos h]
      exact .inl ⟨rfl, by rw [h.1]; rfl, h.2⟩
    · rw [if_neg h]
      refine .inr (rest (.name o) ?_)
      rw [Bool.eq_false_iff]
      intro hc
      apply h
      simpa [isName] using hc
  | _ => exact .inr (rest _ rfl)

theorem follows_getenv {w : World} {sc : Scope} {vars : Vars} {args : List Expr}
    (h : Follows (Py.evalList true w sc args) (PackagePy.evalList w vars args) eraseL) :
    Follows ((Py.unnoticed true (Py.evalList true w sc args)).bind fun vs => Py.getenv w vs)
      (PackagePy.bind (evalFirst w vars args) fun v =>
        match v with
        | some (.str n) =>
          match w.getenv n with
          | some t => .ok (.str t)
          | none => PackagePy.map orDefault (evalSecond w vars args)
        | _ => .err) erase := by
  cases hr : Py.evalList true w sc args with
  | beyond => trivial
  | raises => trivial
  | ok vs =>
    rw [hr] at h
    have h : PackagePy.evalList w vars args = .ok (eraseL vs) := h
    show Follows (Py.getenv w vs) _ _
    have one : ∀ n l, vs = .str n :: l → Follows (.ok ((w.getenv n).elim (l.head?.getD .none) .str) : Res Val)
        (PackagePy.bind (evalFirst w vars args) fun v =>
          match v with
          | some (.str n) =>
            match w.getenv n with
            | some t => .ok (.str t)
            | none => PackagePy.map orDefault (evalSecond w vars args)
          | _ => .err) erase := by
      intro n l hl
      subst hl
      rw [evalFirst_ok (by rw [h]; rfl)]
      simp only [PackagePy.bind, erase]
      cases hg : w.getenv n with
      | some t => exact rfl
      | none =>
        simp only
        rw [evalSecond_ok h]
        cases l <;> rfl
    match vs, one with
    | [], _ => trivial
    | [.str n], one => exact one n [] rfl
    | [.str n, d], one => exact one n [d] rfl
    | .str n :: _ :: _ :: _, _ => trivial
    | .int _ :: _, _ => trivial
    | .float _ :: _, _ => trivial
    | .bool _ :: _, _ => trivial
    | .list _ :: _, _ => trivial
    | .tuple _ :: _, _ => trivial
    | .dict _ :: _, _ => trivial
    | .none :: _, _ => trivial
    | .module _ :: _, _ => trivial
    | .func _ :: _, _ => trivial

theorem follows_format {w : World} {sc : Scope} {vars : Vars} {args : List Expr}
    (h : Follows (Py.evalList true w sc args) (PackagePy.evalList w vars args) eraseL) (s : Str) :
    Follows ((Py.evalList true w sc args).bind fun vs => (Py.formatArgs true vs).bind fun ts => Py.formatted true s ts)
      (PackagePy.map (fun t => Value.str (formatShow t)) (evalFormat w vars 0 (formatHide s) args)) erase := by
  cases hr : Py.evalList true w sc args with
  | beyond => trivial
  | raises =>
    rw [hr] at h
    intro b hb
    cases hf : evalFormat w vars 0 (formatHide s) args with
    | ok t =>
      obtain ⟨vs, hv⟩ := evalFormat_only hf
      exact h vs hv
    | err => rw [hf] at hb; cases hb
    | panic => rw [hf] at hb; cases hb
  | ok vs =>
    rw [hr] at h
    have h : PackagePy.evalList w vars args = .ok (eraseL vs) := h
    show Follows ((Py.formatArgs true vs).bind _) _ _
    rcases formatArgs_ok w (vs := vs) with ⟨ts, h1, h2⟩ | hb
    · rw [h1, evalFormat_ok h h2]
      show Follows (Py.formatted true s ts) _ _
      unfold Py.formatted
      split
      · rename_i t ht
        split
        · rename_i hc
          show Outcome.ok (Value.str _) = .ok (.str t)
          rw [format_agrees ht hc]
        · exact .quirk _ _ _
      · trivial
    · rw [hb]; trivial

/-! ## Expressions -/

mutual

theorem follows_eval {w : World} {sc : Scope} {vars : Vars} (h : ScopeOk sc vars) :
    (e : Expr) → Follows (Py.eval true w sc e) (PackagePy.eval w vars e) erase
  | .const c => by unfold Py.eval PackagePy.eval; exact follows_constant c
  | .name x => by unfold Py.eval PackagePy.eval; exact follows_get h x
  | .bin l op r => by
    unfold Py.eval PackagePy.eval
    exact (follows_eval h l).bind fun a => (follows_eval h r).bind fun b => follows_binop _ _ _ _
  | .un op e => by
    unfold Py.eval PackagePy.eval
    exact (follows_eval h e).bind fun a => follows_unop _ _ _
  | .cmp l rest => by
    unfold Py.eval PackagePy.eval
    by_cases hl : rest.length = 1
    · rw [if_neg (by simpa using hl)]
      exact (follows_eval h l).bind fun a => follows_compare h a rest hl
    · rw [if_pos (by simpa using hl)]
      trivial
  | .and es => by unfold Py.eval PackagePy.eval; exact follows_allOf h es
  | .or es => by unfold Py.eval PackagePy.eval; exact follows_anyOf h es
  | .list es => by unfold Py.eval PackagePy.eval; exact (follows_evalList h es).map fun _ => rfl
  | .tuple es => by unfold Py.eval PackagePy.eval; exact (follows_evalList h es).map fun _ => rfl
  | .dict items => by unfold Py.eval PackagePy.eval; exact (follows_evalDict h [] items).map fun _ => rfl
  | .call f args kw => by
    cases f with
    | attr e m =>
      unfold Py.eval PackagePy.eval
      split
      · trivial
      · rcases callee_spec e m with ⟨hc, h1, rfl⟩ | ⟨h1, hc, rfl⟩ | ⟨h1, hc, rfl⟩ | hc
        · rw [hc, h1]
          simp only [Bool.true_and, beq_self_eq_true, if_true]
          split
          · split
            · exact follows_getenv (follows_evalList h args)
            · trivial
          · trivial
          · exact .quirk _ _ _
        · rw [hc, h1]
          simp only [Bool.false_eq_true, if_false, beq_self_eq_true, if_true]
          refine (follows_eval h e).bind fun v => ?_
          cases v with
          | str s =>
            simp only
            split
            · rfl
            · trivial
          | _ => trivial
        · rw [hc, h1]
          rw [if_neg (by simp), if_neg (by decide), if_pos (by decide)]
          refine (follows_eval h e).bind fun v => ?_
          cases v with
          | str s => exact follows_format (follows_evalList h args) s
          | _ => trivial
        · rw [hc]; trivial
    | _ => unfold Py.eval; trivial
  | .attr e a => by unfold Py.eval PackagePy.eval; exact follows_member h e a
  | .sub _ _ => by unfold Py.eval; trivial
  | .ifexp t b e => by
    unfold Py.eval PackagePy.eval
    refine (follows_eval h t).bind fun v => ?_
    rcases truth_true (v := v) with ⟨c, rfl, hc⟩ | hc
    · rw [hc]
      cases c with
      | true => exact follows_eval h b
      | false => exact follows_eval h e
    · rw [hc]; trivial
  | .other => by unfold Py.eval; trivial

theorem follows_evalList {w : World} {sc : Scope} {vars : Vars} (h : ScopeOk sc vars) :
    (es : List Expr) → Follows (Py.evalList true w sc es) (PackagePy.evalList w vars es) eraseL
  | [] => by unfold Py.evalList PackagePy.evalList; rfl
  | e :: es => by
    unfold Py.evalList PackagePy.evalList
    exact (follows_eval h e).bind fun v => (follows_evalList h es).map fun _ => rfl

theorem follows_compare {w : World} {sc : Scope} {vars : Vars} (h : ScopeOk sc vars) (a : Val) :
    (rest : List (CmpOp × Expr)) → rest.length = 1 →
      Follows (Py.compare true w sc a rest) (evalCmp w vars (erase a) rest) erase
  | [], hl => by cases hl
  | [(op, e)], _ => by
    unfold Py.compare evalCmp
    refine (follows_eval h e).bind fun r => (follows_compareOne a r op).bind fun b => ?_
    cases b with
    | true => unfold Py.compare evalCmp; rfl
    | false => rfl
  | _ :: _ :: _, hl => by cases hl

theorem follows_allOf {w : World} {sc : Scope} {vars : Vars} (h : ScopeOk sc vars) :
    (es : List Expr) → Follows (Py.allOf true w sc es) (evalAnd w vars es) erase
  | [] => by unfold Py.allOf; trivial
  | e :: es => by
    unfold Py.allOf evalAnd
    refine (follows_eval h e).bind fun v => ?_
    rcases truth_true (v := v) with ⟨c, rfl, hc⟩ | hc
    · rw [hc]
      cases c with
      | true =>
        have ih := follows_allOf (w := w) h es
        cases es with
        | nil => unfold evalAnd; rfl
        | cons => exact ih
      | false => rfl
    · rw [hc]; trivial

theorem follows_anyOf {w : World} {sc : Scope} {vars : Vars} (h : ScopeOk sc vars) :
    (es : List Expr) → Follows (Py.anyOf true w sc es) (evalOr w vars es) erase
  | [] => by unfold Py.anyOf; trivial
  | e :: es => by
    unfold Py.anyOf evalOr
    refine (follows_eval h e).bind fun v => ?_
    rcases truth_true (v := v) with ⟨c, rfl, hc⟩ | hc
    · rw [hc]
      cases c with
      | false =>
        have ih := follows_anyOf (w := w) h es
        cases es with
        | nil => unfold evalOr; rfl
        | cons => exact ih
      | true => rfl
    · rw [hc]; trivial

theorem follows_evalDict {w : World} {sc : Scope} {vars : Vars} (h : ScopeOk sc vars) (acc : Py.Env) :
    (items : List (Option Expr × Expr)) →
      Follows (Py.evalDict true w sc acc items) (PackagePy.evalDict w vars (eraseD acc) items) eraseD
  | [] => by unfold Py.evalDict PackagePy.evalDict; rfl
  | (none, e) :: items => by unfold Py.evalDict; exact .quirk _ _ _
  | (some k, e) :: items => by
    unfold Py.evalDict PackagePy.evalDict
    refine (follows_eval h k).bind fun kv => (follows_eval h e).bind fun v => ?_
    cases kv with
    | str s =>
      have := follows_evalDict (w := w) h (mset acc s v) items
      rw [eraseD_mset] at this
      exact this
    | _ => trivial

end

end Rez.PyLemmas
