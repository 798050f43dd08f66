/-
Lemmas about reading package.py: the statements of the file.
-/
import Verif.Lemmas.PackagePyRun

namespace Rez.PyLemmas
open Rez.PackagePy
open Rez.Spec
open Rez.Spec.Py (Res Val quirk Scope)
open Rez.Rex (Action)

/-! ## Values of fields -/

theorem textOf_extract {w : World} {vars : Vars} {e : Expr} {v : Val} {s : Str}
    (he : PackagePy.eval w vars e = .ok (erase v)) (hs : Py.textOf v = some s) : extractText w vars e = .ok s := by
  unfold extractText
  rw [he]
  cases v with
  | str t => cases hs; rfl
  | int i => cases hs; rw [← intText_numeral]; rfl
  | _ => cases hs

theorem itemTexts_ok (w : World) : ∀ {l : List Val} {ts : List Str}, l.mapM Py.textOf = some ts →
    itemTexts w (eraseL l) = .ok ts
  | [], ts, h => by cases h; rfl
  | v :: l, ts, h => by
    rw [List.mapM_cons] at h
    cases hv : Py.textOf v with
    | none => rw [hv] at h; cases h
    | some s =>
      rw [hv] at h
      cases hl : l.mapM Py.textOf with
      | none => rw [hl] at h; cases h
      | some us =>
        rw [hl] at h
        cases h
        have hf : formatArg w (erase v) = .ok s := by
          cases v with
          | str t => cases hv; rfl
          | int i => cases hv; rw [← intText_numeral]; rfl
          | _ => cases hv
        rw [eraseL, itemTexts, hf, itemTexts_ok w hl]
        rfl

theorem textsOf_extract {w : World} {vars : Vars} {e : Expr} {v : Val} {ts : List Str}
    (he : PackagePy.eval w vars e = .ok (erase v)) (hs : Py.textsOf v = some ts) : extractList w vars e = .ok ts := by
  unfold extractList
  rw [he]
  cases v with
  | list l => exact itemTexts_ok w hs
  | tuple l => exact itemTexts_ok w hs
  | _ => cases hs

theorem extractLists_ok {w : World} {vars : Vars} : ∀ {es : List Expr} {l : List Val} {ts : List (List Str)},
    PackagePy.evalList w vars es = .ok (eraseL l) → l.mapM Py.textsOf = some ts → extractLists w vars es = .ok ts
  | [], l, ts, he, h => by
    rw [PackagePy.evalList] at he
    cases l with
    | nil => cases h; rfl
    | cons => cases he
  | e :: es, l, ts, he, h => by
    obtain ⟨v, vs, hv, h1, h2⟩ := evalList_cons he
    cases l with
    | nil => cases hv
    | cons x xs =>
      rw [eraseL] at hv
      cases hv
      rw [List.mapM_cons] at h
      cases hx : Py.textsOf x with
      | none => rw [hx] at h; cases h
      | some s =>
        rw [hx] at h
        cases hl : xs.mapM Py.textsOf with
        | none => rw [hl] at h; cases h
        | some us =>
          rw [hl] at h
          cases h
          rw [extractLists, textsOf_extract h1 hx, extractLists_ok h2 hl]
          rfl

theorem testTexts_ok : ∀ {m : Py.Env} {us : List Str}, (m.mapM fun p => Py.strOf p.2) = some us →
    ∃ ts, testTexts (eraseD m) = .ok ts ∧ ∀ k, (mget m k).bind Py.strOf = mget ts k
  | [], us, h => ⟨[], rfl, fun k => rfl⟩
  | (j, v) :: m, us, h => by
    rw [List.mapM_cons] at h
    cases hv : Py.strOf v with
    | none => simp only [hv] at h; cases h
    | some s =>
      simp only [hv] at h
      cases hl : m.mapM fun p => Py.strOf p.2 with
      | none => rw [hl] at h; cases h
      | some us' =>
        obtain ⟨ts, h1, h2⟩ := testTexts_ok hl
        cases v with
        | str t =>
          cases hv
          refine ⟨(j, s) :: ts, ?_, fun k => ?_⟩
          · rw [eraseD, erase, testTexts, h1]
            rfl
          · rw [mget, mget, ← h2 k]
            split <;> rfl
        | _ => cases hv

/-! ## The fields -/

/-- The variables and fields of the program are those that the variables of Python declare. -/
structure Inv (env : Py.Env) (s : Vars × Data) : Prop where
  scope : ScopeOk (.top env) s.1
  text : ∀ f ∈ textFields, Py.CommandIs (mget env f) (s.2.text f) ∧ (f ∉ Py.functions → Py.TextIs (mget env f) (s.2.text f))
  list : ∀ f ∈ listFields, Py.ListIs (mget env f) (s.2.list f)
  bool : ∀ f ∈ boolFields, Py.BoolIs (mget env f) (s.2.bool f)
  variants : Py.VariantsIs (mget env c!"variants") s.2.variants
  tests : Py.TestsIs (mget env c!"tests") s.2.tests
  format : Py.FormatIs (mget env c!"format_version") s.2.formatVersion
  commands : Py.CommandIs (mget env c!"commands") s.2.commands

theorem top_set {env : Py.Env} {vars : Vars} (h : ScopeOk (.top env) vars) (x : Str) (v : Val) :
    ScopeOk (.top (mset env x v)) (mset vars x (erase v)) := by
  refine ⟨fun y u hy ho => ?_, fun y hy hn => ?_⟩
  · have hy : mget (mset env x v) y = some u := by
      unfold Scope.look Scope.top at hy
      simpa using hy
    rw [mget_mset] at hy ⊢
    split at hy
    · rename_i hyx
      cases hy
      rw [if_pos hyx]
    · rename_i hyx
      rw [if_neg hyx]
      exact h.some y u (by unfold Scope.look Scope.top; simpa using hy) ho
  · have hy : mget (mset env x v) y = none := by
      unfold Scope.look Scope.top at hy
      simpa using hy
    rw [mget_mset] at hy ⊢
    split at hy
    · cases hy
    · rename_i hyx
      rw [if_neg hyx]
      exact h.none y (by unfold Scope.look Scope.top; simpa using hy) (by simp [Scope.top])

theorem textIs_of {v : Val} {s : Str} (h : Py.textOf v = some s) : Py.TextIs (some v) (some s) := by
  cases v with
  | str t => exact ⟨rfl, h.symm⟩
  | int i => exact ⟨rfl, h.symm⟩
  | _ => cases h

theorem commandIs_of {v : Val} {s : Str} (h : Py.textOf v = some s) : Py.CommandIs (some v) (some s) := by
  cases v with
  | str t => exact ⟨rfl, h.symm⟩
  | int i => exact ⟨rfl, h.symm⟩
  | _ => cases h

theorem text_set (d : Data) (x f : Str) (t : Option Str) :
    ({ d with texts := mset d.texts x t } : Data).text f = if f = x then t else d.text f := by
  unfold Data.text
  simp only
  rw [mget_mset]
  split <;> rfl

theorem list_set (d : Data) (x f : Str) (t : List Str) :
    ({ d with lists := mset d.lists x t } : Data).list f = if f = x then t else d.list f := by
  unfold Data.list
  simp only
  rw [mget_mset]
  split <;> rfl

theorem bool_set (d : Data) (x f : Str) (t : Option Bool) :
    ({ d with bools := mset d.bools x t } : Data).bool f = if f = x then t else d.bool f := by
  unfold Data.bool
  simp only
  rw [mget_mset]
  split <;> rfl

/-- The kinds of the fields. -/
theorem kind_text {f : Str} (h : f ∈ textFields) : mget Py.fields f = some .text := by
  revert f; decide

theorem kind_list {f : Str} (h : f ∈ listFields) : mget Py.fields f = some .list := by
  revert f; decide

theorem kind_bool {f : Str} (h : f ∈ boolFields) : mget Py.fields f = some .bool := by
  revert f; decide

theorem holds_of {x : Str} {value : Expr} {v : Val} {k : Py.Kind} (h : Py.fair x value v = true)
    (hk : mget Py.fields x = some k) : k.holds v = true := by
  unfold Py.fair at h
  simp only [Bool.and_eq_true] at h
  have := h.1.2
  rw [hk] at this
  exact this

/-- Other fields keep their relation when `x` is set. -/
theorem other_set {env : Py.Env} {x y : Str} {v : Val} (h : y ≠ x) : mget (mset env x v) y = mget env y := by
  rw [mget_mset, if_neg h]

theorem setField_ok {w : World} {env : Py.Env} {s : Vars × Data} (hi : Inv env s) {x : Str} {value : Expr} {v : Val}
    (hv : Py.eval true w (.top env) value = .ok v) (hf : Py.fair x value v = true) :
    ∃ d, setField w (mset s.1 x (erase v)) x value s.2 = .ok d ∧ Inv (mset env x v) (mset s.1 x (erase v), d) := by
  have hsc := top_set hi.scope x v
  have hr : Py.reads x value = false := by
    unfold Py.fair at hf
    simp only [Bool.and_eq_true, Bool.not_eq_true'] at hf
    exact hf.1.1
  have hv' : Py.eval true w (.top (mset env x v)) value = .ok v := by
    rw [← hv]
    refine (cong_eval value ⟨fun y hy _ => ?_, fun h => by cases h⟩).symm
    rw [mget_mset, if_neg (by rintro rfl; rw [hr] at hy; cases hy)]
  have he := follows_ok (follows_eval hsc value) hv'
  unfold setField
  by_cases h1 : x ∈ textFields
  · rw [if_pos h1]
    have hk := holds_of hf (kind_text h1)
    obtain ⟨t, ht⟩ := Option.isSome_iff_exists.mp (show (Py.textOf v).isSome = true from hk)
    rw [textOf_extract he ht]
    refine ⟨_, rfl, hsc, fun f hm => ?_, fun f hm => ?_, fun f hm => ?_, ?_, ?_, ?_, ?_⟩
    · rw [text_set, mget_mset]
      split
      · exact ⟨commandIs_of ht, fun _ => textIs_of ht⟩
      · exact hi.text f hm
    · rw [other_set (by rintro rfl; exact absurd (kind_list hm) (by rw [kind_text h1]; decide))]
      exact hi.list f hm
    · rw [other_set (by rintro rfl; exact absurd (kind_bool hm) (by rw [kind_text h1]; decide))]
      exact hi.bool f hm
    · rw [other_set (by rintro rfl; exact absurd h1 (by decide))]; exact hi.variants
    · rw [other_set (by rintro rfl; exact absurd h1 (by decide))]; exact hi.tests
    · rw [other_set (by rintro rfl; exact absurd h1 (by decide))]; exact hi.format
    · rw [other_set (by rintro rfl; exact absurd h1 (by decide))]; exact hi.commands
  rw [if_neg h1]
  have htext : ∀ f ∈ textFields, Py.CommandIs (mget (mset env x v) f) (s.2.text f) ∧
      (f ∉ Py.functions → Py.TextIs (mget (mset env x v) f) (s.2.text f)) := fun f hm => by
    rw [other_set (by rintro rfl; exact h1 hm)]; exact hi.text f hm
  by_cases h2 : x ∈ listFields
  · rw [if_pos h2]
    have hk := holds_of hf (kind_list h2)
    obtain ⟨t, ht⟩ := Option.isSome_iff_exists.mp (show (Py.textsOf v).isSome = true from hk)
    rw [textsOf_extract he ht]
    refine ⟨_, rfl, hsc, htext, fun f hm => ?_, fun f hm => ?_, ?_, ?_, ?_, ?_⟩
    · rw [list_set, mget_mset]
      split
      · exact ht
      · exact hi.list f hm
    · rw [other_set (by rintro rfl; exact absurd (kind_bool hm) (by rw [kind_list h2]; decide))]
      exact hi.bool f hm
    · rw [other_set (by rintro rfl; exact absurd h2 (by decide))]; exact hi.variants
    · rw [other_set (by rintro rfl; exact absurd h2 (by decide))]; exact hi.tests
    · rw [other_set (by rintro rfl; exact absurd h2 (by decide))]; exact hi.format
    · rw [other_set (by rintro rfl; exact absurd h2 (by decide))]; exact hi.commands
  rw [if_neg h2]
  have hlist : ∀ f ∈ listFields, Py.ListIs (mget (mset env x v) f) (s.2.list f) := fun f hm => by
    rw [other_set (by rintro rfl; exact h2 hm)]; exact hi.list f hm
  by_cases h3 : x ∈ boolFields
  · rw [if_pos h3]
    have hk := holds_of hf (kind_bool h3)
    obtain ⟨t, ht, hb⟩ : ∃ t, extractBool w (mset s.1 x (erase v)) value = .ok t ∧ Py.BoolIs (some v) t := by
      unfold extractBool
      rw [he]
      cases v with
      | bool b => exact ⟨some b, rfl, rfl⟩
      | none => exact ⟨none, rfl, rfl⟩
      | _ => cases hk
    rw [ht]
    refine ⟨_, rfl, hsc, htext, hlist, fun f hm => ?_, ?_, ?_, ?_, ?_⟩
    · rw [bool_set, mget_mset]
      split
      · exact hb
      · exact hi.bool f hm
    · rw [other_set (by rintro rfl; exact absurd h3 (by decide))]; exact hi.variants
    · rw [other_set (by rintro rfl; exact absurd h3 (by decide))]; exact hi.tests
    · rw [other_set (by rintro rfl; exact absurd h3 (by decide))]; exact hi.format
    · rw [other_set (by rintro rfl; exact absurd h3 (by decide))]; exact hi.commands
  rw [if_neg h3]
  have hbool : ∀ f ∈ boolFields, Py.BoolIs (mget (mset env x v) f) (s.2.bool f) := fun f hm => by
    rw [other_set (by rintro rfl; exact h3 hm)]; exact hi.bool f hm
  by_cases h4 : x = c!"variants"
  · subst h4
    rw [if_pos (beq_self_eq_true _)]
    have hk := holds_of hf (k := .variants) (by decide)
    have hlit : ∃ es, value = .list es := by
      unfold Py.fair at hf
      simp only [Bool.and_eq_true] at hf
      have := hf.2
      cases value with
      | list es => exact ⟨es, rfl⟩
      | _ => simp at this
    obtain ⟨es, rfl⟩ := hlit
    cases v with
    | list l =>
      obtain ⟨t, ht⟩ := Option.isSome_iff_exists.mp (show (l.mapM Py.textsOf).isSome = true from hk)
      have hel : PackagePy.evalList w (mset s.1 c!"variants" (erase (.list l))) es = .ok (eraseL l) := by
        rw [PackagePy.eval] at he
        revert he
        cases PackagePy.evalList w (mset s.1 c!"variants" (erase (.list l))) es with
        | ok a =>
          intro he
          have : Value.list a = Value.list (eraseL l) := Outcome.ok.inj he
          cases this
          rfl
        | err => intro he; cases he
        | panic => intro he; cases he
      have : extractVariants w (mset s.1 c!"variants" (erase (.list l))) (.list es) = .ok t := by
        unfold extractVariants
        exact extractLists_ok hel ht
      rw [this]
      refine ⟨_, rfl, hsc, htext, hlist, hbool, ?_, ?_, ?_, ?_⟩
      · rw [mget_mset, if_pos rfl]
        exact ht
      · rw [other_set (by decide)]; exact hi.tests
      · rw [other_set (by decide)]; exact hi.format
      · rw [other_set (by decide)]; exact hi.commands
    | _ => cases hk
  rw [if_neg (by simpa using h4)]
  by_cases h5 : x = c!"tests"
  · subst h5
    rw [if_pos (beq_self_eq_true _)]
    have hk := holds_of hf (k := .tests) (by decide)
    cases v with
    | dict m =>
      obtain ⟨us, hus⟩ := Option.isSome_iff_exists.mp (show (m.mapM fun p => Py.strOf p.2).isSome = true from hk)
      obtain ⟨ts, h6, h7⟩ := testTexts_ok hus
      have : extractTests w (mset s.1 c!"tests" (erase (.dict m))) value = .ok ts := by
        unfold extractTests
        rw [he]
        exact h6
      rw [this]
      refine ⟨_, rfl, hsc, htext, hlist, hbool, ?_, ?_, ?_, ?_⟩
      · rw [other_set (by decide)]; exact hi.variants
      · rw [mget_mset, if_pos rfl]
        exact h7
      · rw [other_set (by decide)]; exact hi.format
      · rw [other_set (by decide)]; exact hi.commands
    | _ => cases hk
  rw [if_neg (by simpa using h5)]
  by_cases h6 : x = c!"format_version"
  · subst h6
    rw [if_pos (beq_self_eq_true _)]
    have hk := holds_of hf (k := .formatVersion) (by decide)
    cases v with
    | int i =>
      have hi' : i.bmod (2 ^ 32) = i := by
        have hk : Py.tiny i = true := hk
        unfold Py.tiny at hk
        simp only [Bool.and_eq_true, decide_eq_true_eq] at hk
        rw [Int.bmod_def]
        omega
      have : extractInt w (mset s.1 c!"format_version" (erase (.int i))) value = .ok i := by
        unfold extractInt
        rw [he]
        show Outcome.ok (i.bmod (2 ^ 32)) = _
        rw [hi']
      rw [this]
      refine ⟨_, rfl, hsc, htext, hlist, hbool, ?_, ?_, ?_, ?_⟩
      · rw [other_set (by decide)]; exact hi.variants
      · rw [other_set (by decide)]; exact hi.tests
      · rw [mget_mset, if_pos rfl]
        exact rfl
      · rw [other_set (by decide)]; exact hi.commands
    | _ => cases hk
  rw [if_neg (by simpa using h6)]
  by_cases h7 : x = c!"commands"
  · subst h7
    rw [if_pos (beq_self_eq_true _)]
    have hk := holds_of hf (k := .text) (by decide)
    obtain ⟨t, ht⟩ := Option.isSome_iff_exists.mp (show (Py.textOf v).isSome = true from hk)
    rw [textOf_extract he ht]
    refine ⟨_, rfl, hsc, htext, hlist, hbool, ?_, ?_, ?_, ?_⟩
    · rw [other_set (by decide)]; exact hi.variants
    · rw [other_set (by decide)]; exact hi.tests
    · rw [other_set (by decide)]; exact hi.format
    · rw [mget_mset, if_pos rfl]
      exact commandIs_of ht
  rw [if_neg (by simpa using h7)]
  refine ⟨_, rfl, hsc, htext, hlist, hbool, ?_, ?_, ?_, ?_⟩
  · rw [other_set (Ne.symm h4)]; exact hi.variants
  · rw [other_set (Ne.symm h5)]; exact hi.tests
  · rw [other_set (Ne.symm h6)]; exact hi.format
  · rw [other_set (Ne.symm h7)]; exact hi.commands

/-! ## Statements -/

/-- The statements of the program follow Python. -/
def Keep (r : Res Py.Env) (o : Outcome (Vars × Data)) : Prop :=
  match r with
  | .ok env => ∃ s, o = .ok s ∧ Inv env s
  | .raises => ∀ s, o ≠ .ok s
  | .beyond => True

theorem follows_raises {α β : Type} {r : Res α} {o : Outcome β} {f : α → β} (h : Follows r o f) (hr : r = .raises) :
    ∀ b, o ≠ .ok b := by
  subst hr
  exact h

theorem bind_not_ok {α β : Type} {o : Outcome α} {k : α → Outcome β} (h : ∀ a, o ≠ .ok a) (b : β) :
    PackagePy.bind o k ≠ .ok b := by
  cases o with
  | ok a => exact absurd rfl (h a)
  | err => exact fun h => by cases h
  | panic => exact fun h => by cases h

/-- A function is defined. -/
theorem inv_func {env : Py.Env} {s : Vars × Data} (hi : Inv env s) {n : Str} {body : List Stmt}
    {d : Data} (hn : n ∈ Py.functions)
    (ht : ∀ f, f ≠ n → d.text f = s.2.text f) (hl : d.lists = s.2.lists) (hb : d.bools = s.2.bools)
    (hv : d.variants = s.2.variants) (hte : d.tests = s.2.tests) (hf : d.formatVersion = s.2.formatVersion)
    (hc : c!"commands" ≠ n → d.commands = s.2.commands) : Inv (mset env n (.func body)) (s.1, d) := by
  have hne : ∀ y, y ∉ Py.functions → y ≠ n := fun y hy e => hy (e ▸ hn)
  refine ⟨⟨fun y u hy ho => ?_, fun y hy hn => ?_⟩, fun f hf => ?_, fun f hf => ?_, fun f hf => ?_, ?_, ?_, ?_, ?_⟩
  · have hy : mget (mset env n (.func body)) y = some u := by
      unfold Scope.look Scope.top at hy
      simpa using hy
    rw [mget_mset] at hy
    split at hy
    · cases hy
      cases ho
    · exact hi.scope.some y u (by unfold Scope.look Scope.top; simpa using hy) ho
  · have hy : mget (mset env n (.func body)) y = none := by
      unfold Scope.look Scope.top at hy
      simpa using hy
    rw [mget_mset] at hy
    split at hy
    · cases hy
    · exact hi.scope.none y (by unfold Scope.look Scope.top; simpa using hy) (by simp [Scope.top])
  · by_cases hfn : f = n
    · rw [hfn, mget_mset, if_pos rfl]
      exact ⟨trivial, fun h => absurd hn h⟩
    · rw [other_set hfn]
      show Py.CommandIs _ (d.text f) ∧ (_ → Py.TextIs _ (d.text f))
      rw [ht f hfn]
      exact hi.text f hf
  · rw [other_set (hne f (by revert f; decide))]
    show Py.ListIs _ (d.list f)
    unfold Data.list
    rw [hl]
    exact hi.list f hf
  · rw [other_set (hne f (by revert f; decide))]
    show Py.BoolIs _ (d.bool f)
    unfold Data.bool
    rw [hb]
    exact hi.bool f hf
  · rw [other_set (hne _ (by decide)), hv]; exact hi.variants
  · rw [other_set (hne _ (by decide)), hte]; exact hi.tests
  · rw [other_set (hne _ (by decide)), hf]; exact hi.format
  · by_cases hcn : c!"commands" = n
    · rw [← hcn, mget_mset, if_pos rfl]
      exact trivial
    · rw [other_set hcn, hc hcn]; exact hi.commands

/-- The text of a function in the fields. -/
def Data.function (d : Data) (n : Str) : Option Str := if n = c!"commands" then d.commands else d.text n

theorem definition_ok {w : World} {env : Py.Env} {s : Vars × Data} (hi : Inv env s) {n : Str} {body : List Stmt}
    (hn : n ∈ Py.functions) {acts : List Action} (ha : Py.actions true w env body = .ok acts) :
    ∃ d, definition w n body s = .ok (s.1, d) ∧ Inv (mset env n (.func body)) (s.1, d) ∧ Said (Data.function d n) acts := by
  obtain ⟨t, ht, hsaid⟩ := body_ok hi.scope ha
  unfold definition
  by_cases hc : n = c!"commands"
  · subst hc
    rw [if_pos (beq_self_eq_true _), ht]
    exact ⟨_, rfl, inv_func hi hn (fun _ _ => rfl) rfl rfl rfl rfl rfl (fun h => absurd rfl h), hsaid⟩
  · have hm : n ∈ [c!"pre_commands", c!"post_commands", c!"pre_test_commands"] := by
      unfold Py.functions at hn
      rcases List.mem_cons.mp hn with h | h
      · exact absurd h hc
      · exact h
    rw [if_neg (by simpa using hc), if_pos hm, ht]
    refine ⟨_, rfl, inv_func hi hn (fun f hf => ?_) rfl rfl rfl rfl rfl (fun _ => rfl), ?_⟩
    · rw [text_set, if_neg hf]
    · unfold Data.function
      rw [if_neg hc, text_set, if_pos rfl]
      exact hsaid

theorem inv_imports {env : Py.Env} {s : Vars × Data} (hi : Inv env s) {names : List (Str × Str)}
    (hn : names.any (fun p => (mget Py.fields p.1).isSome) = false) :
    Inv (names.foldl (fun m p => mset m p.1 (.module p.2)) env) s := by
  have hk : ∀ f k, mget Py.fields f = some k → mget (names.foldl (fun m p => mset m p.1 (.module p.2)) env) f = mget env f := by
    intro f k hf
    refine (imported names env f).2.2 fun hm => ?_
    obtain ⟨p, hp, rfl⟩ := List.mem_map.mp hm
    rw [List.any_eq_false] at hn
    exact hn p hp (by rw [hf]; rfl)
  refine ⟨⟨fun y u hy ho => ?_, fun y hy hn => ?_⟩, fun f hf => ?_, fun f hf => ?_, fun f hf => ?_, ?_, ?_, ?_, ?_⟩
  · have hy := (imported names env y).1 u (by unfold Scope.look Scope.top at hy; simpa using hy) ho
    exact hi.scope.some y u (by unfold Scope.look Scope.top; simpa using hy) ho
  · have hy := (imported names env y).2.1 (by unfold Scope.look Scope.top at hy; simpa using hy)
    exact hi.scope.none y (by unfold Scope.look Scope.top; simpa using hy) (by simp [Scope.top])
  · rw [hk f _ (kind_text hf)]; exact hi.text f hf
  · rw [hk f _ (kind_list hf)]; exact hi.list f hf
  · rw [hk f _ (kind_bool hf)]; exact hi.bool f hf
  · rw [hk _ .variants (by decide)]; exact hi.variants
  · rw [hk _ .tests (by decide)]; exact hi.tests
  · rw [hk _ .formatVersion (by decide)]; exact hi.format
  · rw [hk _ .text (by decide)]; exact hi.commands

mutual

theorem keep_exec {w : World} : (st : Stmt) → (env : Py.Env) → (s : Vars × Data) → Inv env s →
    Keep (Py.exec true w env st) (process w s st)
  | .assign targets value, env, s, hi => by
    unfold Py.exec process
    split
    · rename_i x
      simp only
      unfold assignment
      cases hv : Py.eval true w (.top env) value with
      | beyond => trivial
      | raises => exact bind_not_ok (follows_raises (follows_eval hi.scope value) hv)
      | ok v =>
        rw [follows_ok (follows_eval hi.scope value) hv]
        show Keep (if Py.fair x value v = true then _ else _) _
        split
        · rename_i hf
          obtain ⟨d, hd, hinv⟩ := setField_ok hi hv hf
          exact ⟨_, by simp only [PackagePy.bind]; rw [hd]; rfl, hinv⟩
        · trivial
    · trivial
  | .function n body, env, s, hi => by
    unfold Py.exec process
    simp only [if_true]
    split
    · rename_i hn
      cases ha : Py.actions true w env body with
      | ok acts =>
        obtain ⟨d, h1, h2, _⟩ := definition_ok hi hn ha
        exact ⟨_, h1, h2⟩
      | raises => trivial
      | beyond => trivial
    · trivial
  | .imports names, env, s, hi => by
    unfold Py.exec process
    split
    · trivial
    · rename_i hn
      exact ⟨s, rfl, inv_imports hi (by simpa using hn)⟩
  | .ifStmt t b e, env, s, hi => by
    unfold Py.exec process
    cases hv : Py.eval true w (.top env) t with
    | beyond => trivial
    | raises => exact bind_not_ok (follows_raises (follows_eval hi.scope t) hv)
    | ok v =>
      rw [follows_ok (follows_eval hi.scope t) hv]
      rcases truth_true (v := v) with ⟨c, rfl, hc⟩ | hc
      · simp only [Res.bind, hc]
        cases c with
        | true => exact keep_execAll b env s hi
        | false => exact keep_execAll e env s hi
      · simp only [Res.bind, hc]
        trivial
  | .expr e, env, s, hi => by
    unfold Py.exec process
    cases hv : Py.eval true w (.top env) e with
    | beyond => trivial
    | raises => exact bind_not_ok (follows_raises (follows_eval hi.scope e) hv)
    | ok v =>
      rw [follows_ok (follows_eval hi.scope e) hv]
      exact ⟨s, rfl, hi⟩
  | .pass, env, s, hi => by
    unfold Py.exec process
    exact ⟨s, rfl, hi⟩
  | .other, env, s, hi => by
    unfold Py.exec
    trivial

theorem keep_execAll {w : World} : (ss : List Stmt) → (env : Py.Env) → (s : Vars × Data) → Inv env s →
    Keep (Py.execAll true w env ss) (processAll w s ss)
  | [], env, s, hi => by
    unfold Py.execAll processAll
    exact ⟨s, rfl, hi⟩
  | st :: rest, env, s, hi => by
    unfold Py.execAll processAll
    have h := keep_exec (w := w) st env s hi
    cases he : Py.exec true w env st with
    | beyond => trivial
    | raises =>
      rw [he] at h
      exact bind_not_ok h
    | ok env' =>
      rw [he] at h
      obtain ⟨s', hs, hi'⟩ := h
      rw [hs]
      exact keep_execAll rest env' s' hi'

end

theorem inv_start : Inv [] ([], {}) :=
  ⟨⟨fun x v h _ => by simp [Scope.look, Scope.top, mget] at h, fun _ _ _ => rfl⟩, fun _ _ => ⟨rfl, fun _ => rfl⟩, fun _ _ => rfl, fun _ _ => rfl, rfl, rfl, rfl, rfl⟩

theorem res_bind_assoc {α β γ : Type} (r : Res α) (f : α → Res β) (g : β → Res γ) :
    (r.bind f).bind g = r.bind fun a => (f a).bind g := by
  cases r <;> rfl

theorem execAll_append {plain : Bool} {w : World} (a b : List Stmt) : ∀ env,
    Py.execAll plain w env (a ++ b) = (Py.execAll plain w env a).bind fun e => Py.execAll plain w e b := by
  induction a with
  | nil => intro env; rw [Py.execAll]; rfl
  | cons s a ih =>
    intro env
    rw [List.cons_append, Py.execAll, Py.execAll, res_bind_assoc]
    congr 1
    funext e
    exact ih e

theorem processAll_append {w : World} (a b : List Stmt) : ∀ s,
    processAll w s (a ++ b) = PackagePy.bind (processAll w s a) fun s => processAll w s b := by
  induction a with
  | nil => intro s; rw [processAll]; rfl
  | cons st a ih =>
    intro s
    rw [List.cons_append, processAll, processAll]
    cases process w s st with
    | ok s' => exact ih s'
    | err => rfl
    | panic => rfl

/-! ## Functions that stay -/

theorem map_eq_ok {α β : Type} {o : Outcome α} {f : α → β} {b : β} (h : PackagePy.map f o = .ok b) :
    ∃ a, o = .ok a ∧ f a = b := by
  cases o with
  | ok a => exact ⟨a, rfl, by cases h; rfl⟩
  | err => cases h
  | panic => cases h

theorem bind_eq_ok {α β : Type} {o : Outcome α} {f : α → Outcome β} {b : β} (h : PackagePy.bind o f = .ok b) :
    ∃ a, o = .ok a ∧ f a = .ok b := by
  cases o with
  | ok a => exact ⟨a, rfl, h⟩
  | err => cases h
  | panic => cases h

theorem function_set {d : Data} {x n : Str} (t : Option Str) (h : n ≠ x) :
    Data.function { d with texts := mset d.texts x t } n = Data.function d n := by
  unfold Data.function
  rw [text_set, if_neg h]

theorem setField_stays {w : World} {vars : Vars} {x n : Str} {value : Expr} {d d' : Data} (hn : n ≠ x)
    (h : setField w vars x value d = .ok d') : Data.function d' n = Data.function d n := by
  unfold setField at h
  split at h
  · obtain ⟨t, _, rfl⟩ := map_eq_ok h
    exact function_set _ hn
  split at h
  · obtain ⟨t, _, rfl⟩ := map_eq_ok h
    rfl
  split at h
  · obtain ⟨t, _, rfl⟩ := map_eq_ok h
    rfl
  split at h
  · obtain ⟨t, _, rfl⟩ := map_eq_ok h
    rfl
  split at h
  · obtain ⟨t, _, rfl⟩ := map_eq_ok h
    rfl
  split at h
  · obtain ⟨t, _, rfl⟩ := map_eq_ok h
    rfl
  split at h
  · rename_i hx
    have hx : x = c!"commands" := by simpa using hx
    split at h
    · cases h
    · cases h
      unfold Data.function
      rw [if_neg (hx ▸ hn), if_neg (hx ▸ hn)]
      rfl
    · cases h
      rfl
  · cases h
    rfl

mutual

theorem stays {w : World} {n : Str} : (st : Stmt) → n ∉ Py.assigned st → (s s' : Vars × Data) →
    process w s st = .ok s' → Data.function s'.2 n = Data.function s.2 n
  | .assign targets value, hn, s, s', h => by
    unfold process at h
    split at h
    · rename_i x ts
      unfold assignment at h
      obtain ⟨v, _, h⟩ := bind_eq_ok h
      obtain ⟨d, hd, rfl⟩ := map_eq_ok h
      refine setField_stays (fun e => hn ?_) hd
      unfold Py.assigned
      simp [Py.target, e]
    · cases h
      rfl
  | .function m body, hn, s, s', h => by
    unfold process definition at h
    unfold Py.assigned at hn
    have hn : n ≠ m := by simpa using hn
    split at h
    · rename_i hm
      have hm : m = c!"commands" := by simpa using hm
      obtain ⟨t, _, rfl⟩ := map_eq_ok h
      unfold Data.function
      rw [if_neg (hm ▸ hn), if_neg (hm ▸ hn)]
      rfl
    · split at h
      · obtain ⟨t, _, rfl⟩ := map_eq_ok h
        exact function_set _ hn
      · cases h
  | .imports names, hn, s, s', h => by
    unfold process at h
    cases h
    rfl
  | .ifStmt t b e, hn, s, s', h => by
    unfold process at h
    unfold Py.assigned at hn
    rw [List.mem_append, not_or] at hn
    obtain ⟨v, _, h⟩ := bind_eq_ok h
    split at h
    · exact staysAll b hn.1 s s' h
    · exact staysAll e hn.2 s s' h
    · cases h
  | .expr e, hn, s, s', h => by
    unfold process at h
    obtain ⟨v, _, rfl⟩ := map_eq_ok h
    rfl
  | .pass, hn, s, s', h => by
    unfold process at h
    cases h
    rfl
  | .other, hn, s, s', h => by
    unfold process at h
    cases h

theorem staysAll {w : World} {n : Str} : (ss : List Stmt) → n ∉ Py.assignedIn ss → (s s' : Vars × Data) →
    processAll w s ss = .ok s' → Data.function s'.2 n = Data.function s.2 n
  | [], hn, s, s', h => by
    unfold processAll at h
    cases h
    rfl
  | st :: ss, hn, s, s', h => by
    unfold processAll at h
    unfold Py.assignedIn at hn
    rw [List.mem_append, not_or] at hn
    obtain ⟨s1, h1, h2⟩ := bind_eq_ok h
    rw [staysAll ss hn.2 s1 s' h2, stays st hn.1 s s1 h1]

end

end Rez.PyLemmas
