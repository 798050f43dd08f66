import Verif.Spec.SuitesCommand
import Verif.Props.Suite
import Verif.Lemmas.VersionExtra
import Verif.Lemmas.Text
import Mathlib.Logic.Equiv.List
import Mathlib.Data.Countable.Basic
/-!
# C229: `rez suites`
-/
namespace Rez.Props
open Rez Rez.Suite Rez.SuitesCommand Rez.Spec.Suite Rez.Spec.SuitesCommand

namespace SuitesCommandLemmas

/-- A context without its prefix. -/
def bareCtx (c : Ctx) : Ctx := { c with pfx := none }

/-- A suite without prefixes and path. -/
def bareSuite (s : Suite) : Suite := { s with contexts := s.contexts.map bareCtx, path := none }

theorem find_bare (l : List Ctx) (n : Str) :
    (l.map bareCtx).find? (fun c => c.name == n) = (l.find? fun c => c.name == n).map bareCtx := by
  induction l with
  | nil => rfl
  | cons c l ih =>
    rw [List.map_cons, List.find?_cons, List.find?_cons]
    by_cases h : c.name = n
    · simp [bareCtx, h]
    · have : (bareCtx c).name = c.name := rfl
      rw [this, beq_eq_false_iff_ne.mpr h]
      exact ih

theorem edit_bare (l : List Ctx) (n : Str) (f g : Ctx → Ctx) (hfg : ∀ c, bareCtx (f c) = g (bareCtx c)) :
    (editFirst n f l).map bareCtx = editFirst n g (l.map bareCtx) := by
  induction l with
  | nil => rfl
  | cons c l ih =>
    rw [List.map_cons, editFirst, editFirst]
    have : (bareCtx c).name = c.name := rfl
    rw [this]
    split
    · rw [List.map_cons, hfg]
    · rw [List.map_cons, ih]

theorem erase_bare (l : List Ctx) (n : Str) :
    (l.eraseP fun c => c.name == n).map bareCtx = (l.map bareCtx).eraseP fun c => c.name == n := by
  induction l with
  | nil => rfl
  | cons c l ih =>
    have : (bareCtx c).name = c.name := rfl
    rw [List.map_cons, List.eraseP_cons, List.eraseP_cons, this]
    cases h : c.name == n
    · simp [ih]
    · rfl

theorem edit_self (l : List Ctx) (n : Str) (f : Ctx → Ctx) (h : ∀ c, bareCtx (f c) = bareCtx c) :
    (editFirst n f l).map bareCtx = l.map bareCtx := by
  induction l with
  | nil => rfl
  | cons c l ih =>
    rw [editFirst]
    split
    · rw [List.map_cons, h, List.map_cons]
    · rw [List.map_cons, ih, List.map_cons]

/-- A change, seen without prefixes, is the call of the library. -/
theorem apply_call (alnum : Char → Bool) (s : Suite) (c : Change) :
    (match apply alnum s c with | .ok s' => Except.ok (bareSuite s') | .error e => .error e) =
      call alnum (bareSuite s) (op c) := by
  have hany : ∀ n, (s.contexts.any fun c => c.name == n) = ((s.contexts.map bareCtx).any fun c => c.name == n) := by
    intro n
    rw [List.any_map]
    rfl
  have hget : ∀ n, ((bareSuite s).get n).isSome = (s.get n).isSome := by
    intro n
    show ((s.contexts.map bareCtx).find? fun c => c.name == n).isSome = _
    rw [find_bare]
    cases h : s.contexts.find? fun c => c.name == n <;> simp [Suite.get, h]
  cases c with
  | add n r p _ =>
    simp only [apply, op, call, Suite.add]
    by_cases hv : validName alnum n = true
    · simp only [hv, Bool.not_true, Bool.false_eq_true, if_false]
      rw [show (bareSuite s).contexts = s.contexts.map bareCtx from rfl, ← hany n]
      cases ha : s.contexts.any fun c => c.name == n
      · simp only [Bool.false_eq_true, if_false]
        cases p with
        | none => simp [bareSuite, bareCtx, Ctx.new]
        | some p =>
          simp only [bareSuite, Suite.edit]
          rw [edit_self _ _ (fun c => { c with pfx := some p }) fun c => rfl]
          simp [bareCtx, Ctx.new]
      · simp
    · have hv : validName alnum n = false := by simpa using hv
      simp [hv]
  | remove n =>
    simp only [apply, op, call, Suite.remove]
    rw [show (bareSuite s).contexts = s.contexts.map bareCtx from rfl, ← hany n]
    cases ha : s.contexts.any fun c => c.name == n
    · simp
    · simp only [if_true]
      unfold bareSuite
      simp only
      rw [erase_bare]
  | setAlias c n t =>
    simp only [apply, op, call, Suite.alias]
    rw [hget]
    cases (s.get c).isSome
    · simp
    · simp only [if_true]
      unfold bareSuite Suite.edit
      simp only
      rw [edit_bare _ _ _ (fun c => c.alias n t) fun c => rfl]
  | hide c t =>
    simp only [apply, op, call, Suite.hide]
    rw [hget]
    cases (s.get c).isSome
    · simp
    · simp only [if_true]
      unfold bareSuite Suite.edit
      simp only
      rw [edit_bare _ _ _ (fun c => c.hide t) fun c => by unfold Ctx.hide bareCtx; simp only; split <;> rfl]

theorem apply_keeps (alnum : Char → Bool) (s s' : Suite) (c : Change) (h : apply alnum s c = .ok s') :
    s'.path = s.path ∧ s'.description = s.description ∧ s'.mode = s.mode ∧ s'.status = s.status := by
  cases c with
  | add n r p _ =>
    simp only [apply, Suite.add] at h
    split at h
    · cases h
    · rename_i heq
      split at heq
      · cases heq
      · split at heq
        · cases heq
        · cases heq
          cases p <;> cases h <;> exact ⟨rfl, rfl, rfl, rfl⟩
  | remove n =>
    simp only [apply, Suite.remove] at h
    split at h
    · cases h; exact ⟨rfl, rfl, rfl, rfl⟩
    · cases h
  | setAlias c n t =>
    simp only [apply, Suite.alias] at h
    split at h
    · cases h; exact ⟨rfl, rfl, rfl, rfl⟩
    · cases h
  | hide c t =>
    simp only [apply, Suite.hide] at h
    split at h
    · cases h; exact ⟨rfl, rfl, rfl, rfl⟩
    · cases h

/-- The library does not look at description, mode and status. -/
theorem call_contexts (alnum : Char → Bool) (s t : Suite) (h : s.contexts = t.contexts) (o : Op) :
    (match call alnum s o with | .ok s' => Except.ok s'.contexts | .error e => .error e) =
      (match call alnum t o with | .ok s' => Except.ok s'.contexts | .error e => .error e) := by
  have hg : ∀ n, s.get n = t.get n := fun n => by unfold Suite.get; rw [h]
  cases o with
  | add n r => simp only [call, Suite.add, h]; split_ifs <;> rfl
  | remove n => simp only [call, Suite.remove, h]; split_ifs <;> rfl
  | setAlias c n u => cases hx : (t.get c).isSome <;> simp [call, Suite.alias, hg, hx, Suite.edit, h]
  | hide c u => cases hx : (t.get c).isSome <;> simp [call, Suite.hide, hg, hx, Suite.edit, h]

theorem load_change {alnum : Char → Bool} {y : Yaml} (hy : Faithful y) {fs : Fs} {path : Str} {s : Suite}
    (hl : load y fs path = .ok s) (c : Change) :
    (∀ e, apply alnum s c = .error e → change alnum y fs path c = .error e) ∧
    ∀ s', apply alnum s c = .ok s' → ∃ fs', change alnum y fs path c = .ok fs' ∧ load y fs' path = .ok s' ∧
      isSuite fs' path = true ∧ ∀ p, p ≠ path → mget fs' p = mget fs p := by
  have hp : s.path = some path ∧ s.status = .okay := by
    unfold load at hl
    split at hl
    · cases hl
    · split at hl
      · cases hl
      · cases hl
        exact ⟨rfl, rfl⟩
  refine ⟨fun e h => by unfold change; rw [hl]; simp only [h], fun s' h => ?_⟩
  obtain ⟨k1, -, -, k4⟩ := apply_keeps alnum s s' c h
  have hpath : s'.path.getD [] = path := by rw [k1, hp.1]; rfl
  refine ⟨(s'.save y path fs).2, by unfold change; rw [hl]; simp only [h, hpath], ?_⟩
  obtain ⟨r1, r2, r3⟩ := C107_roundtrip y s' (hy _) path fs
  refine ⟨?_, r2, r3⟩
  rw [r1]
  congr 1
  obtain ⟨a, b, m, p, st⟩ := s'
  simp only at k1 k4
  rw [hp.1] at k1
  rw [hp.2] at k4
  subst k1 k4
  rfl

/-- The suite on disk after a session, and the library's suite after the same calls. -/
theorem session_inv {alnum : Char → Bool} {y : Yaml} (hy : Faithful y) {path : Str} {fs fs0 : Fs} {d : Option Str} {mode : Str}
    (hc : create y fs path d mode = some fs0) (cs : List Change) :
    ∃ s, load y (session alnum y path fs0 cs) path = .ok s ∧ s.description = d ∧ some s.mode = Mode.parse mode ∧
      s.contexts.map bareCtx = (history alnum (cs.map op)).contexts ∧
      isSuite (session alnum y path fs0 cs) path = true ∧
      ∀ p, p ≠ path → mget (session alnum y path fs0 cs) p = mget fs p := by
  induction cs using List.reverseRecOn with
  | nil =>
    unfold create at hc
    split at hc
    · cases hc
    · rename_i m hm
      have hs : ∃ s : Suite, s.description = d ∧ s.mode = m ∧ s.contexts = [] ∧ s.status = .okay ∧ fs0 = (s.save y path fs).2 := by
        cases d with
        | none => cases hc; exact ⟨{ Suite.new with mode := m }, rfl, rfl, rfl, rfl, rfl⟩
        | some d => cases hc; exact ⟨{ Suite.new with mode := m, description := some d }, rfl, rfl, rfl, rfl, rfl⟩
      obtain ⟨s, h1, h2, h3, h4, rfl⟩ := hs
      obtain ⟨r1, r2, r3⟩ := C107_roundtrip y s (hy _) path fs
      refine ⟨_, r1, h1, by rw [hm]; exact congrArg some h2, ?_, r2, r3⟩
      show s.contexts.map bareCtx = []
      rw [h3]
      rfl
  | append_singleton cs c ih =>
    obtain ⟨s, h1, h2, h3, h4, h5, h6⟩ := ih
    have hsess : session alnum y path fs0 (cs ++ [c]) =
        kept (session alnum y path fs0 cs) (change alnum y (session alnum y path fs0 cs) path c) := by
      unfold session
      rw [List.foldl_append]
      rfl
    have hhist : history alnum ((cs ++ [c]).map op) =
        after (history alnum (cs.map op)) (call alnum (history alnum (cs.map op)) (op c)) := by
      unfold history
      rw [List.map_append, List.foldl_append]
      rfl
    obtain ⟨e1, e2⟩ := load_change (alnum := alnum) hy h1 c
    have hcall := apply_call alnum s c
    have hcc := call_contexts alnum (bareSuite s) (history alnum (cs.map op)) h4 (op c)
    rw [hsess, hhist]
    cases ha : apply alnum s c with
    | error e =>
      rw [ha] at hcall
      rw [← hcall] at hcc
      rw [e1 e ha]
      refine ⟨s, h1, h2, h3, ?_, h5, h6⟩
      cases hx : call alnum (history alnum (cs.map op)) (op c) with
      | error e' => exact h4
      | ok s' => rw [hx] at hcc; cases hcc
    | ok s' =>
      rw [ha] at hcall
      rw [← hcall] at hcc
      obtain ⟨fs', f1, f2, f3, f4⟩ := e2 s' ha
      obtain ⟨k1, k2, k3, k4⟩ := apply_keeps alnum s s' c ha
      rw [f1]
      refine ⟨s', f2, k2.trans h2, by rw [k3]; exact h3, ?_, f3, fun p hp => (f4 p hp).trans (h6 p hp)⟩
      cases hx : call alnum (history alnum (cs.map op)) (op c) with
      | error e' => rw [hx] at hcc; cases hcc
      | ok t =>
        rw [hx] at hcc
        exact Except.ok.inj hcc

theorem get_bare (s : Suite) (n : Str) : (s.get n).map view = ((s.contexts.map bareCtx).find? fun c => c.name == n).map view := by
  rw [find_bare, Option.map_map]
  rfl

end SuitesCommandLemmas

open SuitesCommandLemmas

/-- C229: commands run one after the other on a suite that was created, each in its own process, leave on disk exactly the
contexts that the same calls give: what was put into the context of a name since it was added, and nothing else.  Description
and conflict mode stay those of the creation, names are valid and unique, no other directory changes, and the directory is a
suite all the time. -/
theorem C229_session (alnum : Char → Bool) (y : Yaml) (hy : Faithful y) (path : Str) (fs fs0 : Fs) (d : Option Str) (mode : Str)
    (hc : create y fs path d mode = some fs0) (cs : List Change) :
    ∃ s, load y (session alnum y path fs0 cs) path = .ok s ∧ s.description = d ∧ some s.mode = Mode.parse mode ∧
      (∀ name, (s.get name).map view = contents alnum (cs.map op).reverse name) ∧
      s.names.Nodup ∧ (∀ n ∈ s.names, Valid alnum n) ∧ s.names = (history alnum (cs.map op)).names ∧
      isSuite (session alnum y path fs0 cs) path = true ∧
      ∀ p, p ≠ path → mget (session alnum y path fs0 cs) p = mget fs p := by
  obtain ⟨s, h1, h2, h3, h4, h5, h6⟩ := session_inv (alnum := alnum) hy hc cs
  have hnames : s.names = (history alnum (cs.map op)).names := by
    unfold Suite.names
    rw [← h4, List.map_map]
    rfl
  have hu := C63_unique_partial alnum (cs.map op)
  refine ⟨s, h1, h2, h3, fun name => ?_, by rw [hnames]; exact hu.1, by rw [hnames]; exact hu.2, hnames, h5, h6⟩
  rw [get_bare, h4, ← C63_lookup]
  rfl

/-- C229: a command fails exactly when the call of the library fails after the calls before, with the same error; then
nothing changes. -/
theorem C229_fails (alnum : Char → Bool) (y : Yaml) (hy : Faithful y) (path : Str) (fs fs0 : Fs) (d : Option Str) (mode : Str)
    (hc : create y fs path d mode = some fs0) (cs : List Change) (c : Change) :
    (∀ e, change alnum y (session alnum y path fs0 cs) path c = .error e ↔
      call alnum (history alnum (cs.map op)) (op c) = .error e) ∧
    ∀ e, change alnum y (session alnum y path fs0 cs) path c = .error e →
      session alnum y path fs0 (cs ++ [c]) = session alnum y path fs0 cs := by
  obtain ⟨s, h1, h2, h3, h4, h5, h6⟩ := session_inv (alnum := alnum) hy hc cs
  obtain ⟨e1, e2⟩ := load_change (alnum := alnum) hy h1 c
  have hcall := apply_call alnum s c
  have hcc := call_contexts alnum (bareSuite s) (history alnum (cs.map op)) h4 (op c)
  rw [← hcall] at hcc
  constructor
  · intro e
    cases ha : apply alnum s c with
    | error e' =>
      rw [ha] at hcc
      rw [e1 e' ha]
      cases hx : call alnum (history alnum (cs.map op)) (op c) with
      | error e'' =>
        rw [hx] at hcc
        have := Except.error.inj hcc
        simp [this]
      | ok t => rw [hx] at hcc; cases hcc
    | ok s' =>
      rw [ha] at hcc
      obtain ⟨fs', f1, -⟩ := e2 s' ha
      rw [f1]
      cases hx : call alnum (history alnum (cs.map op)) (op c) with
      | error e'' => rw [hx] at hcc; cases hcc
      | ok t => simp
  · intro e he
    unfold session at he ⊢
    rw [List.foldl_append, List.foldl_cons, List.foldl_nil, he]
    rfl

/-- C229: a suite that is not there, or whose file cannot be read, is an error of every command, and nothing is written. -/
theorem C229_missing (alnum : Char → Bool) (iter : List (Str × Str) → List (Str × Str)) (order : List Tool → List Tool) (y : Yaml)
    (fs : Fs) (path : Str) (e : Err) (h : load y fs path = .error e) (v : Bool) (c : Change) :
    change alnum y fs path c = .error e ∧ session alnum y path fs [c] = fs ∧ showInfo iter y fs path = .error e ∧
      showTools iter order y fs path v = .error e := by
  have hc : change alnum y fs path c = .error e := by unfold change; rw [h]
  refine ⟨hc, ?_, by unfold showInfo; rw [h], by unfold showTools; rw [h]⟩
  unfold session
  rw [List.foldl_cons, List.foldl_nil, hc]
  rfl

/-- C229: a context that was added has the requests and the prefix given. -/
theorem C229_added (alnum : Char → Bool) (s s' : Suite) (n : Str) (r : List Str) (p : Option Str) (i : Int)
    (h : apply alnum s (.add n r p i) = .ok s') :
    s'.get n = some ⟨n, r, [], [], p, 0, false⟩ ∧ ∀ m, m ≠ n → s'.get m = s.get m := by
  simp only [apply, Suite.add] at h
  split at h
  · cases h
  · rename_i heq
    split at heq
    · cases heq
    · split at heq
      · cases heq
      · rename_i hv hd
        cases heq
        have hnone : s.contexts.find? (fun c => c.name == n) = none := by
          rw [List.find?_eq_none]
          intro c hc he
          exact hd (List.any_eq_true.mpr ⟨c, hc, he⟩)
        have hget : ∀ m, (s.contexts ++ [Ctx.new n r]).find? (fun c => c.name == m) =
            if m = n then some (Ctx.new n r) else s.contexts.find? fun c => c.name == m := by
          intro m
          rw [List.find?_append]
          by_cases hm : m = n
          · subst hm
            rw [hnone, if_pos rfl]
            simp [Ctx.new]
          · rw [if_neg hm]
            have : ([Ctx.new n r].find? fun c => c.name == m) = none := by
              simp [Ctx.new, Ne.symm hm]
            rw [this, Option.or_none]
        cases p with
        | none =>
          cases h
          unfold Suite.get
          exact ⟨by rw [hget, if_pos rfl]; rfl, fun m hm => by rw [hget, if_neg hm]⟩
        | some p =>
          cases h
          unfold Suite.get Suite.edit
          simp only
          refine ⟨?_, fun m hm => ?_⟩
          · rw [SuiteLemmas.editFirst_find _ _ (fun c => { c with pfx := some p }) fun _ => rfl]
            rw [if_pos rfl, hget, if_pos rfl]
            rfl
          · rw [SuiteLemmas.editFirst_find _ _ (fun c => { c with pfx := some p }) fun _ => rfl]
            rw [if_neg hm, hget, if_neg hm]

/-- C229: `tools` prints every tool of the suite exactly once, in the order of the names, with its context; a clash that the
mode does not allow is an error. -/
theorem C229_tools (iter : List (Str × Str) → List (Str × Str)) (order : List Tool → List Tool) (ho : ∀ l, (order l).Perm l)
    (y : Yaml) (fs : Fs) (path : Str) (v : Bool) (s : Suite) (h : load y fs path = .ok s) :
    (∀ e, s.tools iter = .error e → showTools iter order y fs path v = .error e) ∧
    (s.tools iter = .ok [] → showTools iter order y fs path v = .ok c!"No tools exposed by this suite.\n") ∧
    ∀ tools, s.tools iter = .ok tools → tools ≠ [] → ∃ shown : List Tool, shown.Perm (tools.map Prod.snd) ∧
      shown.Pairwise (fun a b => cmpStr a.name b.name ≠ .gt) ∧
      showTools iter order y fs path v = .ok (
        c!"TOOL                           CONTEXT              SOURCE\n" ++
        c!"----                           -------              ------\n" ++
        (shown.map fun t => t.name ++ List.replicate (30 - t.name.length) ' ' ++ c!" " ++ t.context ++
          (if v then List.replicate (20 - t.context.length) ' ' ++ c!" " ++ t.package else []) ++ c!"\n").flatten) := by
  unfold showTools
  rw [h]
  refine ⟨fun e he => by simp only [he], fun he => by simp only [he]; rfl, fun tools ht hne => ?_⟩
  simp only [ht]
  rw [if_neg (by simpa using hne)]
  refine ⟨(order (tools.map Prod.snd)).insertionSort fun a b => cmpStr a.name b.name ≠ .gt,
    (List.perm_insertionSort _ _).trans (ho _), ?_, ?_⟩
  · have : Std.Total fun a b : Tool => cmpStr a.name b.name ≠ .gt := ⟨fun a b => by
      have := cmpStr_swap a.name b.name
      cases h : cmpStr a.name b.name <;> rw [h] at this <;> simp_all [Ordering.swap] <;> rw [← this] <;> simp⟩
    have : IsTrans Tool fun a b => cmpStr a.name b.name ≠ .gt := ⟨fun a b c h1 h2 => by
      have := Std.TransCmp.isLE_trans (cmp := cmpStr) (a := a.name) (b := b.name) (c := c.name)
      exact Ordering.isLE_iff_ne_gt.mp (this (Ordering.isLE_iff_ne_gt.mpr h1) (Ordering.isLE_iff_ne_gt.mpr h2))⟩
    exact List.pairwise_insertionSort _ _
  · congr 1
    have e1 : padTo 30 c!"TOOL" ++ c!" " ++ padTo 20 c!"CONTEXT" ++ c!" SOURCE\n" =
      c!"TOOL                           CONTEXT              SOURCE\n" := by decide
    have e2 : padTo 30 c!"----" ++ c!" " ++ padTo 20 c!"-------" ++ c!" ------\n" =
      c!"----                           -------              ------\n" := by decide
    have e3 : toolLine v = fun t => t.name ++ List.replicate (30 - t.name.length) ' ' ++ c!" " ++ t.context ++
          (if v then List.replicate (20 - t.context.length) ' ' ++ c!" " ++ t.package else []) ++ c!"\n" := by
      funext t
      unfold toolLine padTo
      cases v <;> simp
    rw [e1, ← e2, e3, List.flatMap]
    simp only [List.append_assoc]

/-- C229: `list` prints the directories in the search paths that are suites, each once for each time it is met; with
`--verbose` the line of one that can be loaded tells how many contexts it has, and its description. -/
theorem C229_list (entries : Str → List Str) (join : Str → Str → Str) (fileName : Str → Str) (y : Yaml) (fs : Fs)
    (paths : List Str) :
    ((∀ b ∈ paths, ∀ e ∈ entries b, isSuite fs (join b e) = false) → ∀ v,
      showList entries join fileName y fs paths v = c!"No suites found.\n") ∧
    ((∃ b ∈ paths, ∃ e ∈ entries b, isSuite fs (join b e) = true) →
      ∃ shown : List (Str × Str), (∀ b e, (b, e) ∈ shown ↔ b ∈ paths ∧ e ∈ entries b ∧ isSuite fs (join b e) = true) ∧
        List.Sublist shown (paths.flatMap fun b => (entries b).map fun e => (b, e)) ∧
        showList entries join fileName y fs paths false = (shown.map fun x => x.2 ++ c!"\n").flatten ∧
        showList entries join fileName y fs paths true = (shown.map fun x => match load y fs (join x.1 x.2) with
          | .ok s => padTo 30 (fileName (join x.1 x.2)) ++ c!" " ++ decimal s.contexts.length ++ c!" context(s) - " ++
              s.description.getD c!"(no description)" ++ c!"\n"
          | .error _ => []).flatten) := by
  constructor
  · intro h v
    have : listNames entries join fs paths = [] := by
      unfold listNames
      rw [List.flatMap_eq_nil_iff]
      intro b hb
      rw [List.filter_eq_nil_iff]
      intro e he
      rw [h b hb e he]
      simp
    unfold showList
    rw [this]
    rfl
  · rintro ⟨b0, hb0, e0, he0, h0⟩
    let shown : List (Str × Str) := paths.flatMap fun b => ((entries b).filter fun e => isSuite fs (join b e)).map fun e => (b, e)
    have hnames : listNames entries join fs paths = shown.map Prod.snd := by
      unfold listNames
      show _ = (paths.flatMap _).map Prod.snd
      rw [List.map_flatMap]
      simp [List.map_map, Function.comp_def]
    have hfind : findSuites entries join fs paths = shown.map fun x => join x.1 x.2 := by
      unfold findSuites
      show _ = (paths.flatMap _).map _
      rw [List.map_flatMap]
      congr 1
      funext b
      rw [List.map_map, List.filter_map]
      rfl
    have hmem : ∀ b e, (b, e) ∈ shown ↔ b ∈ paths ∧ e ∈ entries b ∧ isSuite fs (join b e) = true := by
      intro b e
      show (b, e) ∈ paths.flatMap _ ↔ _
      rw [List.mem_flatMap]
      constructor
      · rintro ⟨b', hb', hm⟩
        obtain ⟨e', he', heq⟩ := List.mem_map.mp hm
        cases heq
        exact ⟨hb', List.mem_filter.mp he'⟩
      · rintro ⟨h1, h2, h3⟩
        exact ⟨b, h1, List.mem_map.mpr ⟨e, List.mem_filter.mpr ⟨h2, h3⟩, rfl⟩⟩
    have hne : (listNames entries join fs paths).isEmpty = false := by
      rw [hnames, List.isEmpty_eq_false_iff]
      intro h
      have := (hmem b0 e0).mpr ⟨hb0, he0, h0⟩
      rw [List.map_eq_nil_iff] at h
      rw [h] at this
      simp at this
    refine ⟨shown, hmem, ?_, ?_, ?_⟩
    · show List.Sublist (paths.flatMap _) _
      clear hmem hfind hnames hne hb0
      induction paths with
      | nil => exact List.Sublist.refl _
      | cons b l ih =>
        rw [List.flatMap_cons, List.flatMap_cons]
        exact (List.filter_sublist.map _).append ih
    · unfold showList
      simp only [hne, Bool.false_eq_true, if_false]
      rw [hnames, List.flatMap_map]
      rfl
    · unfold showList
      simp only [hne, Bool.false_eq_true, if_false, if_true]
      rw [hfind, List.flatMap_map]
      rfl

/-- C229: `info` prints the description, the place, the mode and then the contexts in order, each with its requests, every
alias once and the hidden tools. -/
theorem C229_info (iter : List (Str × Str) → List (Str × Str)) (hi : ∀ l, (iter l).Perm l) (y : Yaml) (fs : Fs) (path : Str)
    (s : Suite) (h : load y fs path = .ok s) :
    ∃ blocks : List Str, blocks.length = s.contexts.length ∧
      (∀ (i : Nat) (c : Ctx), s.contexts[i]? = some c → ∃ aliases : List (Str × Str), aliases.Perm c.aliases ∧ blocks[i]? = some (
        c!"    " ++ c.name ++ c!" - " ++ joinWith c!", " c.requests ++ (if c.disabled then c!" [disabled]" else []) ++ c!"\n" ++
        (aliases.map fun a => c!"      alias: " ++ a.1 ++ c!" -> " ++ a.2 ++ c!"\n").flatten ++
        (if c.hidden = [] then [] else c!"      hidden: " ++ joinWith c!", " c.hidden ++ c!"\n"))) ∧
      showInfo iter y fs path = .ok (c!"Suite:\n" ++
        (match s.description with | some d => c!"  Description: " ++ d ++ c!"\n" | none => []) ++
        c!"  Path: " ++ path ++ c!"\n  Conflict mode: " ++
        (match s.mode with | .error => c!"Error" | .first => c!"First" | .last => c!"Last" | .prefix => c!"Prefix") ++
        c!"\n  Contexts (" ++ decimal s.contexts.length ++ c!"):\n" ++ blocks.flatten) := by
  have hp : s.path = some path := by
    unfold load at h
    split at h
    · cases h
    · split at h
      · cases h
      · cases h
        rfl
  refine ⟨s.contexts.map (ctxInfo iter), by simp, fun i c hc => ⟨iter c.aliases, hi _, ?_⟩, ?_⟩
  · rw [List.getElem?_map, hc]
    simp only [Option.map_some, ctxInfo, List.flatMap]
    cases c.hidden <;> simp
  · unfold showInfo
    rw [h]
    simp only
    congr 1
    unfold info
    rw [hp]
    cases s.mode <;> cases s.description <;> simp [modeDebug, List.flatMap]

/-- C229: without `--paths` the suites are looked for in `suites` in the home directory; with it in the places named, in
order, without blanks around them and without empty ones. -/
theorem C229_paths (join : Str → Str → Str) (u h : Option Str) (places : List Str) (hne : places ≠ [])
    (hp : ∀ p ∈ places, ':' ∉ p ∧ p ≠ [] ∧ trim p = p) :
    suitePaths join (some (joinWith c!":" places)) u h = places ∧
    (∀ x, suitePaths join none (some x) h = [join x c!"suites"]) ∧ (∀ x, suitePaths join none none (some x) = [join x c!"suites"]) ∧
      suitePaths join none none none = [join c!"." c!"suites"] := by
  refine ⟨?_, fun _ => rfl, fun _ => rfl, rfl⟩
  unfold suitePaths
  simp only
  rw [splitChar_join hne fun p hm => (hp p hm).1]
  have : places.map trim = places := by
    conv_rhs => rw [← List.map_id places]
    exact List.map_congr_left fun p hm => (hp p hm).2.2
  rw [this, List.filter_eq_self]
  intro p hm
  cases p with
  | nil => exact absurd rfl (hp _ hm).2.1
  | cons _ _ => rfl

/-! ## A concrete suite, and what is not so -/

-- a format that reads back what it wrote is possible: there are as many texts as files
example : ∃ y : Yaml, Faithful y ∧ y.read [] = none := by
  have hc : Countable Char := Function.Injective.countable (f := Char.toNat) fun a b h => Char.ext (UInt32.toNat_inj.mp h)
  have hx : Countable Ctx := Function.Injective.countable
    (f := fun c : Ctx => (c.name, c.requests, c.aliases, c.hidden, c.pfx, c.priority, c.disabled)) fun a b h => by
      cases a; cases b; simp only [Prod.mk.injEq] at h; obtain ⟨rfl, rfl, rfl, rfl, rfl, rfl, rfl⟩ := h; rfl
  have hf : Countable File := Function.Injective.countable (f := fun f : File => (f.contexts, f.description, f.mode)) fun a b h => by
      cases a; cases b; simp only [Prod.mk.injEq] at h; obtain ⟨rfl, rfl, rfl⟩ := h; rfl
  obtain ⟨g, hg⟩ := exists_injective_nat File
  classical
  refine ⟨⟨fun f => List.replicate (g f + 1) 'x', fun t => if h : ∃ f, List.replicate (g f + 1) 'x' = t then some h.choose else none⟩,
    fun f => ?_, ?_⟩
  · have h : ∃ f', List.replicate (g f' + 1) 'x' = List.replicate (g f + 1) 'x' := ⟨f, rfl⟩
    show (if h : _ then _ else _) = _
    rw [dif_pos h]
    have := h.choose_spec
    have hl := congrArg List.length this
    simp only [List.length_replicate] at hl
    exact congrArg some (hg (by omega))
  · show (if h : _ then _ else _) = _
    rw [dif_neg]
    rintro ⟨f, h⟩
    exact absurd (congrArg List.length h) (by simp)

-- the hypotheses are met
example : Mode.parse c!"LAST" = some .last := by decide
example (y : Yaml) : (create y [] c!"/s" (some c!"tools") c!"first").isSome = true := by
  have : Mode.parse c!"first" = some .first := by decide
  unfold create
  rw [this]
  rfl

/-- C229 is false of creating twice: a suite that is already there loses all its contexts, without a word. -/
theorem C229_create_false (y : Yaml) (hy : Faithful y) (s : Suite) (_ : s.contexts ≠ []) (path : Str) (fs : Fs) :
    ∃ fs' s', create y (s.save y path fs).2 path none c!"error" = some fs' ∧ load y fs' path = .ok s' ∧ s'.contexts = [] := by
  have hm : Mode.parse c!"error" = some .error := by decide
  refine ⟨_, _, by unfold create; rw [hm], (C107_roundtrip y _ (hy _) path _).1, rfl⟩

/-- C229 is false of the priority: it changes nothing. -/
theorem C229_priority_false (alnum : Char → Bool) (y : Yaml) (fs : Fs) (path n : Str) (r : List Str) (p : Option Str) (i j : Int) :
    change alnum y fs path (.add n r p i) = change alnum y fs path (.add n r p j) := rfl

/-- C229 is false of the prefix: it changes no tool. -/
theorem C229_prefix_false (iter : List (Str × Str) → List (Str × Str)) (s : Suite) (n : Str) (p : Option Str) :
    (s.edit n fun c => { c with pfx := p }).tools iter = s.tools iter := by
  have hadd : ∀ (m : Mode) (c : Ctx) (xs : List (Str × Str)) (t : List (Str × Tool)),
      addTools m { c with pfx := p } t xs = addTools m c t xs := by
    intro m c xs
    induction xs with
    | nil => intro t; rfl
    | cons x xs ih =>
      intro t
      rw [addTools, addTools]
      have : addTool m { c with pfx := p } t x = addTool m c t x := rfl
      rw [this]
      cases addTool m c t x with
      | error e => rfl
      | ok t' => exact ih t'
  unfold Suite.tools Suite.edit
  simp only
  generalize ([] : List (Str × Tool)) = t0
  induction s.contexts generalizing t0 with
  | nil => rfl
  | cons c l ih =>
    rw [editFirst]
    split
    · rw [collect, collect]
      simp only [hadd]
    · rw [collect, collect]
      split
      · exact ih t0
      · cases addTools s.mode c t0 (iter c.aliases) with
        | error e => rfl
        | ok t => exact ih t

/-- C229 is false of two commands at the same time: both succeed, and what the first one added is lost. -/
theorem C229_race_false (y : Yaml) (hy : Faithful y) (fs fs0 : Fs) (h : create y fs c!"/s" none c!"error" = some fs0) :
    ∃ fs' s, race (fun c => isAlpha c) y c!"/s" fs0 (.add c!"a" [] none 0) (.add c!"b" [] none 0) = .ok fs' ∧
      load y fs' c!"/s" = .ok s ∧ s.names = [c!"b"] := by
  have hm : Mode.parse c!"error" = some .error := by decide
  unfold create at h
  rw [hm] at h
  cases h
  have hl := (C107_roundtrip y { Suite.new with mode := .error } (hy _) c!"/s" fs).1
  have e1 : ∀ s : Suite, s.contexts = [] → apply (fun c => isAlpha c) s (.add c!"a" [] none 0) =
      .ok { s with contexts := [Ctx.new c!"a" []] } := by
    intro s hs
    have hv : validName (fun c => isAlpha c) c!"a" = true := by decide
    simp [apply, Suite.add, hs, hv]
  have e2 : ∀ s : Suite, s.contexts = [] → apply (fun c => isAlpha c) s (.add c!"b" [] none 0) =
      .ok { s with contexts := [Ctx.new c!"b" []] } := by
    intro s hs
    have hv : validName (fun c => isAlpha c) c!"b" = true := by decide
    simp [apply, Suite.add, hs, hv]
  unfold race
  rw [hl]
  simp only
  rw [e1 _ rfl]
  simp only
  rw [e2 _ rfl]
  exact ⟨_, _, rfl, (C107_roundtrip y _ (hy _) _ _).1, rfl⟩

/-- C229 is false of a crash: a command that is interrupted can leave the suite unreadable, with everything in it lost. -/
theorem C229_crash_false (alnum : Char → Bool) (y : Yaml) (he : y.read [] = none) (s s' : Suite) (c : Change) (path : Str)
    (fs : Fs) (_ : load y fs path = .ok s) (_ : apply alnum s c = .ok s') :
    ∃ k, load y (s'.saveCrash y path 0 k fs) path = .error .serialization :=
  ⟨2, by simp [Suite.saveCrash, saveSteps, touch, load, mget_mset, he]⟩

/-- C229 is false of names: `info` takes a path only, so a suite that `list` shows is not found by its name. -/
theorem C229_name_false (iter : List (Str × Str) → List (Str × Str)) (y : Yaml) :
    let fs : Fs := [(c!"/home/suites/art", ⟨some [], true, true⟩)]
    let join : Str → Str → Str := fun a b => a ++ c!"/" ++ b
    let entries : Str → List Str := fun b => if b = c!"/home/suites" then [c!"art"] else []
    showList entries join id y fs (suitePaths join none none (some c!"/home")) false = c!"art\n" ∧
      showInfo iter y fs c!"art" = .error (.suiteNotFound c!"art") := by
  exact ⟨rfl, rfl⟩

/-- C229 is false of `list`: a directory that only has the marker is listed, though it cannot be loaded; with `--verbose` it is
left out, so that nothing at all may be printed. -/
theorem C229_marker_false (y : Yaml) :
    let fs : Fs := [(c!"/s/art", ⟨none, true, true⟩)]
    let join : Str → Str → Str := fun a b => a ++ c!"/" ++ b
    let entries : Str → List Str := fun _ => [c!"art"]
    showList entries join id y fs [c!"/s"] false = c!"art\n" ∧ showList entries join id y fs [c!"/s"] true = [] := by
  exact ⟨rfl, rfl⟩

end Rez.Props
