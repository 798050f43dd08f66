import Verif.Spec.ContextCommand
import Verif.Props.Context
import Verif.Props.Shell
import Verif.Lemmas.VersionExtra
/-!
# C228: `rez context`
-/
namespace Rez.Props
open Rez Rez.Context Rez.ContextCommand Rez.Spec.ContextCommand

namespace ContextCommandLemmas

theorem total_name : Std.Total fun a b : Resolved => cmpStr a.pkg.name b.pkg.name ≠ .gt := ⟨fun a b => by
  have := cmpStr_swap a.pkg.name b.pkg.name
  cases h : cmpStr a.pkg.name b.pkg.name <;> rw [h] at this <;> simp_all [Ordering.swap] <;> rw [← this] <;> simp⟩

theorem trans_name : IsTrans Resolved fun a b => cmpStr a.pkg.name b.pkg.name ≠ .gt := ⟨fun a b c h1 h2 => by
  have := Std.TransCmp.isLE_trans (cmp := cmpStr) (a := a.pkg.name) (b := b.pkg.name) (c := c.pkg.name)
  exact Ordering.isLE_iff_ne_gt.mp (this (Ordering.isLE_iff_ne_gt.mpr h1) (Ordering.isLE_iff_ne_gt.mpr h2))⟩

theorem insert_stable (n : Str) (x : Resolved) (l : List Resolved) :
    ((l.orderedInsert (fun a b => cmpStr a.pkg.name b.pkg.name ≠ .gt) x).filter fun r => r.pkg.name == n) =
      (x :: l).filter fun r => r.pkg.name == n := by
  induction l with
  | nil => rfl
  | cons y l ih =>
    rw [List.orderedInsert_cons]
    split
    · rfl
    · rename_i h
      have hne : x.pkg.name ≠ y.pkg.name := by
        intro e
        rw [e, cmpStr_refl] at h
        simp at h
      rw [List.filter_cons, ih, List.filter_cons, List.filter_cons, List.filter_cons]
      by_cases h1 : x.pkg.name = n
      · have h2 : y.pkg.name ≠ n := fun e => hne (h1.trans e.symm)
        simp [h1, h2]
      · simp [h1]

theorem sort_stable (n : Str) (l : List Resolved) :
    ((l.insertionSort fun a b => cmpStr a.pkg.name b.pkg.name ≠ .gt).filter fun r => r.pkg.name == n) =
      l.filter fun r => r.pkg.name == n := by
  induction l with
  | nil => rfl
  | cons x l ih =>
    rw [List.insertionSort_cons, insert_stable, List.filter_cons, ih, List.filter_cons]

theorem exists_last (ps : List Resolved) (t : Str) (h : ∃ r ∈ ps, t ∈ r.pkg.tools) :
    ∃ before r after, ps = before ++ r :: after ∧ t ∈ r.pkg.tools ∧ ∀ q ∈ after, t ∉ q.pkg.tools := by
  induction ps with
  | nil => obtain ⟨_, h, _⟩ := h; simp at h
  | cons p ps ih =>
    by_cases hp : ∃ r ∈ ps, t ∈ r.pkg.tools
    · obtain ⟨b, r, a, e, h1, h2⟩ := ih hp
      exact ⟨p :: b, r, a, by rw [e]; rfl, h1, h2⟩
    · obtain ⟨r, hr, ht⟩ := h
      rcases List.mem_cons.mp hr with rfl | hr
      · exact ⟨[], r, ps, rfl, ht, fun q hq h => hp ⟨q, hq, h⟩⟩
      · exact absurd ⟨r, hr, ht⟩ hp

theorem mget_tools (ps : List Resolved) (t path : Str) : mget (getTools ps) t = some path ↔ Provides ps t path := by
  constructor
  · intro h
    by_cases hp : ∃ r ∈ ps, t ∈ r.pkg.tools
    · obtain ⟨b, r, a, e, h1, h2⟩ := exists_last ps t hp
      refine ⟨b, r, a, e, h1, h2, ?_⟩
      rw [e, C118_last b a r t h1 h2] at h
      exact (Option.some.inj h).symm
    · exfalso
      unfold getTools at h
      rw [ContextLemmas.mget_extend_last] at h
      simp only [mget, Option.or_none] at h
      have := mget_some_mem h
      obtain ⟨q, hq, hm⟩ := List.mem_flatMap.mp (List.mem_reverse.mp this)
      obtain ⟨x, hx, e⟩ := List.mem_map.mp hm
      cases e
      exact hp ⟨q, hq, hx⟩
  · rintro ⟨b, r, a, rfl, h1, h2, rfl⟩
    exact C118_last b a r t h1 h2

theorem nodup_tools (ps : List Resolved) : (mkeys (getTools ps)).Nodup :=
  ContextLemmas.nodup_extend [] _ (by simp [mkeys])

theorem isVar_iff (c : RCtx) (k : Str) : isPackageVar c k = true ↔ Mentions c.packages k := by
  unfold isPackageVar Mentions
  rw [List.any_eq_true]
  constructor
  · rintro ⟨r, hr, h⟩
    cases hc : r.pkg.commands with
    | none => rw [hc] at h; cases h
    | some t =>
      rw [hc] at h
      exact ⟨r, hr, t, hc, (containsStr_iff _ _).mp h⟩
  · rintro ⟨r, hr, t, ht, h⟩
    refine ⟨r, hr, ?_⟩
    rw [ht]
    exact (containsStr_iff _ _).mpr h

/-! ### The variables -/

theorem applyExport_keeps (iter : List (Str × Str) → List (Str × Str)) (r : Resolved) (env : List (Str × Str)) (cmd : Str) :
    (∀ k ∈ mkeys env, k ∈ mkeys (applyExport iter r env cmd)) ∧
      ((mkeys env).Nodup → (mkeys (applyExport iter r env cmd)).Nodup) := by
  unfold applyExport
  split
  · exact ⟨fun _ h => h, fun h => h⟩
  · simp only
    split
    · exact ⟨fun _ h => mem_mkeys_mset.mpr (Or.inr h), fun h => nodup_mset h _ _⟩
    · split
      · exact ⟨fun _ h => mem_mkeys_mset.mpr (Or.inr h), fun h => nodup_mset h _ _⟩
      · exact ⟨fun _ h => mem_mkeys_mset.mpr (Or.inr h), fun h => nodup_mset h _ _⟩

theorem applyExport_sets (iter : List (Str × Str) → List (Str × Str)) (r : Resolved) (env : List (Str × Str)) {k v : Str}
    (hk : '=' ∉ k) (hw : ∀ c ∈ k, isWs c = false) :
    k ∈ mkeys (applyExport iter r env (c!"export " ++ k ++ c!"=" ++ v)) := by
  have e : (c!"export " ++ k ++ c!"=" ++ v).drop 7 = k ++ '=' :: v := by
    rw [List.append_assoc, List.append_assoc]; rfl
  unfold applyExport
  rw [e, ContextLemmas.splitOnce_eq hk]
  simp only
  rw [trim_of_noWs hw]
  split
  · exact mem_mkeys_mset.mpr (Or.inl rfl)
  · split
    · exact mem_mkeys_mset.mpr (Or.inl rfl)
    · exact mem_mkeys_mset.mpr (Or.inl rfl)

theorem lines_keep (iter : List (Str × Str) → List (Str × Str)) (r : Resolved) (ls : List Str) (env : List (Str × Str)) :
    (∀ k ∈ mkeys env, k ∈ mkeys (ls.foldl (fun env l =>
      if c!"export ".isPrefixOf (trim l) then applyExport iter r env (trim l) else env) env)) ∧
    ((mkeys env).Nodup → (mkeys (ls.foldl (fun env l =>
      if c!"export ".isPrefixOf (trim l) then applyExport iter r env (trim l) else env) env)).Nodup) := by
  induction ls generalizing env with
  | nil => exact ⟨fun _ h => h, fun h => h⟩
  | cons l ls ih =>
    rw [List.foldl_cons]
    split
    · have h := applyExport_keeps iter r env (trim l)
      exact ⟨fun k hk => (ih _).1 k (h.1 k hk), fun hn => (ih _).2 (h.2 hn)⟩
    · exact ih env

theorem lines_set (iter : List (Str × Str) → List (Str × Str)) (r : Resolved) {k : Str} (ls : List Str)
    (env : List (Str × Str)) {l v : Str} (hl : l ∈ ls) (e : trim l = c!"export " ++ k ++ c!"=" ++ v) (hk : '=' ∉ k)
    (hw : ∀ c ∈ k, isWs c = false) :
    k ∈ mkeys (ls.foldl (fun env l =>
      if c!"export ".isPrefixOf (trim l) then applyExport iter r env (trim l) else env) env) := by
  induction ls generalizing env with
  | nil => simp at hl
  | cons x ls ih =>
    rw [List.foldl_cons]
    rcases List.mem_cons.mp hl with rfl | hl
    · apply (lines_keep iter r ls _).1
      rw [e, if_pos (by rw [List.append_assoc, List.append_assoc]; simp [List.isPrefixOf_iff_prefix])]
      exact applyExport_sets iter r env hk hw
    · exact ih _ hl

theorem step_keep (lines : Str → List Str) (iter : List (Str × Str) → List (Str × Str)) (ps : List Resolved)
    (env : List (Str × Str)) : (∀ k ∈ mkeys env, k ∈ mkeys (getEnviron lines iter env ps)) ∧
      ((mkeys env).Nodup → (mkeys (getEnviron lines iter env ps)).Nodup) := by
  unfold getEnviron
  induction ps generalizing env with
  | nil => exact ⟨fun _ h => h, fun h => h⟩
  | cons r ps ih =>
    rw [List.foldl_cons]
    cases hc : r.pkg.commands with
    | none => exact ih env
    | some t =>
      have h := lines_keep iter r (lines t) env
      exact ⟨fun k hk => (ih _).1 k (h.1 k hk), fun hn => (ih _).2 (h.2 hn)⟩

theorem environ_set (lines : Str → List Str) (iter : List (Str × Str) → List (Str × Str)) (ps : List Resolved)
    (env : List (Str × Str)) {r : Resolved} {k : Str} (hr : r ∈ ps) (h : Exports lines r k) :
    k ∈ mkeys (getEnviron lines iter env ps) := by
  induction ps generalizing env with
  | nil => simp at hr
  | cons p ps ih =>
    rcases List.mem_cons.mp hr with rfl | hr
    · obtain ⟨t, ht, l, hl, v, e, hk, hw⟩ := h
      have h0 := lines_set iter r (lines t) env hl e hk hw
      have := (step_keep lines iter ps _).1 k h0
      unfold getEnviron at this ⊢
      rw [List.foldl_cons, ht]
      exact this
    · have := fun env => ih env hr
      unfold getEnviron at this ⊢
      rw [List.foldl_cons]
      exact this _

theorem mentions_of_exports {lines : Str → List Str} (hl : ∀ s, ∀ l ∈ lines s, l <:+: s) {ps : List Resolved} {r : Resolved}
    {k : Str} (hr : r ∈ ps) (h : Exports lines r k) : Mentions ps k := by
  obtain ⟨t, ht, l, hm, v, e, -⟩ := h
  refine ⟨r, hr, t, ht, ?_⟩
  have h1 : (c!"export " ++ k) <:+: trim l := by
    rw [e]
    exact ⟨[], c!"=" ++ v, by simp⟩
  have h2 : trim l <:+: l := by
    unfold trim trimEnd trimStart
    have a := List.dropWhile_suffix (l := l) isWs
    have b := List.dropWhile_suffix (l := (l.dropWhile isWs).reverse) isWs
    have c := b.reverse
    rw [List.reverse_reverse] at c
    exact c.isInfix.trans a.isInfix
  exact h1.trans (h2.trans (hl t l hm))

/-! ### Scripts -/

theorem join_blank_end (lines : List Str) : joinWith c!"\n" (lines ++ [[]]) = lines.flatMap (· ++ c!"\n") := by
  induction lines with
  | nil => rfl
  | cons x l ih =>
    cases l with
    | nil => simp [joinWith]
    | cons y l =>
      show x ++ c!"\n" ++ joinWith c!"\n" (y :: l ++ [[]]) = _
      rw [ih]
      simp

open Spec.Shell ShellLemmas in
theorem run_vars {step : State → Str → Option (State × Str)} {vl : Str × Str → Str} {vars : List (Str × Str)}
    (hv : (mkeys vars).Nodup) (hvs : ∀ x ∈ vars, StepOk step (vl x) (fun st => st.setVar x.1 x.2)) (hb : StepOk step [] id)
    (st : State) : ∃ st', run step st (vars.flatMap fun x => line (vl x)) = some st' ∧
      (∀ k, st'.var k = (mget vars k).or (st.var k)) ∧ st'.alias = st.alias := by
  have h := run_ctx (pre := []) hv (by simp) hvs hb st
  have e : joinWith c!"\n" ([] ++ vars.map vl ++ [[]]) = vars.flatMap fun x => line (vl x) := by
    rw [List.nil_append, join_blank_end, List.flatMap_map]
    rfl
  rwa [e] at h

open Spec.Shell ShellLemmas in
theorem plainBash {x : Str × Str} (hk : IsName x.1) (hv : ∀ c ∈ x.2, c ≠ '"' ∧ c ≠ '`' ∧ c ≠ '\\' ∧ c ≠ '$') :
    StepOk bashStep (c!"export " ++ x.1 ++ c!"=\"" ++ x.2 ++ c!"\"") (fun st => st.setVar x.1 x.2) := by
  apply stepOk_of
  · intro t r ht st
    have hc : ∀ var : Str → Option Str, ∀ c, (c ≠ '"' ∧ c ≠ '`' ∧ c ≠ '\\' ∧ c ≠ '$') →
        ∀ k s, bashDq var (k + 1) ([c] ++ s) = push [c] (bashDq var k s) := by
      intro var c h k s
      rw [List.cons_append, List.nil_append, bashDq.eq_def]
      simp only
      rw [if_neg h.1, if_neg h.2.1, if_neg h.2.2.1, if_neg h.2.2.2]
    have := bash_export (esc := fun c => [c]) hc (by simp) hk hv ht st
    rw [show x.2.flatMap (fun c => [c]) = x.2 by simp] at this
    simpa only [List.append_assoc] using this
  · simp

open Spec.Shell ShellLemmas in
theorem plainFish {x : Str × Str} (hk : IsName x.1) (hv : ∀ c ∈ x.2, c ≠ '"' ∧ c ≠ '\\' ∧ c ≠ '$') :
    StepOk (fishStep c!"-x") (c!"set -x " ++ x.1 ++ c!" \"" ++ x.2 ++ c!"\"") (fun st => st.setVar x.1 x.2) := by
  apply stepOk_of
  · intro t r ht st
    have hc : ∀ var : Str → Option Str, ∀ c, (c ≠ '"' ∧ c ≠ '\\' ∧ c ≠ '$') →
        ∀ k s, fishDq var (k + 1) ([c] ++ s) = push [c] (fishDq var k s) := by
      intro var c h k s
      rw [List.cons_append, List.nil_append, fishDq.eq_def]
      simp only
      rw [if_neg h.1, if_neg h.2.1, if_neg h.2.2]
    have := fish_set (flag := c!"-x") (esc := fun c => [c]) hc (by simp) hk hv ht st
    rw [show x.2.flatMap (fun c => [c]) = x.2 by simp, show c!"set " ++ c!"-x" ++ c!" " = c!"set -x " from rfl] at this
    simpa only [List.append_assoc] using this
  · simp

open Spec.Shell ShellLemmas RexShell in
theorem plainPs {x : Str × Str} (hk : IsName x.1) (hv : ∀ c ∈ x.2, psDouble c = false ∧ c ≠ '`' ∧ c ≠ '$') :
    StepOk psStep (c!"$env:" ++ x.1 ++ c!" = \"" ++ x.2 ++ c!"\"") (fun st => st.setVar x.1 x.2) := by
  obtain ⟨a, s, e, ha, hs⟩ := hk
  have hall : ∀ c ∈ x.1, isTok c = true := by
    intro c hc
    rw [e] at hc
    rcases List.mem_cons.mp hc with rfl | hc
    · rcases ha with ha | rfl
      · unfold isTok; simp [ha]
      · decide
    · exact hs c hc
  have h0 : x.1 ≠ [] := by rw [e]; simp
  have hname : psName x.1 = c!"$env:" ++ x.1 := by
    unfold psName
    rw [if_pos (List.all_eq_true.mpr hall)]
  apply stepOk_of
  · intro t r ht st
    have hc : ∀ c, (psDouble c = false ∧ c ≠ '`' ∧ c ≠ '$') →
        ∀ k s, psDq st.var (k + 1) ([c] ++ s) = push [c] (psDq st.var k s) := by
      intro c h k s
      rw [List.cons_append, List.nil_append, psDq.eq_def]
      simp only
      rw [if_neg (by simp [h.1]), if_neg h.2.1, if_neg h.2.2]
    have h := dq_read (rd := psDq st.var) (esc := fun c => [c]) (t := t) (q := '"') hc (by simp) (psDq_end ht _) hv
    rw [show x.2.flatMap (fun c => [c]) = x.2 by simp] at h
    have hq : psQuoted st.var ('"' :: (x.2 ++ '"' :: t)) = some (x.2, t) := by
      unfold psQuoted
      simp only
      rw [if_neg (by decide), if_pos (by decide)]
      exact h
    have hne : ∀ d : Char, isTok d = false → d ∉ x.1 := fun d hd hm => by rw [hall d hm] at hd; cases hd
    have := ps_set (w := x.2) h0 ⟨hne _ (by decide), hne _ (by decide)⟩ ht st hq
    rw [hname] at this
    have e : c!"$env:" ++ x.1 ++ c!" = \"" ++ x.2 ++ c!"\"" ++ t = c!"$env:" ++ x.1 ++ (c!" = " ++ ('"' :: (x.2 ++ '"' :: t))) := by
      simp [List.append_assoc]
    rw [e]
    exact this
  · simp

/-! ### The graph -/

theorem leading_iff (alnum : Char → Bool) (req n : Str) : depName alnum req = n ↔ Leading alnum req n := by
  unfold depName Leading
  constructor
  · rintro rfl
    refine ⟨req.dropWhile fun c => alnum c || c == '_' || c == '-', (List.takeWhile_append_dropWhile).symm, ?_, ?_⟩
    · intro c hc
      have := List.mem_takeWhile_imp hc
      simpa [or_assoc] using this
    · intro c hc
      have := List.head?_dropWhile_not (fun c => alnum c || c == '_' || c == '-') req
      rw [Option.mem_def.mp hc] at this
      simpa [and_assoc] using this
  · rintro ⟨rest, rfl, h1, h2⟩
    rw [List.takeWhile_append_of_pos (fun c hc => by simpa [or_assoc] using h1 c hc)]
    cases rest with
    | nil => simp
    | cons c r =>
      have := h2 c rfl
      rw [List.takeWhile_cons, if_neg (by simpa [and_assoc] using this)]
      simp

theorem drawn_iff (c : RCtx) (prune : Option Str) (r : Resolved) : r ∈ drawn c prune ↔ r ∈ c.packages ∧ Kept prune r := by
  unfold drawn Kept
  cases prune with
  | none => simp
  | some p =>
    simp only [List.mem_filter, Bool.or_eq_true, beq_iff_eq, List.any_eq_true, List.isPrefixOf_iff_prefix, Option.mem_some_iff,
      forall_eq']

end ContextCommandLemmas

open ContextCommandLemmas

section
variable (alnum : Char → Bool) (lines : Str → List Str) (iter : List (Str × Str) → List (Str × Str))
  (encode : List (Str × Str) → Str)

/-- C228: the context that is shown.  `-` is the standard input; any other argument is a file, which must exist; without an
argument it is the file `REZ_RXT_FILE` names, if there is one, else the file `REZ_CONTEXT_FILE` names, else an empty context.
A file that exists but does not hold a context is an error: nothing is printed or written then. -/
theorem C228_source (w : World) (a : Args) :
    (a.rxt = some c!"-" → ContextCommand.load w a.rxt = w.stdin.bind (decode w)) ∧
    (∀ p, a.rxt = some p → p ≠ [] → p ≠ c!"-" → ContextCommand.load w a.rxt = ((w.files p).bind id).bind (decode w)) ∧
    (a.rxt = none ∨ a.rxt = some [] →
      (∀ p t, w.env c!"REZ_RXT_FILE" = some p → w.files p = some t → ContextCommand.load w a.rxt = t.bind (decode w)) ∧
      ((∀ p, w.env c!"REZ_RXT_FILE" = some p → w.files p = none) →
        (∀ p t, w.env c!"REZ_CONTEXT_FILE" = some p → w.files p = some t → ContextCommand.load w a.rxt = t.bind (decode w)) ∧
        ((∀ p, w.env c!"REZ_CONTEXT_FILE" = some p → w.files p = none) →
          ContextCommand.load w a.rxt = some ⟨[], [], false, w.now⟩))) ∧
    (ContextCommand.load w a.rxt = none → execute alnum lines iter encode w a = ⟨false, [], none⟩) := by
  have hbind : ∀ (x : Option Str), (∀ p, x = some p → w.files p = none) → x.bind w.files = none := by
    intro x h
    cases x with
    | none => rfl
    | some p => exact h p rfl
  refine ⟨fun h => by rw [h]; rfl, fun p h h1 h2 => ?_, fun h => ?_, fun h => by unfold execute; rw [h]⟩
  · unfold ContextCommand.load
    rw [h]
    simp only [Option.getD_some]
    rw [if_neg h2, if_pos (by cases p with | nil => exact absurd rfl h1 | cons _ _ => rfl)]
    cases w.files p <;> rfl
  · have e : ContextCommand.load w a.rxt = fromVars w [c!"REZ_RXT_FILE", c!"REZ_CONTEXT_FILE"] := by
      rcases h with h | h <;> rw [h] <;> rfl
    rw [e]
    refine ⟨fun p t h1 h2 => ?_, fun h1 => ⟨fun p t h2 h3 => ?_, fun h2 => ?_⟩⟩
    · rw [fromVars, h1, Option.bind_some, h2]
    · rw [fromVars, hbind _ h1, fromVars, h2, Option.bind_some, h3]
    · rw [fromVars, hbind _ h1, fromVars, hbind _ h2, fromVars]

/-- C228: reading a file.  A text that is a context of the first kind in JSON is that context; a context of the older kind
gives the same packages in the same order, with their roots, and the requirements its own requirements are written as. -/
theorem C228_read (w : World) (s : Str) :
    (∀ c, w.jsonNew s = some c → decode w s = some c) ∧
    (w.jsonNew s = none → ∀ o, w.jsonOld s = some o → decode w s = convert w.now o) ∧
    (w.jsonNew s = none → w.jsonOld s = none → (∀ c, w.yamlNew s = some c → decode w s = some c) ∧
      (w.yamlNew s = none → decode w s = (w.yamlOld s).bind (convert w.now))) ∧
    ∀ o c, convert w.now o = some c →
      c.packages.map (fun r => (r.pkg, r.root)) = o.packages.map (fun p => (p.1, p.2.getD [])) ∧ c.failed = o.failed ∧
      o.requirements.map (fun r => Requirement.parse r.display) = c.requirements.map some := by
  refine ⟨fun c h => by unfold decode; rw [h], fun h o h1 => by unfold decode; rw [h]; simp only [h1],
    fun h h1 => ⟨fun c h2 => by unfold decode; rw [h]; simp only [h1, h2],
      fun h2 => by unfold decode; rw [h]; simp only [h1, h2]⟩, fun o c h => ?_⟩
  unfold convert at h
  obtain ⟨rs, h1, rfl⟩ := Option.map_eq_some_iff.mp h
  refine ⟨by simp [List.map_map, Function.comp_def], rfl, ?_⟩
  clear h
  generalize o.requirements = l at h1 ⊢
  simp only
  induction l generalizing rs with
  | nil => cases h1; rfl
  | cons x l ih =>
    rw [List.mapM_cons] at h1
    obtain ⟨y, hy, h1⟩ := Option.bind_eq_some_iff.mp h1
    obtain ⟨ys, hys, h1⟩ := Option.bind_eq_some_iff.mp h1
    cases h1
    rw [List.map_cons, List.map_cons, hy, ih ys hys]

/-- C228: `--print-request` prints the requirements in order, whatever else is asked. -/
theorem C228_request (w : World) (a : Args) (c : RCtx) (h : ContextCommand.load w a.rxt = some c) (hr : a.request = true) :
    execute alnum lines iter encode w a =
      ⟨true, c!"Request packages:\n" ++ (c.requirements.map fun r => c!"  " ++ r.display ++ c!"\n").flatten, none⟩ := by
  unfold execute act showRequest line
  rw [h, hr]
  simp [List.flatMap]

/-- C228: `--print-resolve` prints every package of the context exactly once, with its version and, if asked, its root: in
the order of the resolve if that is asked for, else in the order of the names, packages of a name in the order of the
resolve. -/
theorem C228_resolve (w : World) (a : Args) (c : RCtx) (h : ContextCommand.load w a.rxt = some c) (hr : a.request = false)
    (hs : a.resolve = true) :
    ∃ shown : List Resolved, shown.Perm c.packages ∧ (a.sourceOrder = true → shown = c.packages) ∧
      (a.sourceOrder = false → shown.Pairwise (fun p q => cmpStr p.pkg.name q.pkg.name ≠ .gt) ∧
        ∀ n, (shown.filter fun r => r.pkg.name == n) = c.packages.filter fun r => r.pkg.name == n) ∧
      execute alnum lines iter encode w a = ⟨true, c!"Resolved packages:\n" ++ (shown.map fun r =>
        c!"  " ++ r.pkg.name ++ c!" " ++ (match r.pkg.version with | some v => v.asStr | none => c!"unknown") ++
          (if a.uris then c!" (" ++ r.root ++ c!")" else []) ++ c!"\n").flatten, none⟩ := by
  have key : ∀ ps : List Resolved, ps.flatMap (resolvedLine a.uris) = (ps.map fun r =>
        c!"  " ++ r.pkg.name ++ c!" " ++ (match r.pkg.version with | some v => v.asStr | none => c!"unknown") ++
          (if a.uris then c!" (" ++ r.root ++ c!")" else []) ++ c!"\n").flatten := by
    intro ps
    rw [List.flatMap]
    congr 1
    apply List.map_congr_left
    intro r _
    unfold resolvedLine versionText line
    cases r.pkg.version <;> cases a.uris <;> simp
  have e : ∀ o, a.sourceOrder = o → execute alnum lines iter encode w a = ⟨true, showResolved c o a.uris, none⟩ := by
    intro o ho
    unfold execute act
    rw [h, hr, hs, ← ho]
    rfl
  cases ho : a.sourceOrder with
  | true =>
    refine ⟨c.packages, List.Perm.refl _, fun _ => rfl, (by simp), ?_⟩
    rw [e _ ho, ← key]
    rfl
  | false =>
    refine ⟨c.packages.insertionSort fun a b => cmpStr a.pkg.name b.pkg.name ≠ .gt, List.perm_insertionSort _ _,
      (by simp), fun _ => ⟨?_, fun n => sort_stable n _⟩, ?_⟩
    · have := total_name
      have := trans_name
      exact List.pairwise_insertionSort _ _
    · rw [e _ ho, ← key]
      rfl

/-- C228: `--tools` prints every tool of the context exactly once, with its path in the last package that has it. -/
theorem C228_tools (hi : ∀ l, (iter l).Perm l) (w : World) (a : Args) (c : RCtx) (h : ContextCommand.load w a.rxt = some c)
    (hr : a.request = false) (hs : a.resolve = false) (ht : a.tools = true) :
    ∃ shown : List (Str × Str), (mkeys shown).Nodup ∧ (∀ t path, (t, path) ∈ shown ↔ Provides c.packages t path) ∧
      execute alnum lines iter encode w a = ⟨true, c!"Available tools:\n" ++
        (if shown = [] then c!"  (no tools available)\n"
        else (shown.map fun t => c!"  " ++ t.1 ++ c!" -> " ++ t.2 ++ c!"\n").flatten), none⟩ := by
  have hn := nodup_tools c.packages
  refine ⟨iter (getTools c.packages), ContextLemmas.nodup_iter hi hn, fun t path => ?_, ?_⟩
  · rw [(hi _).mem_iff, ← mget_tools]
    exact ⟨fun hm => mget_of_mem hn hm, mget_some_mem⟩
  · have e : execute alnum lines iter encode w a = ⟨true, showTools iter c, none⟩ := by
      unfold execute act
      rw [h, hr, hs, ht]
      rfl
    rw [e]
    unfold showTools
    by_cases he : getTools c.packages = []
    · have : iter (getTools c.packages) = [] := by
        have := hi (getTools c.packages)
        rw [he] at this ⊢
        exact List.perm_nil.mp this
      rw [if_pos this, he]
      rfl
    · have hne : iter (getTools c.packages) ≠ [] := fun e => he (List.nil_perm.mp (e ▸ hi _)) 
      rw [if_neg hne]
      simp only
      rw [if_neg (by simpa using he)]
      simp [line, List.flatMap]

/-- C228: `--which` prints the path of a tool in the last package that has it, and only that; for anything else it prints
nothing. -/
theorem C228_which (w : World) (a : Args) (c : RCtx) (t : Str) (h : ContextCommand.load w a.rxt = some c)
    (hr : a.request = false) (hs : a.resolve = false) (ht : a.tools = false) (hw : a.which = some t) :
    (∀ path, Provides c.packages t path → execute alnum lines iter encode w a = ⟨true, path ++ c!"\n", none⟩) ∧
    ((∀ r ∈ c.packages, t ∉ r.pkg.tools) → execute alnum lines iter encode w a = ⟨true, [], none⟩) := by
  have e : execute alnum lines iter encode w a = ⟨true, showWhich c t, none⟩ := by
    unfold execute act
    rw [h, hr, hs, ht, hw]
    rfl
  rw [e]
  unfold showWhich
  refine ⟨fun path hp => by rw [(mget_tools _ _ _).mpr hp]; rfl, fun hno => ?_⟩
  cases hg : mget (getTools c.packages) t with
  | none => rfl
  | some p =>
    obtain ⟨b, r, x, e, h1, -⟩ := (mget_tools _ _ _).mp hg
    exact absurd h1 (hno r (by rw [e]; simp))

/-- What is asked for is the interpretation. -/
def Interprets (a : Args) : Prop :=
  a.request = false ∧ a.resolve = false ∧ a.tools = false ∧ a.which = none ∧ a.printGraph = false ∧ a.writeGraph = none ∧
    a.graph = false ∧ a.interpret = true

theorem ContextCommandLemmas.interpret_eq {w : World} {a : Args} {c : RCtx} (h : ContextCommand.load w a.rxt = some c) (ha : Interprets a) :
    execute alnum lines iter encode w a = ⟨true, showCode lines iter encode w c a.format, none⟩ := by
  obtain ⟨h1, h2, h3, h4, h5, h6, h7, h8⟩ := ha
  unfold execute act
  rw [h, h1, h2, h3, h4, h5, h6, h7, h8]
  rfl

/-- C228: `--interpret` prints one statement for each variable of the environment of the context that the commands of a
package mention after `export `, with its value; every variable a package has an `export` line for is among them. -/
theorem C228_interpret (hi : ∀ l, (iter l).Perm l) (hl : ∀ s, ∀ l ∈ lines s, l <:+: s) (w : World) (a : Args) (c : RCtx)
    (h : ContextCommand.load w a.rxt = some c) (ha : Interprets a) (hs : (mkeys w.system).Nodup) :
    ∃ shown : List (Str × Str), (mkeys shown).Nodup ∧
      (∀ k v, (k, v) ∈ shown ↔ mget (getEnviron lines iter w.system c.packages) k = some v ∧ Mentions c.packages k) ∧
      (∀ r ∈ c.packages, ∀ k, Exports lines r k → k ∈ mkeys shown) ∧
      execute alnum lines iter encode w a = ⟨true, match a.format with
        | none | some .bash | some .zsh => (shown.map fun e => c!"export " ++ e.1 ++ c!"=\"" ++ e.2 ++ c!"\"\n").flatten
        | some .fish => (shown.map fun e => c!"set -x " ++ e.1 ++ c!" \"" ++ e.2 ++ c!"\"\n").flatten
        | some .cmd => (shown.map fun e => c!"set " ++ e.1 ++ c!"=" ++ e.2 ++ c!"\n").flatten
        | some .powershell => (shown.map fun e => c!"$env:" ++ e.1 ++ c!" = \"" ++ e.2 ++ c!"\"\n").flatten
        | some .json => encode shown ++ c!"\n"
        | some .table => c!"Format Table not supported for interpretation\n"
        | some .dict => c!"Format Dict not supported for interpretation\n", none⟩ := by
  have hn := (step_keep lines iter c.packages w.system).2 hs
  have hm : ∀ k v, (k, v) ∈ (iter (getEnviron lines iter w.system c.packages)).filter (fun e => isPackageVar c e.1) ↔
      mget (getEnviron lines iter w.system c.packages) k = some v ∧ Mentions c.packages k := by
    intro k v
    rw [List.mem_filter, (hi _).mem_iff, isVar_iff]
    exact and_congr_left fun _ => ⟨fun hm => mget_of_mem hn hm, mget_some_mem⟩
  refine ⟨(iter (getEnviron lines iter w.system c.packages)).filter fun e => isPackageVar c e.1, ?_, hm, ?_, ?_⟩
  · exact (ContextLemmas.nodup_iter hi hn).sublist (List.filter_sublist.map _)
  · intro r hr k hk
    obtain ⟨v, hv⟩ := (mget_isSome_iff _ _).mpr (environ_set lines iter c.packages w.system hr hk)
    exact List.mem_map_of_mem ((hm k v).mpr ⟨hv, mentions_of_exports hl hr hk⟩)
  · rw [interpret_eq alnum lines iter encode h ha]
    unfold showCode
    rcases hf : a.format with _ | f
    · simp [line, List.flatMap]
    · cases f <;> simp [line, List.flatMap]

open Spec.Shell in
/-- C228: read by the shell it is written for, the code sets exactly these variables to exactly these values and changes
nothing else, if they are names and the values have no character that is special between double quotes. -/
theorem C228_shell (hi : ∀ l, (iter l).Perm l) (w : World) (a : Args) (c : RCtx)
    (h : ContextCommand.load w a.rxt = some c) (ha : Interprets a) (hs : (mkeys w.system).Nodup)
    (hv : ∀ k v, mget (getEnviron lines iter w.system c.packages) k = some v → Mentions c.packages k → IsName k ∧
      ∀ x ∈ v, psDouble x = false ∧ x ≠ '`' ∧ x ≠ '\\' ∧ x ≠ '$') (st : State)
    (step : State → Str → Option (State × Str))
    (hf : (a.format = none ∨ a.format = some .bash ∨ a.format = some .zsh) ∧ step = bashStep ∨
      a.format = some .fish ∧ step = fishStep c!"-x" ∨ a.format = some .powershell ∧ step = psStep) :
    ∃ st', run step st (execute alnum lines iter encode w a).out = some st' ∧ st'.alias = st.alias ∧
      (∀ k, Mentions c.packages k → ∀ v, mget (getEnviron lines iter w.system c.packages) k = some v → st'.var k = some v) ∧
      ∀ k, (Mentions c.packages k → mget (getEnviron lines iter w.system c.packages) k = none) → st'.var k = st.var k := by
  have hn := (step_keep lines iter c.packages w.system).2 hs
  have hm : ∀ k v, (k, v) ∈ (iter (getEnviron lines iter w.system c.packages)).filter (fun e => isPackageVar c e.1) ↔
      mget (getEnviron lines iter w.system c.packages) k = some v ∧ Mentions c.packages k := by
    intro k v
    rw [List.mem_filter, (hi _).mem_iff, isVar_iff]
    exact and_congr_left fun _ => ⟨fun hm => mget_of_mem hn hm, mget_some_mem⟩
  have hnd : (mkeys ((iter (getEnviron lines iter w.system c.packages)).filter fun e => isPackageVar c e.1)).Nodup :=
    (ContextLemmas.nodup_iter hi hn).sublist (List.filter_sublist.map _)
  have hq : ∀ x, psDouble x = false → x ≠ '"' := fun x hx e => by subst e; revert hx; decide
  rw [interpret_eq alnum lines iter encode h ha]
  simp only
  unfold showCode
  simp only
  generalize (iter (getEnviron lines iter w.system c.packages)).filter (fun e => isPackageVar c e.1) = shown at hm hnd
  have hgood : ∀ x ∈ shown, IsName x.1 ∧ ∀ y ∈ x.2, psDouble y = false ∧ y ≠ '`' ∧ y ≠ '\\' ∧ y ≠ '$' := by
    rintro ⟨k, v⟩ hx
    obtain ⟨h1, h2⟩ := (hm k v).mp hx
    exact hv k v h1 h2
  have fin : ∀ (text : Str), (∃ st', run step st text = some st' ∧
      (∀ k, st'.var k = (mget shown k).or (st.var k)) ∧ st'.alias = st.alias) →
      ∃ st', run step st text = some st' ∧ st'.alias = st.alias ∧
      (∀ k, Mentions c.packages k → ∀ v, mget (getEnviron lines iter w.system c.packages) k = some v → st'.var k = some v) ∧
      ∀ k, (Mentions c.packages k → mget (getEnviron lines iter w.system c.packages) k = none) → st'.var k = st.var k := by
    rintro text ⟨st', h1, h2, h3⟩
    refine ⟨st', h1, h3, fun k hk v hkv => ?_, fun k hk => ?_⟩
    · rw [h2, mget_of_mem hnd ((hm k v).mpr ⟨hkv, hk⟩)]
      rfl
    · rw [h2]
      cases hg : mget shown k with
      | none => rfl
      | some v =>
        obtain ⟨h4, h5⟩ := (hm k v).mp (mget_some_mem hg)
        rw [hk h5] at h4
        cases h4
  rcases hf with ⟨hf, rfl⟩ | ⟨hf, rfl⟩ | ⟨hf, rfl⟩
  · have := fin _ (run_vars hnd (fun x hx => plainBash (hgood x hx).1 fun y hy => by
      obtain ⟨h1, h2, h3, h4⟩ := (hgood x hx).2 y hy
      exact ⟨hq y h1, h2, h3, h4⟩) (ShellLemmas.blank_ok ShellLemmas.bash_blank) st)
    rcases hf with hf | hf | hf <;> rw [hf] <;> exact this
  · have := fin _ (run_vars hnd (fun x hx => plainFish (hgood x hx).1 fun y hy => by
      obtain ⟨h1, h2, h3, h4⟩ := (hgood x hx).2 y hy
      exact ⟨hq y h1, h3, h4⟩) (ShellLemmas.blank_ok (ShellLemmas.fish_blank _)) st)
    rw [hf]
    exact this
  · have := fin _ (run_vars hnd (fun x hx => plainPs (hgood x hx).1 fun y hy => by
      obtain ⟨h1, h2, h3, h4⟩ := (hgood x hx).2 y hy
      exact ⟨h1, h2, h4⟩) (ShellLemmas.blank_ok ShellLemmas.ps_blank) st)
    rw [hf]
    exact this

/-- C228: without an option the number of packages, the status, the time, and every package with its version are shown, in
the order of the resolve, if no two packages have the same name. -/
theorem C228_summary (w : World) (a : Args) (c : RCtx) (h : ContextCommand.load w a.rxt = some c) (hr : a.request = false)
    (hs : a.resolve = false) (ht : a.tools = false) (hw : a.which = none) (hp : a.printGraph = false)
    (hg : a.writeGraph = none) (hgr : a.graph = false) (hin : a.interpret = false)
    (hn : (c.packages.map fun r => r.pkg.name).Nodup) :
    execute alnum lines iter encode w a = ⟨true, c!"Context Summary:\n  Packages: " ++ decimal c.packages.length ++
      c!"\n  Status: " ++ (if c.failed then c!"FAILED" else c!"SUCCESS") ++ c!"\n  Created: " ++ c.created ++ c!"\n" ++
      (if c.packages = [] then c!"\n  (no resolved packages - not in a rez environment)\n"
      else c!"\nPackages:\n" ++ (c.packages.map fun r => c!"  " ++ r.pkg.name ++ c!" " ++
        (match r.pkg.version with | some v => v.asStr | none => c!"unknown") ++ c!"\n").flatten), none⟩ := by
  have e : execute alnum lines iter encode w a = ⟨true, showSummary c, none⟩ := by
    unfold execute act
    rw [h, hr, hs, ht, hw, hp, hg, hgr, hin]
    rfl
  have hfind : ∀ (ps : List Resolved), (ps.map fun r => r.pkg.name).Nodup → ∀ r ∈ ps,
      (ps.find? fun q => q.pkg.name == r.pkg.name) = some r := by
    intro ps
    induction ps with
    | nil => intro _ r hr; simp at hr
    | cons p ps ih =>
      intro hn r hr
      rw [List.map_cons, List.nodup_cons] at hn
      rcases List.mem_cons.mp hr with rfl | hr
      · simp
      · have : p.pkg.name ≠ r.pkg.name := fun e => hn.1 (e ▸ List.mem_map_of_mem (f := fun r : Resolved => r.pkg.name) hr)
        rw [List.find?_cons_of_neg (by simpa using this), ih hn.2 r hr]
  rw [e]
  unfold showSummary
  congr 1
  by_cases he : c.packages = []
  · have h0 : c.packages.length = 0 := by rw [he]; rfl
    simp only [he, h0, if_true, List.length_nil]
    simp [line]
  · have h0 : ¬ c.packages.length = 0 := by simpa using he
    simp only [he, h0, if_false]
    have : ((c.packages.map fun r => r.pkg.name).flatMap (summaryLine c)) = (c.packages.map fun r => c!"  " ++ r.pkg.name ++ c!" " ++
        (match r.pkg.version with | some v => v.asStr | none => c!"unknown") ++ c!"\n").flatten := by
      rw [List.flatMap_map, List.flatMap]
      congr 1
      apply List.map_congr_left
      intro r hr
      unfold summaryLine
      rw [hfind _ hn r hr]
      simp only
      unfold line versionText
      cases r.pkg.version <;> simp
    rw [this]
    simp [line]

/-- C228: the name of a node.  It is the name of the package, with an underscore for each dash and each point; so a name of
letters, digits, dashes, points and underscores has a node that needs no quotes, and names without dashes and points have
different nodes. -/
theorem C228_nodes (n : Str) :
    (nodeId n).length = n.length ∧ (∀ (i : Nat) (c : Char), n[i]? = some c → (c = '-' ∨ c = '.' → (nodeId n)[i]? = some '_') ∧
      (c ≠ '-' → c ≠ '.' → (nodeId n)[i]? = some c)) ∧
    (∀ ident : Char → Bool, ident '_' = true → (∀ c ∈ n, ident c = true ∨ c = '-' ∨ c = '.') → ∀ c ∈ nodeId n, ident c = true) ∧
    ∀ m, ('-' ∉ n ∧ '.' ∉ n) → ('-' ∉ m ∧ '.' ∉ m) → nodeId n = nodeId m → n = m := by
  have hsame : ∀ k : Str, ('-' ∉ k ∧ '.' ∉ k) → nodeId k = k := by
    rintro k ⟨h1, h2⟩
    unfold nodeId
    conv_rhs => rw [← List.map_id k]
    apply List.map_congr_left
    intro c hc
    rw [if_neg]
    · rfl
    · rintro (rfl | rfl)
      · exact h1 hc
      · exact h2 hc
  refine ⟨by simp [nodeId], fun i c hi => ⟨fun hc => ?_, fun h1 h2 => ?_⟩, fun ident hu hn c hc => ?_, fun m hn hm he => ?_⟩
  · simp [nodeId, hi, hc]
  · simp [nodeId, hi, h1, h2]
  · obtain ⟨d, hd, rfl⟩ := List.mem_map.mp hc
    split
    · exact hu
    · rename_i hno
      rcases hn d hd with h | h
      · exact h
      · exact absurd h hno
  · rw [hsame n hn, hsame m hm] at he
    exact he

/-- Two packages whose names differ by a dash and an underscore are one node. -/
theorem C228_nodes_false : nodeId c!"my-tool" = nodeId c!"my_tool" ∧ c!"my-tool" ≠ c!"my_tool" := by decide

/-- C228: the graph.  It has one node for each package of the context, or each that pruning keeps, in order, with its name
and version, and an arrow from a package to another exactly for each requirement whose leading text is the name of that
other package. -/
theorem C228_graph (c : RCtx) (prune : Option Str) :
    ∃ (shown : List Resolved) (arrows : List (Str × Str × Str)),
      List.Sublist shown c.packages ∧ (∀ r, r ∈ shown ↔ r ∈ c.packages ∧ Kept prune r) ∧ (prune = none → shown = c.packages) ∧
      (∀ x y q, (x, y, q) ∈ arrows ↔ (∃ r ∈ shown, r.pkg.name = x ∧ q ∈ r.pkg.requires) ∧ Leading alnum q y ∧
        ∃ r ∈ shown, r.pkg.name = y) ∧
      dotText alnum c prune = dotHead ++ (shown.map fun r => c!"    " ++ nodeId r.pkg.name ++ c!" [label=\"" ++ r.pkg.name ++
          c!"-" ++ (match r.pkg.version with | some v => v.asStr | none => c!"?") ++ c!"\"];\n").flatten ++ c!"\n" ++
        (arrows.map fun e => c!"    " ++ nodeId e.1 ++ c!" -> " ++ nodeId e.2.1 ++ c!" [label=\"" ++ e.2.2 ++ c!"\"];\n").flatten ++
        c!"}\n" := by
  let shown := drawn c prune
  let arrows : List (Str × Str × Str) := shown.flatMap fun r => (r.pkg.requires.filter fun q =>
    shown.any fun p => p.pkg.name == depName alnum q).map fun q => (r.pkg.name, depName alnum q, q)
  refine ⟨shown, arrows, ?_, drawn_iff c prune, ?_, ?_, ?_⟩
  · show List.Sublist (drawn c prune) c.packages
    unfold drawn
    cases prune with
    | none => exact List.Sublist.refl _
    | some p => exact List.filter_sublist
  · rintro rfl
    rfl
  · intro x y q
    constructor
    · intro hm
      obtain ⟨r, hr, hm⟩ := List.mem_flatMap.mp hm
      obtain ⟨q', hq, e⟩ := List.mem_map.mp hm
      cases e
      obtain ⟨hq1, hq2⟩ := List.mem_filter.mp hq
      obtain ⟨p, hp, e⟩ := List.any_eq_true.mp hq2
      exact ⟨⟨r, hr, rfl, hq1⟩, (leading_iff alnum q _).mp rfl, p, hp, by simpa using e⟩
    · rintro ⟨⟨r, hr, rfl, hq⟩, hle, p, hp, rfl⟩
      have hd := (leading_iff alnum q _).mpr hle
      refine List.mem_flatMap.mpr ⟨r, hr, List.mem_map.mpr ⟨q, List.mem_filter.mpr ⟨hq, ?_⟩, by rw [hd]⟩⟩
      exact List.any_eq_true.mpr ⟨p, hp, by rw [hd]; simp⟩
  · have h1 : shown.flatMap nodeLine = (shown.map fun r => c!"    " ++ nodeId r.pkg.name ++ c!" [label=\"" ++ r.pkg.name ++
          c!"-" ++ (match r.pkg.version with | some v => v.asStr | none => c!"?") ++ c!"\"];\n").flatten := by
      rw [List.flatMap]
      congr 1
      apply List.map_congr_left
      intro r _
      unfold nodeLine versionText
      cases r.pkg.version <;> simp
    have h2 : ∀ r : Resolved, edgeLines alnum shown r = (((r.pkg.requires.filter fun q =>
        shown.any fun p => p.pkg.name == depName alnum q).map fun q => (r.pkg.name, depName alnum q, q)).map fun e =>
        c!"    " ++ nodeId e.1 ++ c!" -> " ++ nodeId e.2.1 ++ c!" [label=\"" ++ e.2.2 ++ c!"\"];\n").flatten := by
      intro r
      unfold edgeLines
      induction r.pkg.requires with
      | nil => rfl
      | cons q l ih =>
        rw [List.flatMap_cons, ih, List.filter_cons]
        split
        · simp
        · simp
    have h3 : shown.flatMap (edgeLines alnum shown) = (arrows.map fun e =>
        c!"    " ++ nodeId e.1 ++ c!" -> " ++ nodeId e.2.1 ++ c!" [label=\"" ++ e.2.2 ++ c!"\"];\n").flatten := by
      show _ = ((shown.flatMap _).map _).flatten
      rw [List.map_flatMap, List.flatMap, List.flatMap, List.flatten_flatten, List.map_map]
      congr 1
      apply List.map_congr_left
      intro r _
      exact h2 r
    show dotHead ++ shown.flatMap nodeLine ++ c!"\n" ++ shown.flatMap (edgeLines alnum shown) ++ c!"}\n" = _
    rw [h1, h3]

/-- C228: the three ways to ask for the graph give the same text: on the standard output, in the named file and nowhere
else, or in the file for Graphviz, and then on the standard output if Graphviz fails.  A file that cannot be written is an
error. -/
theorem C228_draw (w : World) (a : Args) (c : RCtx) (h : ContextCommand.load w a.rxt = some c) (hr : a.request = false)
    (hs : a.resolve = false) (ht : a.tools = false) (hw : a.which = none) :
    (a.printGraph = true → execute alnum lines iter encode w a = ⟨true, dotText alnum c a.prune, none⟩) ∧
    (a.printGraph = false → ∀ path, a.writeGraph = some path → execute alnum lines iter encode w a =
      if w.writable path then ⟨true, [], some (path, dotText alnum c a.prune)⟩ else ⟨false, [], none⟩) ∧
    (a.printGraph = false → a.writeGraph = none → a.graph = true → execute alnum lines iter encode w a =
      if w.writable (w.tmp ++ c!"/rez_context_graph.dot") then
        ⟨true, if w.dot then [] else dotText alnum c a.prune ++ c!"\n",
          some (w.tmp ++ c!"/rez_context_graph.dot", dotText alnum c a.prune)⟩
      else ⟨false, [], none⟩) := by
  unfold execute act
  rw [h, hr, hs, ht, hw]
  refine ⟨fun h1 => by rw [h1]; rfl, fun h1 path h2 => by rw [h1, h2]; rfl, fun h1 h2 h3 => by rw [h1, h2, h3]; rfl⟩

/-- C228 is false for `--diff`, `--fetch`, `--no-env` and `--dependency-graph`: they change nothing. -/
theorem C228_ignored_false (w : World) (a : Args) (d : Option Str) (f n g : Bool) :
    execute alnum lines iter encode w { a with diff := d, fetch := f, noEnv := n, dependencyGraph := g } =
      execute alnum lines iter encode w a := rfl

end

/-! ## A concrete context -/

/-- A package. -/
def ctxPackage (name version : Str) (requires tools : List Str) (commands : Option Str) : Pkg :=
  ⟨name, Version.parse version, requires, [], [], [], tools, commands⟩

/-- Three packages: two have the tool `python`, one has commands. -/
def ctxDemo : RCtx :=
  ⟨[], [⟨ctxPackage c!"python" c!"3.9" [] [c!"python", c!"pip"] (some c!"export PY=\"{root}/bin\"\nexport PATHEXT=.py"), none, c!"/p/python"⟩,
    ⟨ctxPackage c!"maya" c!"2024" [c!"python>=3", c!"qt-5"] [c!"maya", c!"python"] (some c!"env.setenv('MAYA', '1')"), none, c!"/p/maya"⟩,
    ⟨ctxPackage c!"qt" c!"5" [c!"python"] [] none, none, c!"/p/qt"⟩], false, c!"then"⟩

/-- A world in which `REZ_RXT_FILE` names a file with that context. -/
def ctxWorld : World :=
  { emptyWorld with
    files := fun p => if p = c!"/tmp/c.rxt" then some (some c!"demo") else none
    env := fun v => if v = c!"REZ_RXT_FILE" then some c!"/tmp/c.rxt" else none
    system := [(c!"PATH", c!"/bin"), (c!"HOME", c!"/home/u")]
    jsonNew := fun s => if s = c!"demo" then some ctxDemo else none }

/-- The demo, with this context. -/
def ctxWith (c : RCtx) : World := { ctxWorld with jsonNew := fun _ => some c }

/-- The command, with the maps in the order of insertion. -/
def ctxRun (w : World) (a : Args) : Result := execute (fun c => isAlpha c || isDigit c) (splitChar '\n') id (fun _ => []) w a

-- every hypothesis is met by the demo
example : ContextCommand.load ctxWorld plain.rxt = some ctxDemo := rfl
example : Provides ctxDemo.packages c!"python" c!"/p/maya/bin/python" :=
  ⟨[ctxDemo.packages[0]], ctxDemo.packages[1], [ctxDemo.packages[2]], rfl, by decide, by decide, rfl⟩
example : Interprets { plain with interpret := true } := by unfold Interprets; decide
example : ∀ s, ∀ l ∈ splitChar '\n' s, l <:+: s := by
  have key : ∀ s, ∃ p ps, splitChar '\n' s = p :: ps ∧ p <+: s ∧ ∀ l ∈ ps, l <:+: s := by
    intro s
    induction s with
    | nil => exact ⟨[], [], rfl, List.nil_prefix, by simp⟩
    | cons x s ih =>
      obtain ⟨p, ps, e, h1, h2⟩ := ih
      have hs : s <:+: x :: s := (List.suffix_cons x s).isInfix
      rw [splitChar, e]
      split
      · refine ⟨[], p :: ps, rfl, List.nil_prefix, fun l hl => ?_⟩
        rcases List.mem_cons.mp hl with rfl | hl
        · exact h1.isInfix.trans hs
        · exact (h2 l hl).trans hs
      · exact ⟨x :: p, ps, rfl, List.cons_prefix_cons.mpr ⟨rfl, h1⟩, fun l hl => (h2 l hl).trans hs⟩
  intro s l hl
  obtain ⟨p, ps, e, h1, h2⟩ := key s
  rw [e] at hl
  rcases List.mem_cons.mp hl with rfl | hl
  · exact h1.isInfix
  · exact h2 l hl
example : Exports (splitChar '\n') ctxDemo.packages[0] c!"PY" :=
  ⟨_, rfl, c!"export PY=\"{root}/bin\"", by decide, c!"\"{root}/bin\"", by decide, by decide, by decide⟩
example : (ctxRun ctxWorld { plain with which := some c!"python" }).out = c!"/p/maya/bin/python\n" := by decide +kernel
example : (ctxDemo.packages.map fun r => r.pkg.name).Nodup := by decide
example : Leading (fun c => isAlpha c || isDigit c) c!"python>=3" c!"python" := ⟨c!">=3", rfl, by decide, by decide⟩

/-- C228 is false of `--which` as a test: a program that is not there is a success too. -/
theorem C228_which_false : ctxRun ctxWorld { plain with which := some c!"nuke" } = ⟨true, [], none⟩ := by decide +kernel

/-- C228 is false of the location: `--show-uris` shows the root, which does not tell the variant. -/
theorem C228_uris_false : ∃ c c' : RCtx, c.packages.map Resolved.variant ≠ c'.packages.map Resolved.variant ∧
    ctxRun (ctxWith c) { plain with resolve := true, uris := true } =
      ctxRun (ctxWith c') { plain with resolve := true, uris := true } :=
  ⟨⟨[], [⟨bare c!"a", some 0, c!"/a"⟩], false, []⟩, ⟨[], [⟨bare c!"a", some 1, c!"/a"⟩], false, []⟩, by decide, by rfl⟩

/-- C228 is false of "set by packages": a variable of the calling process is printed as well, if its name is the beginning
of the name of one a package exports. -/
theorem C228_leak_false : (∀ r ∈ ctxDemo.packages, ¬ Exports (splitChar '\n') r c!"PATH") ∧
    (ctxRun ctxWorld { plain with interpret := true }).out =
      c!"export PATHEXT=\".py\"\nexport PY=\"/p/python/bin\"\nexport PATH=\"/bin\"\n" := by
  constructor
  · rintro r hr ⟨t, ht, l, hl, v, e, -⟩
    have key : ∀ r ∈ ctxDemo.packages, ∀ t ∈ r.pkg.commands, ∀ l ∈ splitChar '\n' t,
        c!"export PATH=".isPrefixOf (trim l) = false := by decide
    have := key r hr t ht l hl
    rw [e] at this
    simp [List.isPrefixOf] at this
  · decide +kernel

/-- C228 is false of commands in Python: `env.setenv` contributes nothing. -/
theorem C228_python_false (iter : List (Str × Str) → List (Str × Str)) (alnum : Char → Bool) (lines : Str → List Str)
    (encode : List (Str × Str) → Str) (c : RCtx) (w : World) (h : w.jsonNew = fun _ => some c) (hs : w.stdin = some [])
    (hc : ∀ r ∈ c.packages, ∀ t, r.pkg.commands = some t → ¬ c!"export " <:+: t) :
    (execute alnum lines iter encode w { plain with rxt := some c!"-", interpret := true }).out = [] := by
  have hl : ContextCommand.load w (some c!"-") = some c := by
    have : ContextCommand.load w (some c!"-") = w.stdin.bind (decode w) := rfl
    rw [this, hs, Option.bind_some]
    unfold decode
    rw [h]
  unfold execute
  rw [show ({ plain with rxt := some c!"-", interpret := true } : Args).rxt = some c!"-" from rfl, hl]
  show showCode lines iter encode w c none = []
  unfold showCode
  simp only [Option.getD_none]
  rw [List.filter_eq_nil_iff.mpr]
  · rfl
  · intro e _ hv
    obtain ⟨r, hr, t, ht, hi⟩ := (isVar_iff c e.1).mp hv
    exact hc r hr t ht (List.IsInfix.trans ⟨[], e.1, rfl⟩ hi)

/-- C228 is false of `export` and two blanks: the variable is in the environment of the context, but is not printed. -/
theorem C228_blanks_false : ∃ c : RCtx, mget (getEnviron (splitChar '\n') id ctxWorld.system c.packages) c!"A" = some c!"1" ∧
    (ctxRun (ctxWith c) { plain with interpret := true }).out = [] :=
  ⟨⟨[], [⟨ctxPackage c!"a" c!"1" [] [] (some c!"export  A=1"), none, c!"/a"⟩], false, []⟩, by decide +kernel, by decide +kernel⟩

/-- C228 is false of values with a backslash: the shell that reads the code sets another value. -/
theorem C228_escape_false : ∃ c : RCtx,
    mget (getEnviron (splitChar '\n') id ctxWorld.system c.packages) c!"S" = some c!"\\\\srv" ∧
    ∃ st', Spec.Shell.run Spec.Shell.bashStep ⟨fun _ => none, fun _ => none⟩
      (ctxRun (ctxWith c) { plain with interpret := true }).out = some st' ∧ st'.var c!"S" = some c!"\\srv" := by
  refine ⟨⟨[], [⟨ctxPackage c!"a" c!"1" [] [] (some c!"export S=\\\\srv"), none, c!"/a"⟩], false, []⟩, by decide +kernel, ?_⟩
  have e : (ctxRun (ctxWith ⟨[], [⟨ctxPackage c!"a" c!"1" [] [] (some c!"export S=\\\\srv"), none, c!"/a"⟩], false, []⟩)
    { plain with interpret := true }).out = c!"export S=\"\\\\srv\"\n" := by decide +kernel
  rw [e]
  exact ⟨_, rfl, rfl⟩

/-- C228 is false of requirements of the form name-version: the arrow is missing, although the package is there. -/
theorem C228_arrow_false : ctxDemo.packages.any (fun r => r.pkg.name == c!"qt") = true ∧
    (ctxRun ctxWorld { plain with printGraph := true }).out = dotHead ++
      c!"    python [label=\"python-3.9\"];\n    maya [label=\"maya-2024\"];\n    qt [label=\"qt-5\"];\n\n" ++
      c!"    maya -> python [label=\"python>=3\"];\n    qt -> python [label=\"python\"];\n}\n" := by
  constructor <;> decide +kernel

/-- C228 is false of names that differ in `-`, `.` and `_`: two packages are one node. -/
theorem C228_node_false : ∃ a b : Str, a ≠ b ∧ nodeId a = nodeId b := ⟨c!"a-b", c!"a_b", by decide, by decide⟩

/-- C228 is false of pruning: a package that needs another package whose name only begins alike is kept. -/
theorem C228_prune_false : ∃ r : Resolved, r.pkg.name = c!"tool" ∧ r.pkg.requires = [c!"pythonista"] ∧ Kept (some c!"python") r :=
  ⟨⟨ctxPackage c!"tool" c!"1" [c!"pythonista"] [] none, none, []⟩, rfl, rfl, by
    intro p hp
    cases hp
    exact Or.inr ⟨_, List.mem_cons_self, c!"ista", rfl⟩⟩

/-- C228 is false of the time: a file of the older kind is shown as created now. -/
theorem C228_created_false (now : Str) (o : Old) (c : RCtx) (h : convert now o = some c) : c.created = now := by
  unfold convert at h
  obtain ⟨rs, -, rfl⟩ := Option.map_eq_some_iff.mp h
  rfl

/-- C228 is false of a stale variable: a context file that is gone is not an error, and not reported. -/
theorem C228_stale_false : ctxRun { emptyWorld with env := fun v => if v = c!"REZ_RXT_FILE" then some c!"/gone" else none } plain =
    ctxRun emptyWorld plain := by rfl

/-- C228 is false of two packages of a name: the summary shows the version of the first for both. -/
theorem C228_twice_false : ∃ c : RCtx, c.packages.map (fun r => r.pkg.version.map Version.asStr) = [some c!"1", some c!"2"] ∧
    ∃ head, (ctxRun (ctxWith c) plain).out = head ++ c!"Packages:\n  a 1\n  a 1\n" :=
  ⟨⟨[], [⟨ctxPackage c!"a" c!"1" [] [] none, none, []⟩, ⟨ctxPackage c!"a" c!"2" [] [] none, none, []⟩], false, []⟩, by decide +kernel,
    c!"Context Summary:\n  Packages: 2\n  Status: SUCCESS\n  Created: \n\n", by decide +kernel⟩

end Rez.Props
