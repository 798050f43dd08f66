import Verif.Spec.EnvCommand
import Verif.Props.Shell
import Verif.Props.Context
/-!
# C163–C166: the env command
-/
namespace Rez.Props
open Rez Rez.Rex Rez.RexShell Rez.EnvCmd Rez.EnvCmd.Spec

namespace EnvCmdLemmas

theorem read_quoted (a w s : Str) :
    shRead (.quoted w) (replaceChar '\'' c!"'\\''" a ++ '\'' :: s) = shRead (.word (w ++ a)) s := by
  induction a generalizing w with
  | nil => simp [replaceChar, shRead]
  | cons c a ih =>
    have hcons : replaceChar '\'' c!"'\\''" (c :: a) = (if c = '\'' then c!"'\\''" else [c]) ++ replaceChar '\'' c!"'\\''" a := by
      simp [replaceChar]
    rw [hcons]
    by_cases h : c = '\''
    · subst h
      have := ih (w ++ ['\''])
      simpa [shRead, enter] using this
    · have := ih (w ++ [c])
      simpa [shRead, h] using this

theorem read_arg (a s : Str) : shRead .between (quoteArg a ++ s) = shRead (.word a) s := by
  unfold quoteArg
  have := read_quoted a [] s
  simpa [shRead, enter] using this

theorem read_args (args : List Str) : shRead .between (quoteAll args) = some args := by
  unfold quoteAll
  induction args with
  | nil => rfl
  | cons a args ih =>
    cases args with
    | nil =>
      have := read_arg a []
      simpa [joinWith, shRead] using this
    | cons b args =>
      rw [List.map_cons, List.map_cons, joinWith, List.append_assoc, read_arg, ← List.map_cons]
      show shRead (.word a) (' ' :: joinWith c!" " ((b :: args).map quoteArg)) = _
      rw [shRead, if_pos rfl, ih]
      rfl

/-- Words before a blank. -/
theorem read_blank (m : Mode) (s t : Str) (ws : List Str) (h : shRead m s = some ws) :
    shRead m (s ++ ' ' :: t) = (shRead .between t).map (ws ++ ·) := by
  induction s generalizing m ws with
  | nil =>
    cases m with
    | between => simp [shRead] at h; subst h; simp [shRead]
    | word w => simp [shRead] at h; subst h; simp [shRead]
    | quoted => simp [shRead] at h
    | escaped => simp [shRead] at h
    | quotedEscaped => simp [shRead] at h
  | cons c s ih =>
    rw [List.cons_append]
    cases m with
    | between =>
      rw [shRead] at h ⊢
      split at h
      · rename_i hc; rw [if_pos hc]; exact ih _ _ h
      · rename_i hc
        rw [if_neg hc]
        cases he : enter [] c with
        | none => rw [he] at h; cases h
        | some m => rw [he] at h; exact ih _ _ h
    | word w =>
      rw [shRead] at h ⊢
      split at h
      · rename_i hc
        rw [if_pos hc]
        obtain ⟨vs, hv, rfl⟩ := Option.map_eq_some_iff.1 h
        rw [ih _ _ hv]
        cases shRead .between t <;> simp
      · rename_i hc
        rw [if_neg hc]
        cases he : enter w c with
        | none => rw [he] at h; cases h
        | some m => rw [he] at h; exact ih _ _ h
    | quoted w =>
      rw [shRead] at h ⊢
      split at h
      · rename_i hc; rw [if_pos hc]; exact ih _ _ h
      · rename_i hc; rw [if_neg hc]; exact ih _ _ h
    | escaped w =>
      rw [shRead] at h ⊢
      split at h
      · cases h
      · rename_i hc; rw [if_neg hc]; exact ih _ _ h
    | quotedEscaped w => simp [shRead] at h

theorem fishRead_quoted (a w s : Str) (h : '\\' ∉ a) :
    fishRead (.quoted w) (replaceChar '\'' c!"'\\''" a ++ '\'' :: s) = fishRead (.word (w ++ a)) s := by
  induction a generalizing w with
  | nil => simp [replaceChar, fishRead]
  | cons c a ih =>
    have hcons : replaceChar '\'' c!"'\\''" (c :: a) = (if c = '\'' then c!"'\\''" else [c]) ++ replaceChar '\'' c!"'\\''" a := by
      simp [replaceChar]
    simp only [List.mem_cons, not_or] at h
    rw [hcons]
    by_cases h' : c = '\''
    · subst h'
      have := ih (w ++ ['\'']) h.2
      simpa [fishRead, enter] using this
    · have := ih (w ++ [c]) h.2
      simpa [fishRead, h', Ne.symm h.1] using this

theorem fishRead_args (args : List Str) (h : ∀ a ∈ args, '\\' ∉ a) : fishRead .between (quoteAll args) = some args := by
  have harg : ∀ a s, '\\' ∉ a → fishRead .between (quoteArg a ++ s) = fishRead (.word a) s := by
    intro a s ha
    unfold quoteArg
    have := fishRead_quoted a [] s ha
    simpa [fishRead, enter] using this
  unfold quoteAll
  induction args with
  | nil => rfl
  | cons a args ih =>
    have ih := ih fun x hx => h x (List.mem_cons_of_mem _ hx)
    cases args with
    | nil =>
      have := harg a [] (h a List.mem_cons_self)
      simpa [joinWith, fishRead] using this
    | cons b args =>
      rw [List.map_cons, List.map_cons, joinWith, List.append_assoc, harg _ _ (h a List.mem_cons_self), ← List.map_cons]
      show fishRead (.word a) (' ' :: joinWith c!" " ((b :: args).map quoteArg)) = _
      rw [fishRead, if_pos rfl, ih]
      rfl

theorem quoteAll_nil_iff (args : List Str) : quoteAll args = [] ↔ args = [] := by
  cases args with
  | nil => simp [quoteAll, joinWith]
  | cons a args =>
    cases args with
    | nil => simp [quoteAll, joinWith, quoteArg]
    | cons b args => simp [quoteAll, joinWith, quoteArg]

theorem replace_skip (d : Char) (p by_ pre s : Str) (h : d ∉ pre) :
    replaceAll (d :: p) by_ (pre ++ s) = pre ++ replaceAll (d :: p) by_ s := by
  induction pre with
  | nil => rfl
  | cons c pre ih =>
    simp only [List.mem_cons, not_or] at h
    have hp : (d :: p).isPrefixOf (c :: (pre ++ s)) = false := by simp [List.isPrefixOf, h.1]
    have ih := ih h.2
    unfold replaceAll at ih ⊢
    rw [List.cons_append, replaceAux, if_neg (by rw [hp]; simp), ih]
    rfl

theorem replace_absent (d : Char) (p by_ s : Str) (h : d ∉ s) : replaceAll (d :: p) by_ s = s := by
  have := replace_skip d p by_ s [] h
  simpa [replaceAll, replaceAux] using this

theorem contains_of_mid (pre pat post : Str) : containsStr (pre ++ pat ++ post) pat = true := by
  rw [SearchLemmas.containsStr_spec]
  exact ⟨pre, post, rfl⟩

theorem contains_head {d : Char} {p s : Str} (h : d ∉ s) : containsStr s (d :: p) = false := by
  cases hc : containsStr s (d :: p) with
  | false => rfl
  | true =>
    obtain ⟨a, b, rfl⟩ := (SearchLemmas.containsStr_spec s (d :: p)).1 hc
    exact absurd (by simp) h

theorem withVars_get (vars : List (Str × Str)) (hn : (mkeys vars).Nodup) (parent : List (Str × Str)) (k : Str) :
    mget (withVars parent vars) k = (mget vars k).or (mget parent k) := by
  unfold withVars
  induction vars generalizing parent with
  | nil => simp [mget]
  | cons x l ih =>
    have hn' : x.1 ∉ mkeys l ∧ (mkeys l).Nodup := List.nodup_cons.mp hn
    rw [List.foldl_cons, ih hn'.2]
    by_cases hk : k = x.1
    · subst hk
      rw [(mget_none_iff l x.1).mpr hn'.1, mget_mset]
      simp [mget]
    · rw [mget_mset, if_neg hk]
      simp [mget, Ne.symm hk]

theorem prepend_spec {same : Str → Str → Bool} {vars vars' : List (Str × Str)} {dir : Str} (h : prependDir same vars dir = some vars')
    (hn : (mkeys vars).Nodup) :
    (mkeys vars').Nodup ∧
    ∀ k, mget vars' k = if k = c!"PATH" then some (pathWith same (mget vars c!"PATH") dir) else mget vars k := by
  unfold prependDir at h
  extract_lets paths0 paths at h
  obtain ⟨all, hq⟩ : ∃ all, paths = all := ⟨_, rfl⟩
  have hp : (match mget vars c!"PATH" with
    | some p => splitChar ':' p
    | none => []) = paths0 := rfl
  have hq : (if paths0.any fun p => same p dir then paths0 else dir :: paths0) = all := hq
  have hall : paths = all := hq
  rw [hall] at h
  clear hall
  clear_value paths0
  cases hcol : all.any fun p => p.contains ':' with
  | true => rw [hcol] at h; cases h
  | false =>
    rw [hcol] at h
    have h : some (mset vars c!"PATH" (joinWith c!":" all)) = some vars' := h
    rw [Option.some.injEq] at h
    subst h
    refine ⟨nodup_mset hn _ _, fun k => ?_⟩
    rw [mget_mset]
    by_cases hk : k = c!"PATH"
    · rw [if_pos hk, if_pos hk]
      congr 1
      subst hq
      unfold pathWith
      cases hm : mget vars c!"PATH" with
      | none => rw [hm] at hp; subst hp; simp [joinWith]
      | some p =>
        rw [hm] at hp
        subst hp
        have e : joinWith c!":" (splitChar ':' p) = p := ContextLemmas.join_split ':' p
        dsimp only
        split
        · exact e
        · cases hs : splitChar ':' p with
          | nil => exact absurd hs (splitChar_ne_nil ':' p)
          | cons x xs => rw [joinWith, ← hs, e]
    · rw [if_neg hk, if_neg hk]

/-- The variables of a context. -/
theorem environment_spec {w : World} {c : Ctx} {rxt : Option Str} {e : Rex.Env} (h : environment w c rxt = some e) :
    ∃ e0, w.rex c = some e0 ∧ e0.stopped = false ∧ e.aliases = e0.aliases ∧
      ((mkeys e0.vars).Nodup → (mkeys e.vars).Nodup ∧ ∀ k, mget e.vars k =
        if k = c!"REZ_RXT_FILE" ∧ rxt.isSome then rxt
        else if k = c!"REZ_USED_PACKAGES_NAMES" ∨ k = c!"REZ_USED_RESOLVE" then some (joinWith c!" " (c.packages.map Pkg.shown))
        else if k = c!"REZ_USED_REQUEST" then some (joinWith c!" " c.requests)
        else if k = c!"PATH" ∧ w.exeDir.isSome then w.exeDir.map (pathWith w.samePath (mget e0.vars c!"PATH"))
        else mget e0.vars k) := by
  unfold environment at h
  cases hr : w.rex c with
  | none => rw [hr] at h; cases h
  | some e0 =>
    rw [hr] at h
    dsimp only at h
    split at h
    · cases h
    · rename_i hst
      split at h
      · cases h
      · rename_i vars hv
        simp only [Option.some.injEq] at h
        subst h
        refine ⟨e0, rfl, by simpa using hst, rfl, fun hn => ?_⟩
        have hvars : (mkeys vars).Nodup ∧ ∀ k, mget vars k = if k = c!"PATH" ∧ w.exeDir.isSome then
            w.exeDir.map (pathWith w.samePath (mget e0.vars c!"PATH")) else mget e0.vars k := by
          cases hx : w.exeDir with
          | none => rw [hx] at hv; simp at hv; subst hv; exact ⟨hn, fun k => by simp⟩
          | some d =>
            rw [hx] at hv
            obtain ⟨h1, h2⟩ := prepend_spec hv hn
            exact ⟨h1, fun k => by rw [h2]; simp⟩
        have hall : ∀ k, mget (mset (mset (mset vars c!"REZ_USED_REQUEST" (joinWith c!" " c.requests)) c!"REZ_USED_RESOLVE"
            (joinWith c!" " (c.packages.map Pkg.shown))) c!"REZ_USED_PACKAGES_NAMES" (joinWith c!" " (c.packages.map Pkg.shown))) k =
          if k = c!"REZ_USED_PACKAGES_NAMES" ∨ k = c!"REZ_USED_RESOLVE" then some (joinWith c!" " (c.packages.map Pkg.shown))
          else if k = c!"REZ_USED_REQUEST" then some (joinWith c!" " c.requests)
          else if k = c!"PATH" ∧ w.exeDir.isSome then w.exeDir.map (pathWith w.samePath (mget e0.vars c!"PATH"))
          else mget e0.vars k := by
          intro k
          rw [mget_mset, mget_mset, mget_mset, hvars.2]
          by_cases h1 : k = c!"REZ_USED_PACKAGES_NAMES"
          · rw [if_pos h1, if_pos (Or.inl h1)]
          · rw [if_neg h1]
            by_cases h2 : k = c!"REZ_USED_RESOLVE"
            · rw [if_pos h2, if_pos (Or.inr h2)]
            · rw [if_neg h2, if_neg (not_or.2 ⟨h1, h2⟩)]
        cases rxt with
        | none =>
          refine ⟨nodup_mset (nodup_mset (nodup_mset hvars.1 _ _) _ _) _ _, fun k => ?_⟩
          dsimp only
          rw [hall k]
          simp
        | some p =>
          refine ⟨nodup_mset (nodup_mset (nodup_mset (nodup_mset hvars.1 _ _) _ _) _ _) _ _, fun k => ?_⟩
          dsimp only
          rw [mget_mset]
          by_cases h1 : k = c!"REZ_RXT_FILE"
          · rw [if_pos h1, if_pos ⟨h1, rfl⟩]
          · rw [if_neg h1, hall k, if_neg (show ¬ (k = c!"REZ_RXT_FILE" ∧ (some p).isSome = true) from fun h => h1 h.1)]

/-- The context of a run that gets as far as one. -/
structure Came (w : World) (a : Args) (extra : List Str) (e : Rex.Env) (c : Ctx) : Prop where
  requests : a.packages.mapM w.parse = some c.requests
  resolved : w.resolve c.requests = some c.packages
  env : environment w c (some w.contextPath) = some e
  both : extra = [] ∨ a.command = none

/-- The command of a run. -/
def cmdText (a : Args) (extra : List Str) (e : Rex.Env) : Option Str :=
  match a.command with
  | some t => some t
  | none => if extra.isEmpty then none else some (commandOf e.aliases extra)

theorem inContext_eq (w : World) (a : Args) (extra : List Str) (c : Ctx) :
    inContext w a extra c = match environment w c (some w.contextPath) with
      | none => (.failed, [])
      | some e => launch w a c e (cmdText a extra e) := by
  unfold inContext cmdText
  cases environment w c (some w.contextPath) with
  | none => rfl
  | some e =>
    cases a.command with
    | some t => rfl
    | none => cases extra <;> rfl

theorem run_start {w : World} {a : Args} {extra : List Str} {act : Act} (hs : isStart act = true) (h : act ∈ (run w a extra).2) :
    ∃ e c, Came w a extra e c ∧ act ∈ (launch w a c e (cmdText a extra e)).2 ∧
      run w a extra = ((launch w a c e (cmdText a extra e)).1, [.writeContext w.contextPath] ++ (launch w a c e (cmdText a extra e)).2 ++
        (if (launch w a c e (cmdText a extra e)).1 = .failed then [.removeContext w.contextPath] else [])) := by
  unfold run at h ⊢
  split at h
  · cases h
  · rename_i hb
    rw [if_neg hb]
    cases hp : a.packages.mapM w.parse with
    | none => rw [hp] at h; cases h
    | some requests =>
      rw [hp] at h
      dsimp only at h ⊢
      split at h
      · rw [List.mem_singleton.1 h] at hs; cases hs
      rename_i h1
      rw [if_neg h1]
      cases hr : w.resolve requests with
      | none => rw [hr] at h; cases h
      | some packages =>
        rw [hr] at h
        dsimp only at h ⊢
        split at h
        · rw [List.mem_singleton.1 h] at hs; cases hs
        rename_i h2
        rw [if_neg h2]
        split at h
        · split at h
          · cases h
          · rw [List.mem_singleton.1 h] at hs; cases hs
        rename_i h3
        rw [if_neg h3]
        split at h
        · split at h
          · cases h
          · rw [List.mem_singleton.1 h] at hs; cases hs
        rename_i h4
        rw [if_neg h4]
        split at h
        · rw [List.mem_singleton.1 h] at hs; cases hs
        rename_i h5
        rw [if_neg h5]
        rw [inContext_eq] at h ⊢
        cases he : environment w ⟨requests, packages⟩ (some w.contextPath) with
        | none =>
          rw [he] at h
          simp only [List.append_nil, List.cons_append, List.nil_append, List.mem_cons, List.not_mem_nil, or_false] at h
          rcases h with rfl | rfl <;> cases hs
        | some e =>
          rw [he] at h
          refine ⟨e, ⟨requests, packages⟩, ⟨hp, hr, he, ?_⟩, ?_⟩
          · simp only [Bool.and_eq_true, not_and, Bool.not_eq_true'] at hb
            cases extra with
            | nil => exact Or.inl rfl
            | cons x xs =>
              right
              have := hb (by rfl)
              simpa using this
          · cases hl : launch w a ⟨requests, packages⟩ e (cmdText a extra e) with
            | mk r log =>
              simp only at h ⊢
              rw [hl] at h ⊢
              cases r with
              | failed =>
                simp only [List.mem_append, List.mem_singleton] at h
                refine ⟨?_, by simp⟩
                rcases h with (rfl | h) | rfl
                · cases hs
                · exact h
                · cases hs
              | done =>
                simp only [List.mem_append, List.mem_singleton] at h
                refine ⟨?_, by simp⟩
                rcases h with rfl | h
                · cases hs
                · exact h
              | exit k =>
                simp only [List.mem_append, List.mem_singleton] at h
                refine ⟨?_, by simp⟩
                rcases h with rfl | h
                · cases hs
                · exact h

/-- The heading that a run prints. -/
def headingOf (a : Args) (c : Ctx) (command : Option Str) : List Act :=
  if a.quiet then []
  else [Act.print (summary c (match command with
    | some t => c!"Executing command in rez environment: " ++ t
    | none => c!"You are now in a rez-configured environment."))]

theorem heading_prints (a : Args) (c : Ctx) (command : Option Str) : ∀ x ∈ headingOf a c command, isPrint x = true := by
  intro x hx
  unfold headingOf at hx
  split at hx
  · cases hx
  · rw [List.mem_singleton.1 hx]; rfl

/-- What starting a program does. -/
inductive Launched (w : World) (a : Args) (c : Ctx) (e : Rex.Env) (command : Option Str) : End × List Act → Prop where
  | before (h : parseShell (a.shell.getD c!"bash") = none ∨ w.tempDir = none) :
      Launched w a c e command (.failed, headingOf a c command)
  | without (dir path text : Str) (h : w.tempDir = some dir) (hw : w.scriptWritten = false ∨ w.status = none) :
      Launched w a c e command (.failed, headingOf a c command ++ [.makeDir dir, .writeScript path text, .removeDir dir])
  | started (s : Shell) (dir : Str) (code : Option Int) (h : parseShell (a.shell.getD c!"bash") = some s)
      (hd : w.tempDir = some dir) (hc : w.status = some code) :
      Launched w a c e command (.exit (code.getD (if command.isSome then 1 else 0)),
        headingOf a c command ++ [.makeDir dir,
          .writeScript (dir ++ c!"/" ++ scriptName s)
            (scriptText { e with vars := mset e.vars c!"REZ_CONTEXT_FILE" (dir ++ c!"/" ++ scriptName s) } s command),
          .start (a.shell.getD c!"bash")
            (match command with
              | some _ => commandArgs s (dir ++ c!"/" ++ scriptName s)
              | none => shellArgs s (dir ++ c!"/" ++ scriptName s))
            (withVars (withVars w.parent (if s = .zsh ∧ command = none then [(c!"ZDOTDIR", dir)] else []))
              (mset e.vars c!"REZ_CONTEXT_FILE" (dir ++ c!"/" ++ scriptName s))),
          .removeDir dir] ++ (match mget e.vars c!"REZ_RXT_FILE" with
            | some p => [Act.removeContext p]
            | none => []))

theorem launched (w : World) (a : Args) (c : Ctx) (e : Rex.Env) (command : Option Str) :
    Launched w a c e command (launch w a c e command) := by
  unfold launch
  dsimp only
  cases hs : parseShell (a.shell.getD c!"bash") with
  | none => exact .before (Or.inl hs)
  | some s =>
    dsimp only
    cases hd : w.tempDir with
    | none => exact .before (Or.inr hd)
    | some dir =>
      dsimp only
      split
      · rename_i hw
        have := Launched.without (a := a) (c := c) (e := e) (command := command) dir (dir ++ c!"/" ++ scriptName s)
          (scriptText { e with vars := mset e.vars c!"REZ_CONTEXT_FILE" (dir ++ c!"/" ++ scriptName s) } s command) hd
          (Or.inl (by simpa using hw))
        rwa [show ∀ l : List Act, ∀ x y z, l ++ [x, y, z] = l ++ [x, y] ++ [z] from fun l x y z => by simp] at this
      · cases hc : w.status with
        | none =>
          have := Launched.without (a := a) (c := c) (e := e) (command := command) dir (dir ++ c!"/" ++ scriptName s)
            (scriptText { e with vars := mset e.vars c!"REZ_CONTEXT_FILE" (dir ++ c!"/" ++ scriptName s) } s command) hd
            (Or.inr hc)
          rwa [show ∀ l : List Act, ∀ x y z, l ++ [x, y, z] = l ++ [x, y] ++ [z] from fun l x y z => by simp] at this
        | some code =>
          have := Launched.started (a := a) (c := c) (e := e) (command := command) s dir code hs hd hc
          have hg : mget (mset e.vars c!"REZ_CONTEXT_FILE" (dir ++ c!"/" ++ scriptName s)) c!"REZ_RXT_FILE" =
              mget e.vars c!"REZ_RXT_FILE" := by
            rw [mget_mset, if_neg (by decide)]
          rw [hg]
          rwa [show ∀ l : List Act, ∀ x y z u, l ++ [x, y, z, u] = l ++ [x, y] ++ [z] ++ [u] from fun l x y z u => by simp] at this

theorem left_prints (l : List Str) (acts rest : List Act) (h : ∀ x ∈ acts, isPrint x = true) :
    leftAfter l (acts ++ rest) = leftAfter l rest := by
  induction acts with
  | nil => rfl
  | cons x acts ih =>
    have hx := h x List.mem_cons_self
    have ih := ih fun y hy => h y (List.mem_cons_of_mem _ hy)
    cases x with
    | print l => exact ih
    | _ => cases hx

end EnvCmdLemmas
open EnvCmdLemmas

/-! ## C163: arguments -/

/-- C163: the arguments after `--` reach the command as they are, whatever characters they have: bash and zsh read the
command line that is made of them as exactly these words. -/
theorem C163_words (args : List Str) : words (quoteAll args) = some args := read_args args

/-- C163: fish does so too for arguments without a backslash. -/
theorem C163_fish_partial (args : List Str) (h : ∀ a ∈ args, '\\' ∉ a) : fishWords (quoteAll args) = some args :=
  fishRead_args args h

/-- C163 is false of fish: it does not read an argument that ends with a backslash. -/
theorem C163_fish_false : ¬ ∀ args : List Str, fishWords (quoteAll args) = some args := by
  intro h
  have := h [c!"echo", c!"a\\"]
  revert this
  decide +kernel

example : words (quoteAll [c!"echo", c!"it's $HOME", c!"", c!"a\\"]) = some [c!"echo", c!"it's $HOME", c!"", c!"a\\"] ∧
    fishWords (quoteAll [c!"echo", c!"it's $HOME"]) = some [c!"echo", c!"it's $HOME"] ∧
    fishWords (quoteAll [c!"echo", c!"a\\\\b"]) = some [c!"echo", c!"a\\b"] :=
  ⟨by decide +kernel, by decide +kernel, by decide +kernel⟩

/-- C163: an alias that does not say where its arguments go gets them at its end. -/
theorem C163_alias (text : Str) (ws args : List Str) (h : words text = some ws) (hd : '$' ∉ text) :
    words (expandAlias text args) = some (ws ++ args) := by
  unfold expandAlias
  rw [contains_head hd, contains_head hd]
  simp only [Bool.false_eq_true, if_false]
  cases args with
  | nil => simpa [quoteAll, joinWith] using h
  | cons a args =>
    rw [if_neg (by rw [List.isEmpty_iff, quoteAll_nil_iff]; simp), List.append_assoc]
    show shRead .between (text ++ ' ' :: quoteAll (a :: args)) = _
    rw [read_blank _ _ _ _ h, read_args]
    rfl

/-- C163: an alias that says `$*` or `$@` as a word of its own gets them there. -/
theorem C163_alias_star (before after : Str) (ws vs args : List Str) (star : Str) (hs : star = c!"$*" ∨ star = c!"$@")
    (h1 : words before = some ws) (h2 : words after = some vs) (hb : '$' ∉ before) (ha : '$' ∉ after) :
    words (expandAlias (before ++ c!" " ++ star ++ c!" " ++ after) args) = some (ws ++ args ++ vs) := by
  have key : expandAlias (before ++ c!" " ++ star ++ c!" " ++ after) args =
      before ++ ' ' :: (quoteAll args ++ ' ' :: after) := by
    have hb' : '$' ∉ before ++ c!" " := by simp [hb]
    have ha' : '$' ∉ c!" " ++ after := by simp [ha]
    have hrep : ∀ x : Str, (x = c!"$*" ∨ x = c!"$@") → replaceAll x (quoteAll args) ((before ++ c!" ") ++ (x ++ (c!" " ++ after))) =
        before ++ ' ' :: (quoteAll args ++ ' ' :: after) := by
      intro x hx
      obtain ⟨p, rfl⟩ : ∃ p, x = '$' :: p := by rcases hx with rfl | rfl <;> exact ⟨_, rfl⟩
      rw [replace_skip _ _ _ _ _ hb', ContextLemmas.replaceAux_append_hit (by simp), replace_absent _ _ _ _ ha']
      simp
    unfold expandAlias
    rcases hs with rfl | rfl
    · rw [if_pos (by
        have := contains_of_mid (before ++ c!" ") c!"$*" (c!" " ++ after)
        simpa only [List.append_assoc] using this)]
      have := hrep c!"$*" (Or.inl rfl)
      simpa only [List.append_assoc] using this
    · have hno : containsStr (before ++ c!" " ++ c!"$@" ++ c!" " ++ after) c!"$*" = false := by
        cases hc : containsStr (before ++ c!" " ++ c!"$@" ++ c!" " ++ after) c!"$*" with
        | false => rfl
        | true =>
          exfalso
          obtain ⟨x, y, he⟩ := (SearchLemmas.containsStr_spec _ _).1 hc
          have e1 : (before ++ c!" ") ++ '$' :: ('@' :: (c!" " ++ after)) = x ++ '$' :: ('*' :: y) := by
            simpa only [List.append_assoc, List.cons_append, List.nil_append] using he
          have hx : '$' ∉ x := by
            intro hm
            obtain ⟨x1, x2, rfl⟩ := List.append_of_mem hm
            have hcount := congrArg (List.count '$') e1
            have h0 : List.count '$' before = 0 := List.count_eq_zero.2 hb
            have h0' : List.count '$' after = 0 := List.count_eq_zero.2 ha
            simp [List.count_append, h0, h0'] at hcount
            omega
          have hsplit : ∀ (u v s t : Str), '$' ∉ u → '$' ∉ v → u ++ '$' :: s = v ++ '$' :: t → s = t := by
            intro u
            induction u with
            | nil =>
              intro v s t _ hv e
              cases v with
              | nil => simpa using e
              | cons c v => simp at e; exact absurd e.1 (by intro h; exact hv (h ▸ List.mem_cons_self))
            | cons c u ih =>
              intro v s t hu hv e
              cases v with
              | nil => simp at e; exact absurd e.1.symm (by intro h; exact hu (h ▸ List.mem_cons_self))
              | cons c' v =>
                simp at e hu hv
                exact ih v s t hu.2 hv.2 e.2
          have := hsplit _ _ _ _ hb' hx e1
          simp at this
      rw [if_neg (by rw [hno]; simp), if_pos (by
        have := contains_of_mid (before ++ c!" ") c!"$@" (c!" " ++ after)
        simpa only [List.append_assoc] using this)]
      have := hrep c!"$@" (Or.inr rfl)
      simpa only [List.append_assoc] using this
  rw [key]
  show shRead .between _ = _
  rw [read_blank _ _ _ _ h1, read_blank _ _ _ _ (read_args args)]
  have h2 : shRead .between after = some vs := h2
  rw [h2]
  simp

example : expandAlias c!"ls -l" [c!"my dir"] = c!"ls -l 'my dir'" ∧ words c!"ls -l" = some [c!"ls", c!"-l"] ∧
    expandAlias c!"cp $* dest" [c!"a", c!"b"] = c!"cp 'a' 'b' dest" ∧ words c!"cp" = some [c!"cp"] ∧
    words c!"dest" = some [c!"dest"] := ⟨by decide +kernel, by decide, by decide +kernel, by decide, by decide⟩

/-- C163: the script of a run with arguments after `--` ends with a line that bash and zsh read as these arguments, unless
the first is an alias. -/
theorem C163_script (w : World) (a : Args) (extra : List Str) (path text : Str) (h : .writeScript path text ∈ (run w a extra).2)
    (hstart : ∃ p args vars, .start p args vars ∈ (run w a extra).2)
    (hx : extra ≠ []) (hs : a.shell = none ∨ a.shell = some c!"bash" ∨ a.shell = some c!"zsh")
    (hal : ∀ e c, w.rex c = some e → mget e.aliases (extra.headD []) = none) :
    ∃ head line, text = head ++ c!"\n" ++ line ∧ words line = some extra := by
  obtain ⟨p, args, vars, hst⟩ := hstart
  obtain ⟨e, c, hc, _, hrun⟩ := run_start (act := .start p args vars) rfl hst
  obtain ⟨e0, he0, _, hea, _⟩ := environment_spec hc.env
  have hcmd : a.command = none := hc.both.resolve_left hx
  have hct : cmdText a extra e = some (quoteAll extra) := by
    unfold cmdText
    rw [hcmd]
    cases hex : extra with
    | nil => exact absurd hex hx
    | cons f r =>
      have hg := hal e0 c he0
      rw [hex] at hg
      simp only [List.isEmpty_cons, Bool.false_eq_true, if_false, commandOf]
      rw [hea]
      simp only [List.headD_cons] at hg
      rw [hg]
  rw [hrun, hct] at h
  have hl := launched w a c e (some (quoteAll extra))
  generalize launch w a c e (some (quoteAll extra)) = res at h hl
  have hprint : Act.writeScript path text ∉ headingOf a c (some (quoteAll extra)) := by
    intro hm
    have := heading_prints _ _ _ _ hm
    cases this
  have hend : ∀ b : Prop, ∀ [Decidable b], Act.writeScript path text ∉ (if b then [Act.removeContext w.contextPath] else []) := by
    intro b _ hm
    split at hm
    · simp at hm
    · cases hm
  simp only [List.mem_append, List.mem_singleton] at h
  rcases h with (h | h) | h
  · cases h
  · cases hl with
    | before => exact absurd h hprint
    | without dir path' text' hd hw =>
      exfalso
      rw [hrun, hct] at hst
      have hl := launched w a c e (some (quoteAll extra))
      generalize hres : launch w a c e (some (quoteAll extra)) = res at hst hl
      cases hl with
      | before => simp [headingOf] at hst
      | without => simp [headingOf] at hst
      | started s dir' code hs' hd' hc' =>
        have : w.scriptWritten = false := by
          rcases hw with hw | hw
          · exact hw
          · rw [hw] at hc'; cases hc'
        unfold launch at hres
        dsimp only at hres
        rw [hs', hd'] at hres
        dsimp only at hres
        rw [if_pos (by rw [this]; rfl)] at hres
        cases hres
    | started s dir code hs' hd hc' =>
      have hsh : s = .bash ∨ s = .zsh := by
        rcases hs with hs | hs | hs <;> rw [hs] at hs'
        · left; exact (Option.some.inj hs').symm
        · left; exact (Option.some.inj hs').symm
        · right; exact (Option.some.inj hs').symm
      have hm : Act.writeScript path text ∈ [Act.makeDir dir,
          Act.writeScript (dir ++ c!"/" ++ scriptName s)
            (scriptText { e with vars := mset e.vars c!"REZ_CONTEXT_FILE" (dir ++ c!"/" ++ scriptName s) } s (some (quoteAll extra)))] := by
        simp only [List.mem_append] at h
        rcases h with (h | h) | h
        · exact absurd h hprint
        · simpa using h
        · split at h <;> simp at h
      simp only [List.mem_cons, Act.writeScript.injEq, List.not_mem_nil, or_false, reduceCtorEq, false_or] at hm
      refine ⟨script { e with vars := mset e.vars c!"REZ_CONTEXT_FILE" (dir ++ c!"/" ++ scriptName s) } s, quoteAll extra, ?_, C163_words extra⟩
      rw [hm.2, scriptText, if_neg (by rcases hsh with rfl | rfl <;> decide)]
  · exact absurd h (hend _)

/-! ## C164: the variables -/

/-- C164: the variables of the started program.  Those of the environment come before those of the running program. -/
theorem C164_vars (w : World) (a : Args) (extra : List Str) (p : Str) (args : List Str) (vars : List (Str × Str))
    (h : .start p args vars ∈ (run w a extra).2) (hn : ∀ c e, w.rex c = some e → (mkeys e.vars).Nodup) :
    ∃ requests packages e dir s, a.packages.mapM w.parse = some requests ∧ w.resolve requests = some packages ∧
      w.rex ⟨requests, packages⟩ = some e ∧ w.tempDir = some dir ∧ parseShell p = some s ∧ p = a.shell.getD c!"bash" ∧
      ∀ k, mget vars k =
        if k = c!"REZ_CONTEXT_FILE" then some (dir ++ c!"/" ++ scriptName s)
        else if k = c!"REZ_RXT_FILE" then some w.contextPath
        else if k = c!"REZ_USED_PACKAGES_NAMES" ∨ k = c!"REZ_USED_RESOLVE" then some (joinWith c!" " (packages.map Pkg.shown))
        else if k = c!"REZ_USED_REQUEST" then some (joinWith c!" " requests)
        else if k = c!"PATH" ∧ w.exeDir.isSome then w.exeDir.map (pathWith w.samePath (mget e.vars c!"PATH"))
        else if k = c!"ZDOTDIR" ∧ s = .zsh ∧ a.command = none ∧ extra = [] then (mget e.vars k).or (some dir)
        else (mget e.vars k).or (mget w.parent k) := by
  obtain ⟨e, c, hc, hm, -⟩ := run_start (act := .start p args vars) rfl h
  obtain ⟨e0, he0, _, hea, hev⟩ := environment_spec hc.env
  obtain ⟨hnd, hget⟩ := hev (hn c e0 he0)
  have hl := launched w a c e (cmdText a extra e)
  have hcmd : cmdText a extra e = none ↔ a.command = none ∧ extra = [] := by
    unfold cmdText
    cases a.command with
    | some t => simp
    | none => cases extra <;> simp
  generalize launch w a c e (cmdText a extra e) = res at hm hl
  cases hl with
  | before => have := heading_prints _ _ _ _ hm; cases this
  | without =>
    simp only [List.mem_append] at hm
    rcases hm with hm | hm
    · have := heading_prints _ _ _ _ hm; cases this
    · simp at hm
  | started s dir code hs hd hst =>
    refine ⟨c.requests, c.packages, e0, dir, s, hc.requests, hc.resolved, he0, hd, ?_⟩
    simp only [List.mem_append] at hm
    have hm : Act.start p args vars ∈ [Act.start (a.shell.getD c!"bash")
            (match cmdText a extra e with
              | some _ => commandArgs s (dir ++ c!"/" ++ scriptName s)
              | none => shellArgs s (dir ++ c!"/" ++ scriptName s))
            (withVars (withVars w.parent (if s = .zsh ∧ cmdText a extra e = none then [(c!"ZDOTDIR", dir)] else []))
              (mset e.vars c!"REZ_CONTEXT_FILE" (dir ++ c!"/" ++ scriptName s)))] := by
      rcases hm with (hm | hm) | hm
      · have := heading_prints _ _ _ _ hm; cases this
      · simpa using hm
      · split at hm <;> simp at hm
    simp only [List.mem_singleton, Act.start.injEq] at hm
    obtain ⟨rfl, _, rfl⟩ := hm
    refine ⟨hs, rfl, fun k => ?_⟩
    rw [withVars_get _ (nodup_mset hnd _ _), mget_mset]
    by_cases h1 : k = c!"REZ_CONTEXT_FILE"
    · rw [if_pos h1, if_pos h1]; rfl
    rw [if_neg h1, if_neg h1, hget k]
    by_cases h2 : k = c!"REZ_RXT_FILE"
    · rw [if_pos ⟨h2, rfl⟩, if_pos h2]; rfl
    rw [if_neg (fun h => h2 h.1), if_neg h2]
    by_cases h3 : k = c!"REZ_USED_PACKAGES_NAMES" ∨ k = c!"REZ_USED_RESOLVE"
    · rw [if_pos h3, if_pos h3]; rfl
    rw [if_neg h3, if_neg h3]
    by_cases h4 : k = c!"REZ_USED_REQUEST"
    · rw [if_pos h4, if_pos h4]; rfl
    rw [if_neg h4, if_neg h4]
    by_cases h5 : k = c!"PATH" ∧ w.exeDir.isSome
    · rw [if_pos h5, if_pos h5]
      obtain ⟨d, hd⟩ := Option.isSome_iff_exists.1 h5.2
      rw [hd]
      rfl
    rw [if_neg h5, if_neg h5]
    by_cases h6 : s = .zsh ∧ cmdText a extra e = none
    · rw [if_pos h6, withVars_get _ (by simp [mkeys])]
      have h7 := hcmd.1 h6.2
      by_cases h8 : k = c!"ZDOTDIR"
      · rw [if_pos ⟨h8, h6.1, h7⟩, h8]
        simp [mget]
      · rw [if_neg (fun h => h8 h.1)]
        simp [mget, Ne.symm h8]
    · rw [if_neg h6, if_neg (fun h => h6 ⟨h.2.1, hcmd.2 h.2.2⟩)]
      simp [withVars]

/-- A world in which everything works: a package that sets `B`, and unsets `A` that the caller has. -/
def demoWorld : World :=
  ⟨some, fun _ => some [⟨c!"foo", some c!"1"⟩], fun _ => some { Rex.Env.new with vars := [(c!"B", c!"2"), (c!"PATH", c!"/bin")] },
   some c!"/rez", fun x y => x == y, c!"/tmp/rez_context_01234567.rxt", true, some c!"/tmp/x", true, some (some 3),
   [(c!"A", c!"1"), (c!"PATH", c!"/bin")], id, fun _ => []⟩

def demoArgs : Args := ⟨[c!"foo"], none, none, true, false, false, false, false, none⟩

/-- The variables of the program started in a log. -/
def startVars (log : List Act) : List (Str × Str) :=
  (log.filterMap fun | .start _ _ v => some v | _ => none).flatten

example : mget (startVars (run demoWorld demoArgs [c!"true"]).2) c!"PATH" = some c!"/rez:/bin" ∧
    mget (startVars (run demoWorld demoArgs [c!"true"]).2) c!"REZ_USED_RESOLVE" = some c!"foo-1" ∧
    mget (startVars (run demoWorld demoArgs [c!"true"]).2) c!"B" = some c!"2" :=
  ⟨by decide +kernel, by decide +kernel, by decide +kernel⟩

/-- C164 is false of variables that a package unsets: the program still sees the value of the caller. -/
theorem C164_unset_false : ¬ ∀ (w : World) (a : Args) (extra : List Str) (p : Str) (args : List Str) (vars : List (Str × Str)) (k : Str),
    .start p args vars ∈ (run w a extra).2 → k ∉ [c!"REZ_CONTEXT_FILE", c!"REZ_RXT_FILE", c!"REZ_USED_PACKAGES_NAMES",
      c!"REZ_USED_RESOLVE", c!"REZ_USED_REQUEST", c!"PATH", c!"ZDOTDIR"] →
    (∀ c e, w.rex c = some e → mget e.vars k = none) → mget vars k = none := by
  intro h
  have hv : ∃ v : Str × List (Str × Str), (run demoWorld demoArgs [c!"true"]).2 = [Act.writeContext c!"/tmp/rez_context_01234567.rxt", .makeDir c!"/tmp/x",
      .writeScript c!"/tmp/x/rez-env.sh" v.1, .start c!"bash" [c!"/tmp/x/rez-env.sh"] v.2, .removeDir c!"/tmp/x",
      .removeContext c!"/tmp/rez_context_01234567.rxt"] ∧ mget v.2 c!"A" = some c!"1" :=
    ⟨(_, _), rfl, by decide +kernel⟩
  obtain ⟨v, hrun, hA⟩ := hv
  have := h demoWorld demoArgs [c!"true"] c!"bash" [c!"/tmp/x/rez-env.sh"] v.2 c!"A" (by rw [hrun]; simp) (by decide)
    (by
      intro c e he
      have : e = { Rex.Env.new with vars := [(c!"B", c!"2"), (c!"PATH", c!"/bin")] } := (Option.some.inj he).symm
      rw [this]
      decide)
  rw [hA] at this
  cases this

/-- C164 is false of zsh for users who have set `ZDOTDIR`, which the environment passes on: the shell does not read the
script. -/
theorem C164_zsh_false : ¬ ∀ (w : World) (a : Args) (p : Str) (args : List Str) (vars : List (Str × Str)) (dir : Str),
    .start p args vars ∈ (run w a []).2 → parseShell p = some .zsh → a.command = none → w.tempDir = some dir →
    mget vars c!"ZDOTDIR" = some dir := by
  intro h
  have hv : ∃ v : Str × List (Str × Str), (run { demoWorld with rex := fun _ => some { Rex.Env.new with vars := [(c!"ZDOTDIR", c!"/home/u")] } }
      { demoArgs with shell := some c!"zsh" } []).2 = [Act.writeContext c!"/tmp/rez_context_01234567.rxt", .makeDir c!"/tmp/x",
      .writeScript c!"/tmp/x/.zshrc" v.1, .start c!"zsh" [c!"-i"] v.2, .removeDir c!"/tmp/x",
      .removeContext c!"/tmp/rez_context_01234567.rxt"] ∧ mget v.2 c!"ZDOTDIR" = some c!"/home/u" :=
    ⟨(_, _), rfl, by decide +kernel⟩
  obtain ⟨v, hrun, hZ⟩ := hv
  have := h _ { demoArgs with shell := some c!"zsh" } c!"zsh" [c!"-i"] v.2 c!"/tmp/x" (by rw [hrun]; simp) (by decide) rfl rfl
  rw [hZ] at this
  revert this
  decide

/-! ## C165: what is done, and what is left -/

/-- C165: a command given twice is refused before anything is done. -/
theorem C165_both (w : World) (a : Args) (extra : List Str) (h1 : extra ≠ []) (h2 : a.command.isSome) :
    run w a extra = (.failed, []) := by
  unfold run
  rw [if_pos]
  cases extra with
  | nil => exact absurd rfl h1
  | cons => simp [h2]

/-- C165: with one of the options that print, nothing is written and no program is started. -/
theorem C165_prints (w : World) (a : Args) (extra : List Str)
    (h : a.printRequest = true ∨ a.printResolve = true ∨ a.printEnv = true ∨ a.printScript = true) :
    ∀ x ∈ (run w a extra).2, isPrint x = true := by
  intro x hx
  unfold run at hx
  split at hx
  · cases hx
  split at hx
  · cases hx
  split at hx
  · rw [List.mem_singleton.1 hx]; rfl
  rename_i h1
  split at hx
  · cases hx
  dsimp only at hx
  split at hx
  · rw [List.mem_singleton.1 hx]; rfl
  rename_i h2
  split at hx
  · split at hx
    · cases hx
    · rw [List.mem_singleton.1 hx]; rfl
  rename_i h3
  split at hx
  · split at hx
    · cases hx
    · rw [List.mem_singleton.1 hx]; rfl
  rename_i h4
  rcases h with h | h | h | h
  · exact absurd h h1
  · exact absurd h h2
  · exact absurd h h3
  · exact absurd h h4

/-- C165: a run that starts a program ends with its exit code, and starts no other; a run that starts none ends normally or
with an error. -/
theorem C165_code (w : World) (a : Args) (extra : List Str) :
    ((run w a extra).2.filter isStart = [] ∧ ((run w a extra).1 = .done ∨ (run w a extra).1 = .failed)) ∨
    (∃ code, ((run w a extra).2.filter isStart).length = 1 ∧ w.status = some code ∧
      (run w a extra).1 = .exit (code.getD (if a.command = none ∧ extra = [] then 0 else 1))) := by
  by_cases hst : ∃ x ∈ (run w a extra).2, isStart x = true
  · obtain ⟨x, hx, hs⟩ := hst
    obtain ⟨e, c, hc, hm, hrun⟩ := run_start hs hx
    have hl := launched w a c e (cmdText a extra e)
    have hcmd : (cmdText a extra e).isSome = true ↔ ¬ (a.command = none ∧ extra = []) := by
      unfold cmdText
      cases a.command with
      | some t => simp
      | none => cases extra <;> simp
    have hh : ∀ command, (headingOf a c command).filter isStart = [] := by
      intro command
      unfold headingOf
      split <;> rfl
    rw [hrun]
    generalize launch w a c e (cmdText a extra e) = res at hl hm
    cases hl with
    | before => have := heading_prints _ _ _ _ hm; cases x <;> simp_all [isPrint, isStart]
    | without =>
      simp only [List.mem_append] at hm
      rcases hm with hm | hm
      · have := heading_prints _ _ _ _ hm; cases x <;> simp_all [isPrint, isStart]
      · simp at hm; rcases hm with rfl | rfl | rfl <;> cases hs
    | started s dir code hs' hd hc' =>
      right
      refine ⟨code, ?_, hc', ?_⟩
      · simp only [List.filter_append, hh]
        cases mget e.vars c!"REZ_RXT_FILE" <;> simp [isStart, List.filter]
      · dsimp only
        congr 2
        by_cases hx' : a.command = none ∧ extra = []
        · rw [if_pos hx', if_neg (fun h => hcmd.1 h hx')]
        · rw [if_neg hx', if_pos (hcmd.2 hx')]
  · left
    have hno : ∀ x ∈ (run w a extra).2, ¬ isStart x = true := fun x hx hs => hst ⟨x, hx, hs⟩
    refine ⟨List.filter_eq_nil_iff.2 hno, ?_⟩
    by_contra hend
    rw [not_or] at hend
    unfold run at hend hno
    split at hend
    · exact hend.2 rfl
    rename_i hb
    rw [if_neg hb] at hno
    split at hend
    · exact hend.2 rfl
    rename_i requests hreq
    rw [hreq] at hno
    dsimp only at hno
    split at hend
    · exact hend.1 rfl
    rename_i h1
    rw [if_neg h1] at hno
    split at hend
    · exact hend.2 rfl
    rename_i packages hpk
    rw [hpk] at hno
    dsimp only at hno hend
    split at hend
    · exact hend.1 rfl
    rename_i h2
    rw [if_neg h2] at hno
    split at hend
    · split at hend
      · exact hend.2 rfl
      · exact hend.1 rfl
    rename_i h3
    rw [if_neg h3] at hno
    split at hend
    · split at hend
      · exact hend.2 rfl
      · exact hend.1 rfl
    rename_i h4
    rw [if_neg h4] at hno
    split at hend
    · exact hend.2 rfl
    rename_i h5
    rw [if_neg h5, inContext_eq] at hno
    rw [inContext_eq] at hend
    cases he : environment w ⟨requests, packages⟩ (some w.contextPath) with
    | none => rw [he] at hend; exact hend.2 rfl
    | some e =>
      rw [he] at hend hno
      have hl := launched w a ⟨requests, packages⟩ e (cmdText a extra e)
      dsimp only at hend hno
      generalize launch w a ⟨requests, packages⟩ e (cmdText a extra e) = res at hl hend hno
      cases hl with
      | before => exact hend.2 rfl
      | without => exact hend.2 rfl
      | started s dir code hs' hd hc' =>
        exact hno _ (List.mem_append_right _ (List.mem_append_left _ (List.mem_append_right _
          (List.mem_cons_of_mem _ (List.mem_cons_of_mem _ List.mem_cons_self))))) rfl

/-- C165: the temporary files are gone when a run ends, however it ends, if the context could be written. -/
theorem C165_left_partial (w : World) (a : Args) (extra : List Str) (hw : w.contextWritten = true)
    (hd : ∀ dir, w.tempDir = some dir → dir ≠ w.contextPath) (hn : ∀ c e, w.rex c = some e → (mkeys e.vars).Nodup) :
    leftAfter [] (run w a extra).2 = [] := by
  unfold run
  split
  · rfl
  split
  · rfl
  split
  · rfl
  split
  · rfl
  dsimp only
  split
  · rfl
  split
  · split <;> rfl
  split
  · split <;> rfl
  split
  · rename_i h; rw [hw] at h; cases h
  rename_i requests _ _ _ packages _ _ _ _ _
  rw [inContext_eq]
  cases he : environment w ⟨requests, packages⟩ (some w.contextPath) with
  | none => simp [leftAfter]
  | some e =>
    dsimp only
    have hl := launched w a ⟨requests, packages⟩ e (cmdText a extra e)
    generalize launch w a ⟨requests, packages⟩ e (cmdText a extra e) = res at hl
    obtain ⟨e0, he0, _, _, hev⟩ := environment_spec he
    have hrxt : mget e.vars c!"REZ_RXT_FILE" = some w.contextPath := by
      rw [(hev (hn _ e0 he0)).2]
      rfl
    cases hl with
    | before =>
      dsimp only
      rw [List.append_assoc, List.cons_append, List.nil_append, leftAfter, left_prints _ _ _ (heading_prints _ _ _)]
      simp [leftAfter]
    | without dir path text htd hws =>
      dsimp only
      rw [List.append_assoc, List.cons_append, List.nil_append, leftAfter, List.append_assoc,
        left_prints _ _ _ (heading_prints _ _ _)]
      simp [leftAfter, hd dir htd, Ne.symm (hd dir htd)]
    | started s dir code hs' htd hc' =>
      dsimp only
      rw [hrxt, List.cons_append, List.nil_append, leftAfter, List.append_assoc, left_prints _ _ _ (heading_prints _ _ _)]
      simp [leftAfter, hd dir htd, Ne.symm (hd dir htd)]

/-- C165 is false where the context cannot be written to its end: what was written stays. -/
theorem C165_left_false : ¬ ∀ (w : World) (a : Args) (extra : List Str), leftAfter [] (run w a extra).2 = [] := by
  intro h
  have := h { demoWorld with contextWritten := false } demoArgs []
  revert this
  decide +kernel

/-- C165 is false of an interactive shell that is killed: the command ends with code 0. -/
theorem C165_killed_false : ¬ ∀ (w : World) (a : Args) (extra : List Str), (run w a extra).1 = .exit 0 → w.status = some (some 0) := by
  intro h
  have := h { demoWorld with status := some none } demoArgs [] (by decide +kernel)
  revert this
  decide

/-- C165: no program is started with a shell that is not known. -/
theorem C165_shell (w : World) (a : Args) (extra : List Str) (h : parseShell (a.shell.getD c!"bash") = none) :
    (run w a extra).2.filter isStart = [] := by
  rw [List.filter_eq_nil_iff]
  intro x hx hs
  obtain ⟨e, c, _, hm, -⟩ := run_start hs hx
  have hl := launched w a c e (cmdText a extra e)
  generalize launch w a c e (cmdText a extra e) = res at hm hl
  cases hl with
  | before => have := heading_prints _ _ _ _ hm; cases x <;> simp_all [isPrint, isStart]
  | without =>
    simp only [List.mem_append] at hm
    rcases hm with hm | hm
    · have := heading_prints _ _ _ _ hm; cases x <;> simp_all [isPrint, isStart]
    · simp at hm; rcases hm with rfl | rfl | rfl <;> cases hs
  | started s dir code hs' => rw [h] at hs'; cases hs'

example : run demoWorld demoArgs [] = (.exit 3, (run demoWorld demoArgs []).2) ∧
    (run demoWorld { demoArgs with shell := some c!"tcsh" } [c!"true"]).1 = .failed ∧
    (run demoWorld { demoArgs with shell := some c!"tcsh" } [c!"true"]).2 =
      [.writeContext c!"/tmp/rez_context_01234567.rxt", .removeContext c!"/tmp/rez_context_01234567.rxt"] :=
  ⟨by decide +kernel, by decide +kernel, by decide +kernel⟩

/-! ## C166: the printed environment -/

/-- C166: the printed environment, shRead by bash, sets exactly the variables of the environment, if their names are names
and their values have none of `"`, `\`, `$` and a backtick. -/
theorem C166_export_partial (w : World) (format : Option Str) (vars : List (Str × Str)) (st : Rez.Spec.Shell.State)
    (hf : format ≠ some c!"json" ∧ format ≠ some c!"dict") (hi : ∀ l, (w.iter l).Perm l) (hn : (mkeys vars).Nodup)
    (hnames : ∀ x ∈ vars, Rez.Spec.Shell.IsName x.1)
    (hvalues : ∀ x ∈ vars, ∀ c ∈ x.2, c ≠ '"' ∧ c ≠ '\\' ∧ c ≠ '$' ∧ c ≠ '`') :
    ∃ st', Rez.Spec.Shell.run Rez.Spec.Shell.bashStep st (joinWith c!"\n" (envLines w format vars)) = some st' ∧
      ∀ k, st'.var k = (mget vars k).or (st.var k) := by
  have hl : envLines w format vars = (w.iter vars).map bashExport := by
    unfold envLines
    rw [if_neg hf.1, if_neg hf.2]
    refine List.map_congr_left fun x hx => ?_
    have hx := (hi vars).mem_iff.1 hx
    unfold bashExport
    rw [ShellLemmas.escBash_eq]
    have : x.2.flatMap ShellLemmas.bashEsc = x.2 := by
      have hv := hvalues x hx
      generalize x.2 = v at hv
      induction v with
      | nil => rfl
      | cons c v ih =>
        have hc := hv c List.mem_cons_self
        rw [List.flatMap_cons, ih fun d hd => hv d (List.mem_cons_of_mem _ hd), ShellLemmas.bashEsc, if_neg hc.2.1, if_neg hc.1]
        rfl
    rw [this]
  have hkeys : (mkeys (w.iter vars)).Nodup := ((hi vars).map Prod.fst).nodup_iff.2 hn
  have hrun := ShellLemmas.run_lines (step := Rez.Spec.Shell.bashStep)
    ((w.iter vars).map fun x => (bashExport x, fun st => Rez.Spec.Shell.State.setVar st x.1 x.2))
    (by
      intro y hy
      obtain ⟨x, hx, rfl⟩ := List.mem_map.1 hy
      have hx := (hi vars).mem_iff.1 hx
      exact ShellLemmas.export_ok (hnames x hx) fun c hc => (hvalues x hx c hc).2.2)
    _ (Nat.lt_succ_self _) st
  rw [List.map_map] at hrun
  refine ⟨_, by rw [hl]; exact hrun, fun k => ?_⟩
  rw [List.foldl_map, (ShellLemmas.fold_vars (w.iter vars) hkeys st).1 k]
  congr 1
  cases hg : mget vars k with
  | none =>
    rw [mget_none_iff] at hg ⊢
    intro hm
    exact hg (((hi vars).map Prod.fst).mem_iff.1 hm)
  | some v => exact mget_of_mem hkeys ((hi vars).mem_iff.2 (mget_some_mem hg))

/-- C166 is false of other values: `"` and `$` are not escaped. -/
theorem C166_export_false : ¬ ∀ (w : World) (vars : List (Str × Str)) (st st' : Rez.Spec.Shell.State),
    (∀ l, (w.iter l).Perm l) → (mkeys vars).Nodup → (∀ x ∈ vars, Rez.Spec.Shell.IsName x.1) →
    Rez.Spec.Shell.run Rez.Spec.Shell.bashStep st (joinWith c!"\n" (envLines w none vars)) = some st' →
    ∀ k v, mget vars k = some v → st'.var k = some v := by
  intro h
  have := h demoWorld [(c!"A", c!"say \"hi\"")] ⟨fun _ => none, fun _ => none⟩ _ (fun _ => .refl _) (by decide)
    (by intro x hx; rw [List.mem_singleton.1 hx]; exact ⟨'A', [], rfl, by decide, by simp⟩) rfl c!"A" _ rfl
  revert this
  decide +kernel

example : envLines demoWorld none [(c!"A", c!"1 2"), (c!"B", c!"x")] = [c!"export A=\"1 2\"", c!"export B=\"x\""] := by
  decide +kernel

/-- C165: a shell is known by its name, in upper or lower case. -/
theorem C165_names (p : Str) : parseShell p = shells.lookup (p.map lowerChar) := by
  unfold parseShell shells
  generalize p.map lowerChar = l
  dsimp only
  by_cases h1 : l = c!"bash"
  · subst h1; rfl
  by_cases h2 : l = c!"zsh"
  · subst h2; rfl
  by_cases h3 : l = c!"fish"
  · subst h3; rfl
  by_cases h4 : l = c!"cmd"
  · subst h4; rfl
  by_cases h5 : l = c!"powershell"
  · subst h5; rfl
  by_cases h6 : l = c!"pwsh"
  · subst h6; rfl
  rw [if_neg h1, if_neg h2, if_neg h3, if_neg h4, if_neg (by tauto)]
  simp only [List.lookup, beq_eq_false_iff_ne.2 h1, beq_eq_false_iff_ne.2 h2, beq_eq_false_iff_ne.2 h3, beq_eq_false_iff_ne.2 h4,
    beq_eq_false_iff_ne.2 h5, beq_eq_false_iff_ne.2 h6]

/-- C165: a program that is started is a known shell, and its arguments make it read the script that was written: execute it, if there
is a command, which the script then ends with; read it and wait for the user otherwise. -/
theorem C165_start (w : World) (a : Args) (extra : List Str) (p : Str) (args : List Str) (vars : List (Str × Str))
    (h : .start p args vars ∈ (run w a extra).2) :
    ∃ dir s path text, shells.lookup (p.map lowerChar) = some s ∧ w.tempDir = some dir ∧ .writeScript path text ∈ (run w a extra).2 ∧
      (a.command = none ∧ extra = [] → Opens dir s args path) ∧ (¬ (a.command = none ∧ extra = []) → Executes s args path) ∧
      (∀ t, a.command = some t → ∃ head, text = head ++ (if s = .cmd then c!"\r\n" else c!"\n") ++ t) := by
  obtain ⟨e, c, hc, hm, hrun⟩ := run_start (act := .start p args vars) rfl h
  have hl := launched w a c e (cmdText a extra e)
  have hcmd : cmdText a extra e = none ↔ a.command = none ∧ extra = [] := by
    unfold cmdText
    cases a.command with
    | some t => simp
    | none => cases extra <;> simp
  have hmem : ∀ x, x ∈ (launch w a c e (cmdText a extra e)).2 → x ∈ (run w a extra).2 := by
    intro x hx
    rw [hrun]
    exact List.mem_append_left _ (List.mem_append_right _ hx)
  generalize launch w a c e (cmdText a extra e) = res at hm hl hmem
  cases hl with
  | before => have := heading_prints _ _ _ _ hm; cases this
  | without =>
    simp only [List.mem_append] at hm
    rcases hm with hm | hm
    · have := heading_prints _ _ _ _ hm; cases this
    · simp at hm
  | started s dir code hs hd hst =>
    have hm' : Act.start p args vars ∈ [Act.start (a.shell.getD c!"bash")
            (match cmdText a extra e with
              | some _ => commandArgs s (dir ++ c!"/" ++ scriptName s)
              | none => shellArgs s (dir ++ c!"/" ++ scriptName s))
            (withVars (withVars w.parent (if s = .zsh ∧ cmdText a extra e = none then [(c!"ZDOTDIR", dir)] else []))
              (mset e.vars c!"REZ_CONTEXT_FILE" (dir ++ c!"/" ++ scriptName s)))] := by
      simp only [List.mem_append] at hm
      rcases hm with (hm | hm) | hm
      · have := heading_prints _ _ _ _ hm; cases this
      · simpa using hm
      · split at hm <;> simp at hm
    simp only [List.mem_singleton, Act.start.injEq] at hm'
    obtain ⟨rfl, rfl, _⟩ := hm'
    refine ⟨dir, s, dir ++ c!"/" ++ scriptName s, _, by rw [← C165_names]; exact hs, hd, hmem _ (List.mem_append_left _ (List.mem_append_right _ (by simp; rfl))), fun hn => ?_, fun hn => ?_, fun t ht => ?_⟩
    · rw [hcmd.2 hn]
      cases s with
      | bash => exact .bash _
      | zsh =>
        show Opens dir .zsh [c!"-i"] (dir ++ c!"/" ++ c!".zshrc")
        rw [List.append_assoc]
        exact .zsh
      | fish => exact .fish _
      | cmd => exact .cmd _
      | powershell => exact .powershell _
    · cases ht : cmdText a extra e with
      | none => exact absurd (hcmd.1 ht) hn
      | some t =>
        cases s with
        | bash => exact .bash _
        | zsh => exact .zsh _
        | fish => exact .fish _
        | cmd => exact .cmd _
        | powershell => exact .powershell _
    · have : cmdText a extra e = some t := by unfold cmdText; rw [ht]
      rw [this]
      exact ⟨_, rfl⟩

/-- C165: what `--print-request` and `--print-resolve` print. -/
theorem C165_shows (w : World) (a : Args) (requests : List Str) (h : a.packages.mapM w.parse = some requests) :
    (a.printRequest = true → run w a [] = (.done, [.print requests])) ∧
    (∀ packages, a.printRequest = false → w.resolve requests = some packages → a.printResolve = true →
      ∃ lines, run w a [] = (.done, [.print lines]) ∧ lines.length = packages.length ∧
        ∀ (i : Nat) (p : Pkg), packages[i]? = some p → lines[i]? = some (p.name ++ c!"-" ++ p.version.getD [])) := by
  constructor
  · intro hp
    unfold run
    rw [if_neg (by simp), h]
    dsimp only
    rw [if_pos hp]
  · intro packages hp hr hs
    refine ⟨packages.map resolveLine, ?_, List.length_map _, fun i p hi => ?_⟩
    · unfold run
      rw [if_neg (by simp), h]
      dsimp only
      rw [if_neg (by simp [hp]), hr]
      dsimp only
      rw [if_pos hs]
    · rw [List.getElem?_map, hi]; rfl

/-- C163: the command for arguments of which the first is an alias: what the alias says, with the other arguments. -/
theorem C163_alias_command (aliases : List (Str × Str)) (first : Str) (rest : List Str) (text : Str) (ws : List Str) (ha : mget aliases first = some text)
    (h : words text = some ws) (hd : '$' ∉ text) : words (commandOf aliases (first :: rest)) = some (ws ++ rest) := by
  have : commandOf aliases (first :: rest) = expandAlias text rest := by
    show (match mget aliases first with | some a => expandAlias a rest | none => quoteAll (first :: rest)) = _
    rw [ha]
  rw [this]
  exact C163_alias text ws rest h hd

example : words (commandOf [(c!"ll", c!"ls -l")] [c!"ll", c!"my dir"]) = some [c!"ls", c!"-l", c!"my dir"] :=
  C163_alias_command _ _ _ c!"ls -l" [c!"ls", c!"-l"] (by decide) (by decide) (by decide)

/-- C166: the printed script is that of the shell whose name is given (in lower case; `sh` is bash), and of bash without one. -/
theorem C166_script (w : World) (a : Args) (requests : List Str) (packages : List Pkg) (e : Rex.Env) (h : a.packages.mapM w.parse = some requests)
    (hr : w.resolve requests = some packages) (he : environment w ⟨requests, packages⟩ none = some e)
    (h1 : a.printRequest = false) (h2 : a.printResolve = false) (h3 : a.printEnv = false) (h4 : a.printScript = true) :
    (a.shell = none ∨ a.shell = some c!"sh" → run w a [] = (.done, [.print [script e .bash]])) ∧
    (∀ name s, a.shell = some name → shells.lookup name = some s → run w a [] = (.done, [.print [script e s]])) := by
  have hrun : run w a [] = (.done, [.print [script e (scriptShell a.shell)]]) := by
    unfold run
    rw [if_neg (by simp), h]
    dsimp only
    rw [if_neg (by simp [h1]), hr]
    dsimp only
    rw [if_neg (by simp [h2]), if_neg (by simp [h3]), if_pos h4, he]
  rw [hrun]
  constructor
  · rintro (h | h) <;> rw [h] <;> rfl
  · intro name s hn hl
    have hm : (name, s) ∈ shells := by
      obtain ⟨l1, l2, h, _⟩ := List.lookup_eq_some_iff.1 hl
      rw [h]; simp
    rw [hn]
    simp only [shells, List.mem_cons, Prod.mk.injEq, List.not_mem_nil, or_false] at hm
    rcases hm with ⟨rfl, rfl⟩ | ⟨rfl, rfl⟩ | ⟨rfl, rfl⟩ | ⟨rfl, rfl⟩ | ⟨rfl, rfl⟩ | ⟨rfl, rfl⟩ <;> rfl

/-- C166: with the format `dict` every variable is printed with its value, and nothing else. -/
theorem C166_dict (w : World) (vars : List (Str × Str)) (hi : ∀ l, (w.iter l).Perm l) (hn : (mkeys vars).Nodup) (line : Str) :
    line ∈ envLines w (some c!"dict") vars ↔ ∃ k v, mget vars k = some v ∧ line = c!"'" ++ k ++ c!"': '" ++ v ++ c!"'" := by
  unfold envLines
  rw [if_neg (by decide), if_pos rfl, List.mem_map]
  constructor
  · rintro ⟨⟨k, v⟩, hx, rfl⟩
    exact ⟨k, v, mget_of_mem hn ((hi vars).mem_iff.1 hx), rfl⟩
  · rintro ⟨k, v, hg, rfl⟩
    exact ⟨(k, v), (hi vars).mem_iff.2 (mget_some_mem hg), rfl⟩

example : (run demoWorld { demoArgs with printScript := true, shell := some c!"fish" } []).1 = .done ∧ shells.lookup c!"fish" = some .fish ∧
    envLines demoWorld (some c!"dict") [(c!"A", c!"1")] = [c!"'A': '1'"] := ⟨by decide +kernel, by decide, by decide⟩

example : ∃ p args vars, Act.start p args vars ∈ (run demoWorld { demoArgs with shell := some c!"Zsh" } []).2 := by
  refine ⟨c!"Zsh", [c!"-i"], startVars (run demoWorld { demoArgs with shell := some c!"Zsh" } []).2, ?_⟩
  decide +kernel

end Rez.Props
