import Verif.Spec.Source
import Verif.Props.Shell
import Verif.Lemmas.Words
import Verif.Lemmas.Text
import Verif.Lemmas.VersionExtra
import Verif.Lemmas.RequirementParse
/-!
# C233: source scripts and the status of the environment
-/
namespace Rez.Props
open Rez Rez.Source Rez.Source.Spec Rez.Rex Rez.RexShell Rez.Spec.Shell
namespace SourceLemmas

theorem capitals : ∀ n, n < 123 → 97 ≤ n →
    Char.ofNat (n - 32) ≠ '-' ∧ Char.ofNat (n - 32) ≠ '.' ∧ isTok (Char.ofNat (n - 32)) = true := by
  decide +kernel

theorem capital_eq {c : Char} (h : c ≠ '-') : plain (upperChar c) = capital c := by
  unfold plain capital
  by_cases hd : c = '.'
  · subst hd
    decide
  · rw [if_neg hd]
    by_cases hr : 97 ≤ c.toNat ∧ c.toNat ≤ 122
    · obtain ⟨h1, h2, -⟩ := capitals c.toNat (by omega) hr.1
      have hu : upperChar c = Char.ofNat (c.toNat - 32) := by
        unfold upperChar
        rw [if_pos (by simpa using hr)]
      rw [hu, if_neg (by simp only [h1, h2, or_self, not_false_eq_true])]
      exact (if_pos hr).symm
    · have hu : upperChar c = c := by
        unfold upperChar
        rw [if_neg (by simpa using hr)]
      rw [hu, if_neg (by simp only [h, hd, or_self, not_false_eq_true])]
      exact (if_neg hr).symm

theorem capital_tok {c : Char} (h : isTok c = true ∨ c = '.') : isTok (capital c) = true := by
  unfold capital
  by_cases hd : c = '.'
  · rw [if_pos hd]
    decide
  · rw [if_neg hd]
    split
    · rename_i hr
      have hr : 97 ≤ c.toNat ∧ c.toNat ≤ 122 := hr
      exact (capitals c.toNat (by omega) hr.1).2.2
    · rcases h with h | h
      · exact h
      · exact absurd h hd

theorem upper_eq {n : Str} (h : '-' ∉ n) : (Environment.upper n).map plain = n.map capital := by
  unfold Environment.upper
  rw [List.map_map]
  exact List.map_congr_left fun c hc => capital_eq fun e => h (e ▸ hc)

theorem request_var {pkg n v : Str} (h : Request pkg n v) : packageVar pkg = (c!"REZPKG_" ++ n.map capital, v) := by
  obtain ⟨hn, h⟩ := h
  unfold packageVar
  rcases h with rfl | ⟨rfl, rfl⟩
  · have := splitOnce_head (ps := []) (r := v) hn
    rw [List.append_assoc] at this
    rw [show n ++ '-' :: v = n ++ (['-'] ++ v) from rfl, this]
    simp [upper_eq hn]
  · rw [splitOnce_absent hn]
    simp [upper_eq hn]

theorem request_of (pkg : Str) : ∃ n v, Request pkg n v := by
  induction pkg with
  | nil => exact ⟨[], [], by simp, .inr ⟨rfl, rfl⟩⟩
  | cons c s ih =>
    by_cases hc : c = '-'
    · exact ⟨[], s, by simp, .inl (by rw [hc]; rfl)⟩
    · obtain ⟨n, v, hn, h⟩ := ih
      refine ⟨c :: n, v, ?_, ?_⟩
      · rw [List.mem_cons, not_or]
        exact ⟨fun e => hc e.symm, hn⟩
      · rcases h with rfl | ⟨rfl, rfl⟩
        · exact .inl rfl
        · exact .inr ⟨rfl, rfl⟩

/-- The last package with a variable decides. -/
theorem mget_fold (k v : Str) : ∀ (pkgs : List Str) (m : List (Str × Str)),
    mget (pkgs.foldl (fun m p => mset m (packageVar p).1 (packageVar p).2) m) k = some v ↔
      (∃ b p a, pkgs = b ++ p :: a ∧ packageVar p = (k, v) ∧ ∀ q ∈ a, (packageVar q).1 ≠ k) ∨
      ((∀ q ∈ pkgs, (packageVar q).1 ≠ k) ∧ mget m k = some v) := by
  intro pkgs
  induction pkgs with
  | nil =>
    intro m
    constructor
    · exact fun h => .inr ⟨(fun q hq => by cases hq), h⟩
    · rintro (⟨b, p, a, h, -⟩ | ⟨-, h⟩)
      · cases b <;> cases h
      · exact h
  | cons x pkgs ih =>
    intro m
    rw [List.foldl_cons, ih, mget_mset]
    constructor
    · rintro (⟨b, p, a, h1, h2, h3⟩ | ⟨h1, h2⟩)
      · exact .inl ⟨x :: b, p, a, by rw [h1]; rfl, h2, h3⟩
      · split at h2
        · rename_i hk
          refine .inl ⟨[], x, pkgs, rfl, ?_, h1⟩
          cases h2
          rw [hk]
        · rename_i hk
          refine .inr ⟨?_, h2⟩
          intro q hq
          rcases List.mem_cons.mp hq with rfl | hq
          · exact fun e => hk e.symm
          · exact h1 q hq
    · rintro (⟨b, p, a, h1, h2, h3⟩ | ⟨h1, h2⟩)
      · cases b with
        | nil =>
          cases h1
          refine .inr ⟨h3, ?_⟩
          rw [h2, if_pos rfl]
        | cons y b =>
          cases h1
          exact .inl ⟨b, p, a, rfl, h2, h3⟩
      · refine .inr ⟨fun q hq => h1 q (List.mem_cons_of_mem _ hq), ?_⟩
        rw [if_neg fun e => h1 x (by simp) e.symm]
        exact h2

theorem mget_two {A B k v x y : Str} (hAB : A ≠ B) : mget (mset (mset [] A x) B y) k = some v ↔ (k = A ∧ v = x) ∨ (k = B ∧ v = y) := by
  rw [mget_mset, mget_mset]
  by_cases h1 : k = B
  · subst h1
    simp [hAB.symm, eq_comm]
  · by_cases h2 : k = A
    · subst h2
      simp [hAB, eq_comm]
    · simp [h1, h2]

theorem mget_three {A B C k v x y z : Str} (hAB : A ≠ B) (hAC : A ≠ C) (hBC : B ≠ C) :
    mget (mset (mset (mset [] A x) B y) C z) k = some v ↔ (k = A ∧ v = x) ∨ (k = B ∧ v = y) ∨ (k = C ∧ z = v) := by
  rw [mget_mset]
  by_cases h : k = C
  · subst h
    simp [hAC.symm, hBC.symm]
  · rw [if_neg h, mget_two hAB]
    simp [h]

theorem mget_first (h : Here) (pkgs : List Str) (k v : Str) : mget (firstVars h pkgs) k = some v ↔
    (k = c!"REZ_CONTEXT_FILE" ∧ v = Which.join h.temp c!"rez_context.rxt") ∨ (k = c!"REZ_RESOLVE" ∧ v = joinWith c!" " pkgs) ∨
    (k = c!"REZ_PACKAGES_PATH" ∧ getVar h c!"REZ_PACKAGES_PATH" = some v) := by
  have hAB : c!"REZ_CONTEXT_FILE" ≠ c!"REZ_RESOLVE" := by decide
  have hAC : c!"REZ_CONTEXT_FILE" ≠ c!"REZ_PACKAGES_PATH" := by decide
  have hBC : c!"REZ_RESOLVE" ≠ c!"REZ_PACKAGES_PATH" := by decide
  unfold firstVars
  generalize c!"REZ_CONTEXT_FILE" = A at *
  generalize c!"REZ_RESOLVE" = B at *
  generalize c!"REZ_PACKAGES_PATH" = C at *
  cases hp : getVar h C with
  | none =>
    rw [mget_two hAB]
    simp
  | some p =>
    rw [mget_three hAB hAC hBC, Option.some.injEq]

theorem sets_iff (h : Here) (pkgs : List Str) (k v : Str) : mget (allVars h pkgs) k = some v ↔ Sets h pkgs k v := by
  unfold allVars
  rw [mget_fold]
  constructor
  · rintro (⟨b, p, a, h1, h2, h3⟩ | ⟨-, h2⟩)
    · obtain ⟨n, w, hr⟩ := request_of p
      have he := request_var hr
      rw [h2] at he
      cases he
      exact .package ⟨b, p, a, n, h1, hr, rfl, fun q hq n' w' hr' e => h3 q hq (by rw [request_var hr', e])⟩
    · rcases (mget_first h pkgs k v).mp h2 with ⟨rfl, rfl⟩ | ⟨rfl, rfl⟩ | ⟨rfl, h3⟩
      · exact .file
      · exact .resolve
      · exact .path h3
  · intro hs
    have other : ∀ (t : Str), (c!"REZ_").isPrefixOf t = true → ∀ q ∈ pkgs, (packageVar q).1 ≠ t := by
      intro t ht q _ e
      obtain ⟨n, w, hr⟩ := request_of q
      rw [request_var hr] at e
      subst e
      cases ht
    cases hs with
    | file => exact .inr ⟨other _ rfl, (mget_first h pkgs _ _).mpr (.inl ⟨rfl, rfl⟩)⟩
    | resolve => exact .inr ⟨other _ rfl, (mget_first h pkgs _ _).mpr (.inr (.inl ⟨rfl, rfl⟩))⟩
    | path hp => exact .inr ⟨other _ rfl, (mget_first h pkgs _ _).mpr (.inr (.inr ⟨rfl, hp⟩))⟩
    | package ho =>
      obtain ⟨b, p, a, n, h1, hr, hk, h3⟩ := ho
      refine .inl ⟨b, p, a, h1, by rw [request_var hr, hk], fun q hq e => ?_⟩
      obtain ⟨n', w', hr'⟩ := request_of q
      rw [request_var hr'] at e
      exact h3 q hq n' w' hr' e.symm

theorem nodup_all (h : Here) (pkgs : List Str) : (mkeys (allVars h pkgs)).Nodup := by
  have fold : ∀ (l : List Str) (m : List (Str × Str)), (mkeys m).Nodup →
      (mkeys (l.foldl (fun m p => mset m (packageVar p).1 (packageVar p).2) m)).Nodup := by
    intro l
    induction l with
    | nil => exact fun _ h => h
    | cons x l ih => exact fun m hm => ih _ (nodup_mset hm _ _)
  refine fold pkgs _ ?_
  have h0 : (mkeys (mset (mset ([] : List (Str × Str)) c!"REZ_CONTEXT_FILE" (Which.join h.temp c!"rez_context.rxt")) c!"REZ_RESOLVE"
      (joinWith c!" " pkgs))).Nodup := nodup_mset (nodup_mset (m := []) List.nodup_nil _ _) _ _
  unfold firstVars
  cases getVar h c!"REZ_PACKAGES_PATH" with
  | none => exact h0
  | some p => exact nodup_mset h0 _ _

theorem sets_of_mem {h : Here} {pkgs : List Str} {x : Str × Str} (hx : x ∈ allVars h pkgs) : Sets h pkgs x.1 x.2 :=
  (sets_iff h pkgs x.1 x.2).mp (mget_of_mem (nodup_all h pkgs) hx)

theorem sets_name {h : Here} {pkgs : List Str} (hn : Nameable pkgs) {k v : Str} (hs : Sets h pkgs k v) : IsName k := by
  cases hs with
  | file => exact ⟨'R', c!"EZ_CONTEXT_FILE", rfl, by decide, by decide⟩
  | resolve => exact ⟨'R', c!"EZ_RESOLVE", rfl, by decide, by decide⟩
  | path _ => exact ⟨'R', c!"EZ_PACKAGES_PATH", rfl, by decide, by decide⟩
  | package ho =>
    obtain ⟨b, p, a, n, h1, hr, rfl, -⟩ := ho
    refine ⟨'R', c!"EZPKG_" ++ n.map capital, rfl, by decide, ?_⟩
    intro x hx
    have hlit : ∀ x ∈ c!"EZPKG_", isTok x = true := by decide
    rcases List.mem_append.mp hx with hx | hx
    · exact hlit x hx
    · obtain ⟨c, hc, rfl⟩ := List.mem_map.mp hx
      exact capital_tok (hn p (by rw [h1]; simp) n v hr c hc)

theorem mem_join {a b : Str} {c : Char} (h : c ∈ Which.join a b) : c ∈ a ∨ c ∈ b ∨ c = '/' := by
  unfold Which.join at h
  split at h
  · exact .inr (.inl h)
  · split at h
    · rcases List.mem_append.mp h with h | h
      · exact .inl h
      · exact .inr (.inl h)
    · rcases List.mem_append.mp h with h | h
      · exact .inl h
      · rcases List.mem_cons.mp h with h | h
        · exact .inr (.inr h)
        · exact .inr (.inl h)

theorem sets_without {bad : Str} {h : Here} {pkgs : List Str} (hw : Without bad h pkgs) {k v : Str} (hs : Sets h pkgs k v) {c : Char}
    (hc : c ∈ bad) (h0 : c ∉ c!"/ rez_context.rxt") : c ∉ v := by
  obtain ⟨h1, h2, h3⟩ := hw c hc
  intro hv
  cases hs with
  | file =>
    rcases mem_join hv with hv | hv | hv
    · exact h2 hv
    · exact h0 (by simp only [List.mem_cons] at hv ⊢; tauto)
    · exact h0 (by rw [hv]; decide)
  | resolve =>
    rcases mem_joinWith hv with hv | ⟨p, hp, hv⟩
    · exact h0 (by rw [List.mem_singleton.mp hv]; decide)
    · exact h1 p hp hv
  | path hp => exact h3 v hp hv
  | package ho =>
    obtain ⟨b, p, a, n, hb, hr, -, -⟩ := ho
    refine h1 p (by rw [hb]; simp) ?_
    rcases hr.2 with rfl | ⟨-, rfl⟩
    · simp [hv]
    · cases hv

theorem done_of {h : Here} {pkgs : List Str} {st st' : State} (h1 : ∀ k, st'.var k = (mget (allVars h pkgs) k).or (st.var k))
    (h2 : ∀ k, st'.alias k = (mget ([] : List (Str × Str)) k).or (st.alias k)) : Done h pkgs st st' := by
  refine ⟨fun k v hs => ?_, fun k hn => ?_, funext fun k => by rw [h2]; rfl⟩
  · rw [h1, (sets_iff h pkgs k v).mpr hs]
    rfl
  · rw [h1]
    cases hm : mget (allVars h pkgs) k with
    | none => rfl
    | some v => exact absurd ((sets_iff h pkgs k v).mp hm) (hn v)

theorem run_more {step : State → Str → Option (State × Str)} {st' : State} : ∀ (k j : Nat) (st : State) (s : Str),
    runAux step k st s = some st' → k ≤ j → runAux step j st s = some st' := by
  intro k
  induction k with
  | zero => intro j st s h; cases h
  | succ k ih =>
    intro j st s h hj
    obtain ⟨j, rfl⟩ : ∃ i, j = i + 1 := ⟨j - 1, by omega⟩
    rw [runAux] at h ⊢
    split
    · rename_i hs
      rw [if_pos hs] at h
      exact h
    · rename_i hs
      rw [if_neg hs] at h
      cases hp : step st s with
      | none => rw [hp] at h; cases h
      | some p =>
        rw [hp] at h
        exact ih j p.1 p.2 h (by omega)

theorem run_comments {step : State → Str → Option (State × Str)} (hstep : ∀ st r, step st ('#' :: r) = some (st, afterComment r))
    {a b s : Str} (ha : '\n' ∉ a) (hb : '\n' ∉ b) {st st' : State} (h : run step st s = some st') :
    run step st ('#' :: (a ++ '\n' :: '#' :: (b ++ '\n' :: s))) = some st' := by
  have two : ∀ (t : Str) (r : Str) (k : Nat), '\n' ∉ t → runAux step (k + 1) st ('#' :: (t ++ '\n' :: r)) = runAux step k st r := by
    intro t r k ht
    rw [runAux, if_neg (by simp), hstep, (ShellLemmas.afterComment_of ht r).1]
    rfl
  unfold run at h ⊢
  rw [two a _ _ ha]
  obtain ⟨j, hj, hjs⟩ : ∃ j, ('#' :: (a ++ '\n' :: '#' :: (b ++ '\n' :: s))).length = j + 1 ∧ s.length + 1 ≤ j := by
    refine ⟨(a ++ '\n' :: '#' :: (b ++ '\n' :: s)).length, rfl, ?_⟩
    simp only [List.length_append, List.length_cons]
    omega
  rw [hj, two b _ _ hb]
  exact run_more _ _ _ _ h hjs

theorem run_header {step : State → Str → Option (State × Str)} (hstep : ∀ st r, step st ('#' :: r) = some (st, afterComment r))
    {pkgs : List Str} {shell s : Str} (hp : ∀ p ∈ pkgs, '\n' ∉ p) (hs : '\n' ∉ shell) {st st' : State} (h : run step st s = some st') :
    run step st (header pkgs shell ++ s) = some st' := by
  have h1 : '\n' ∉ c!" rez-next activation script (" ++ (shell ++ c!")") := by
    rw [List.mem_append, List.mem_append, not_or, not_or]
    exact ⟨by decide, hs, by decide⟩
  have h2 : '\n' ∉ c!" packages: " ++ joinWith c!", " pkgs := by
    rw [List.mem_append, not_or]
    refine ⟨by decide, fun hm => ?_⟩
    rcases mem_joinWith hm with hm | ⟨p, hp', hm⟩
    · revert hm
      decide
    · exact hp p hp' hm
  have := run_comments hstep h1 h2 h
  have e : header pkgs shell ++ s = '#' :: ((c!" rez-next activation script (" ++ (shell ++ c!")")) ++ '\n' ::
      '#' :: ((c!" packages: " ++ joinWith c!", " pkgs) ++ '\n' :: s)) := by
    unfold header
    simp only [List.append_assoc, List.cons_append, List.nil_append]
  rw [e]
  exact this

end SourceLemmas
open SourceLemmas

/-- C233 (bash and zsh): reading the script sets the variables of the requests and nothing else, if no request has a character that
bash expands.  Every shell that is not known gets this script. -/
theorem C233_bash (h : Here) (pkgs : List Str) (shell : Str) (st : State)
    (hs : lower shell ∉ [c!"fish", c!"cmd", c!"powershell", c!"pwsh", c!"ps1"]) (hl : '\n' ∉ shell) (hn : Nameable pkgs)
    (hw : Without c!"\n$`" h pkgs) : ∃ st', run bashStep st (build h pkgs shell) = some st' ∧ Done h pkgs st st' := by
  have hscript : script { Env.new with vars := allVars h pkgs } (shellOf shell) = bashScript { Env.new with vars := allVars h pkgs } := by
    simp only [List.mem_cons, not_or, List.not_mem_nil, not_false_eq_true, and_true] at hs
    unfold shellOf
    by_cases hz : lower shell = c!"zsh"
    · simp only [if_pos hz]
      rfl
    · simp only [hz, hs, or_self, if_false]
      rfl
  obtain ⟨st', h1, h2, h3⟩ := C59_bash_partial { Env.new with vars := allVars h pkgs } st (nodup_all h pkgs) List.nodup_nil
    (fun x hx => sets_name hn (sets_of_mem hx))
    (fun x hx c hc => ⟨fun e => sets_without hw (sets_of_mem hx) (by decide : '$' ∈ c!"\n$`") (by decide) (e ▸ hc),
      fun e => sets_without hw (sets_of_mem hx) (by decide : '`' ∈ c!"\n$`") (by decide) (e ▸ hc)⟩)
    (fun x hx => nomatch hx) (fun x hx => nomatch hx) rfl rfl
  refine ⟨st', ?_, done_of h2 h3⟩
  unfold build
  rw [hscript]
  exact run_header ShellLemmas.bash_hash (hw '\n' (by decide)).1 hl h1

/-- C233 (fish). -/
theorem C233_fish (h : Here) (pkgs : List Str) (shell : Str) (st : State)
    (hs : lower shell = c!"fish") (hl : '\n' ∉ shell) (hn : Nameable pkgs)
    (hw : Without c!"\n$" h pkgs) : ∃ st', run (fishStep c!"-gx") st (build h pkgs shell) = some st' ∧ Done h pkgs st st' := by
  have hscript : script { Env.new with vars := allVars h pkgs } (shellOf shell) = fishScript { Env.new with vars := allVars h pkgs } := by
    unfold shellOf
    simp only [hs]
    rfl
  obtain ⟨st', h1, h2, h3⟩ := C59_fish_partial { Env.new with vars := allVars h pkgs } st (nodup_all h pkgs) List.nodup_nil
    (fun x hx => sets_name hn (sets_of_mem hx))
    (fun x hx => sets_without hw (sets_of_mem hx) (by decide : '$' ∈ c!"\n$") (by decide))
    (fun x hx => nomatch hx) (fun x hx => nomatch hx) rfl rfl
  refine ⟨st', ?_, done_of h2 h3⟩
  unfold build
  rw [hscript]
  exact run_header (ShellLemmas.fish_hash _) (hw '\n' (by decide)).1 hl h1

/-- C233 (PowerShell). -/
theorem C233_powershell (h : Here) (pkgs : List Str) (shell : Str) (st : State)
    (hs : lower shell ∈ [c!"powershell", c!"pwsh", c!"ps1"]) (hl : '\n' ∉ shell) (hn : Nameable pkgs)
    (hw : Without c!"\n‘’‚‛" h pkgs) : ∃ st', run psStep st (build h pkgs shell) = some st' ∧ Done h pkgs st st' := by
  have hscript : script { Env.new with vars := allVars h pkgs } (shellOf shell) = psScript { Env.new with vars := allVars h pkgs } := by
    simp only [List.mem_cons, List.not_mem_nil, or_false] at hs
    unfold shellOf
    rcases hs with hs | hs | hs <;> simp only [hs] <;> rfl
  obtain ⟨st', h1, h2, h3⟩ := C59_powershell_partial { Env.new with vars := allVars h pkgs } st (nodup_all h pkgs) List.nodup_nil
    (fun x hx => by
      obtain ⟨c, s, hk, h1, h2⟩ := sets_name hn (sets_of_mem hx)
      have hall : ∀ y ∈ x.1, isTok y = true := by
        rw [hk]
        intro y hy
        rcases List.mem_cons.mp hy with rfl | hy
        · rcases h1 with h1 | rfl
          · simp [isTok, h1]
          · decide
        · exact h2 y hy
      refine ⟨by rw [hk]; simp, fun hb => ?_, fun hb => ?_⟩ <;> exact absurd (hall _ hb) (by decide))
    (fun x hx c hc => sets_without hw (sets_of_mem hx) (List.mem_cons_of_mem _ hc) (by revert c; decide))
    (fun x hx => nomatch hx) (fun x hx => nomatch hx) rfl rfl
  refine ⟨st', ?_, done_of h2 h3⟩
  unfold build
  rw [hscript]
  exact run_header ShellLemmas.ps_hash (hw '\n' (by decide)).1 hl h1

/-- C233: `SourceManager` and the functions write exactly the script that is shown, to the path asked for, or nothing. -/
theorem C233_manager (m : Manager) (h : Here) (dest : Str) (shell : Option Str) :
    (h.makeParent dest = true ∧ h.canWrite dest = true → ∃ r, m.write h dest shell = .ok (r, some (dest, m.content h shell)) ∧
      (r = dest ∨ h.canonical dest = some r)) ∧
    (h.makeParent dest = false ∨ h.canWrite dest = false → m.write h dest shell = .err) := by
  unfold Manager.write Manager.content
  constructor
  · rintro ⟨h1, h2⟩
    refine ⟨_, by simp [h1, h2]; rfl, ?_⟩
    cases h.canonical dest <;> simp
  · rintro (h1 | h1) <;> simp [h1]

/-- C233: the three modes; another mode is an error. -/
theorem C233_modes (h : Here) (pkgs : List Str) (shell : Str) :
    let text := (Manager.new h pkgs (if shell = c!"auto" ∨ shell = [] then none else some shell)).content h none
    resolveMode h pkgs shell c!"inline" = .ok (text, none) ∧
    (∀ dest, h.makeParent dest = true → h.canWrite dest = true →
      resolveMode h pkgs shell (c!"file:" ++ dest) = .ok (dest, some (dest, text))) ∧
    (∀ dest, h.makeParent dest = false ∨ h.canWrite dest = false → resolveMode h pkgs shell (c!"file:" ++ dest) = .err) ∧
    ((∃ f, resolveMode h pkgs shell c!"tempfile" = .ok (f, some (f, text))) ∨ resolveMode h pkgs shell c!"tempfile" = .err) ∧
    ∀ mode, mode ≠ c!"inline" → mode ≠ c!"tempfile" → ¬ c!"file:" <+: mode → resolveMode h pkgs shell mode = .err := by
  intro text
  have ht : text = build h pkgs (if shell = c!"auto" ∨ shell = [] then detectShell h else shell) := by
    show build h pkgs _ = _
    unfold Manager.new
    split <;> rfl
  rw [ht]
  have hfile : ∀ dest : Str, c!"file:" ++ dest ≠ c!"inline" ∧ c!"file:" ++ dest ≠ c!"tempfile" ∧
      (c!"file:").isPrefixOf (c!"file:" ++ dest) = true ∧ (c!"file:" ++ dest).drop 5 = dest := by
    intro dest
    refine ⟨fun e => ?_, fun e => ?_, List.isPrefixOf_iff_prefix.mpr (List.prefix_append _ _), rfl⟩
    · injection e with e _
      revert e
      decide
    · injection e with e _
      revert e
      decide
  refine ⟨by unfold resolveMode; simp, fun dest h1 h2 => ?_, fun dest h1 => ?_, ?_, fun mode h1 h2 h3 => ?_⟩
  · obtain ⟨f1, f2, f3, f4⟩ := hfile dest
    unfold resolveMode
    simp only
    rw [if_neg f1, if_neg f2, if_pos f3, f4]
    simp [h1, h2]
  · obtain ⟨f1, f2, f3, f4⟩ := hfile dest
    unfold resolveMode
    simp only
    rw [if_neg f1, if_neg f2, if_pos f3, f4]
    rcases h1 with h1 | h1 <;> simp [h1]
  · unfold resolveMode
    simp only
    rw [if_neg (by decide), if_pos trivial]
    generalize (if shell = c!"auto" ∨ shell = [] then detectShell h else shell) = sh
    by_cases hc : h.canWrite (tempFile h sh) = true
    · exact .inl ⟨_, by rw [if_pos hc]⟩
    · exact .inr (by rw [if_neg hc])
  · unfold resolveMode
    simp only
    rw [if_neg h1, if_neg h2, if_neg fun e => h3 (List.isPrefixOf_iff_prefix.mp e)]

/-- C233: the temporary file is in the directory for them, named after the process and the shell; it is written if it can be. -/
theorem C233_tempfile (h : Here) (pkgs : List Str) (shell : Str) (hs : shell ≠ c!"auto" ∧ shell ≠ []) :
    let f := Which.join h.temp (c!"rez_next_activate_" ++ decimal h.pid ++
      if shell ∈ [c!"powershell", c!"pwsh"] then c!".ps1" else if shell = c!"cmd" then c!".bat" else c!".sh")
    (h.canWrite f = true → resolveMode h pkgs shell c!"tempfile" = .ok (f, some (f, build h pkgs shell))) ∧
    (h.canWrite f = false → resolveMode h pkgs shell c!"tempfile" = .err) ∧
    (h.canWrite f = true → h.makeParent f = true → (∃ r, (Manager.new h pkgs (some shell)).writeTemp h none = .ok (r, some (f, build h pkgs shell))) ∧
      ∀ other, ∃ r, (Manager.new h pkgs other).writeTemp h (some shell) = .ok (r, some (f, build h pkgs shell))) := by
  intro f
  have hf : tempFile h shell = f := by
    show Which.join _ _ = Which.join _ _
    congr 1
    unfold extension
    simp only [List.mem_cons, List.not_mem_nil, or_false, List.append_assoc]
    split
    · rfl
    · split <;> rfl
  have e : resolveMode h pkgs shell c!"tempfile" = if h.canWrite f then .ok (f, some (f, build h pkgs shell)) else .err := by
    have hsh : (if shell = c!"auto" ∨ shell = [] then detectShell h else shell) = shell :=
      if_neg (by rintro (h1 | h1); exacts [hs.1 h1, hs.2 h1])
    unfold resolveMode
    simp only [hsh, hf]
    rw [if_neg (by decide), if_pos trivial]
  refine ⟨fun hc => by rw [e, if_pos hc], fun hc => by rw [e, hc]; rfl, fun hc hm => ?_⟩
  unfold Manager.writeTemp Manager.write Manager.new
  simp only [Option.getD_none, Option.getD_some, hf, hc, hm]
  exact ⟨⟨_, rfl⟩, fun _ => ⟨_, rfl⟩⟩

/-- C233: the shell that is found: the one named in `SHELL`, in small or capital letters, or bash. -/
theorem C233_detect (h : Here) :
    (getVar h c!"SHELL" = none → detectShell h = c!"bash") ∧
    ∀ s, getVar h c!"SHELL" = some s →
      (c!"zsh" <:+: lower s → detectShell h = c!"zsh") ∧
      (¬ c!"zsh" <:+: lower s → c!"fish" <:+: lower s → detectShell h = c!"fish") ∧
      (¬ c!"zsh" <:+: lower s → ¬ c!"fish" <:+: lower s → c!"pwsh" <:+: lower s ∨ c!"powershell" <:+: lower s →
        detectShell h = c!"powershell") ∧
      (¬ c!"zsh" <:+: lower s → ¬ c!"fish" <:+: lower s → ¬ c!"pwsh" <:+: lower s → ¬ c!"powershell" <:+: lower s →
        detectShell h = c!"bash") := by
  unfold detectShell
  refine ⟨fun e => by rw [e], fun s e => ?_⟩
  rw [e]
  simp only [← containsStr_iff]
  refine ⟨fun h1 => ?_, fun h1 h2 => ?_, fun h1 h2 h3 => ?_, fun h1 h2 h3 h4 => ?_⟩
  · rw [if_pos h1]
  · rw [if_neg h1, if_pos h2]
  · rw [if_neg h1, if_neg h2, if_pos (by rw [Bool.or_eq_true]; exact h3)]
  · rw [if_neg h1, if_neg h2, if_neg (by rw [Bool.or_eq_true, not_or]; exact ⟨h3, h4⟩)]

/-! ## Status -/
namespace SourceLemmas

theorem mget_status (env : List (Str × Option Str)) (hu : ∀ x ∈ env, x.2 ≠ none) (k : Str) :
    mget ((env.filterMap fun x => x.2.map fun v => (x.1, v)).filter fun x => (c!"REZ_").isPrefixOf x.1) k =
      if (c!"REZ_").isPrefixOf k = true then (mget env k).join else none := by
  generalize c!"REZ_" = pre
  induction env with
  | nil => simp
  | cons x env ih =>
    obtain ⟨j, v⟩ := x
    have ih := ih fun y hy => hu y (List.mem_cons_of_mem _ hy)
    cases v with
    | none => exact absurd rfl (hu (j, none) (by simp))
    | some v =>
      simp only [List.filterMap_cons, Option.map_some, List.filter_cons]
      by_cases hj : pre.isPrefixOf j = true
      · rw [if_pos hj, mget, mget, ih]
        by_cases hk : j = k
        · subst hk
          simp [hj]
        · simp [hk]
      · rw [if_neg hj, ih, mget]
        by_cases hk : j = k
        · subst hk
          simp [hj]
        · simp [hk]

theorem infix_left {α : Type} {x a b : List α} (h : x <:+: a) : x <:+: a ++ b := h.trans (List.prefix_append _ _).isInfix

end SourceLemmas

/-- C233: the status says what the variables say, and agrees with the functions that look at one of them. -/
theorem C233_status (h : Here) (hu : Unicode h) : ∃ s, detect h = .ok s ∧ s.active = inContext h ∧ s.contextFile = contextFile h ∧
    s.resolved = resolvedNames h ∧ s.shell = some (detectShell h) ∧ s.version = getVar h c!"REZ_VERSION" ∧
    s.cwd = getVar h c!"REZ_ORIG_CWD" ∧ s.requested = wordsOf (getVar h c!"REZ_REQUEST") ∧
    s.implicit = wordsOf (getVar h c!"REZ_IMPLICIT_PACKAGES") ∧
    (s.active = true ↔ getVar h c!"REZ_CONTEXT_FILE" ≠ none ∨ getVar h c!"REZ_USED_PACKAGES_NAMES" ≠ none) ∧
    ∀ k, mget s.vars k = if c!"REZ_" <+: k then getVar h k else none := by
  have hany : (h.env.any fun x => x.2.isNone) = false := by
    rw [List.any_eq_false]
    intro x hx
    have := hu x hx
    cases hx2 : x.2 with
    | none => exact absurd hx2 this
    | some v => simp
  unfold detect
  rw [if_neg (by rw [hany]; simp)]
  have hm := mget_status h.env hu
  refine ⟨_, rfl, ?_, ?_, ?_, rfl, ?_, ?_, ?_, ?_, ?_, fun k => ?_⟩
  · simp only [hm, inContext, getVar]
    rfl
  · simp only [hm, contextFile, getVar]
    rfl
  · simp only [hm, resolvedNames, getVar]
    rfl
  · simp only [hm, getVar]
    rfl
  · simp only [hm, getVar]
    rfl
  · simp only [hm, getVar]
    rfl
  · simp only [hm, getVar]
    rfl
  · simp only [hm]
    have e : ∀ t : Str, (c!"REZ_").isPrefixOf t = true → (if (c!"REZ_").isPrefixOf t = true then (mget h.env t).join else none) = getVar h t :=
      fun t ht => by rw [if_pos ht]; rfl
    rw [e _ rfl, e _ rfl, Bool.or_eq_true, Option.isSome_iff_ne_none, Option.isSome_iff_ne_none]
  · rw [hm]
    simp only [List.isPrefixOf_iff_prefix]
    rfl

/-- C233: the packages of an environment are read back from the variable that lists them. -/
theorem C233_lists (h : Here) (names : List Str) (hn : ∀ w ∈ names, w ≠ [] ∧ ∀ c ∈ w, isWs c = false)
    (hv : getVar h c!"REZ_USED_PACKAGES_NAMES" = some (joinWith c!" " names)) : resolvedNames h = names ∧ inContext h = true := by
  unfold resolvedNames inContext
  rw [hv]
  exact ⟨splitWs_join names hn, by simp⟩

/-- C233: what is printed of an environment ends with its packages, one on a line. -/
theorem C233_print (s : Status) : (s.active = false → s.print = c!"Not in a rez context.\n") ∧
    (s.active = true → c!"Current rez context:\n" <+: s.print ∧
      (c!"  packages (" ++ decimal s.resolved.length ++ c!"):\n" ++ s.resolved.flatMap fun p => c!"    " ++ p ++ c!"\n") <:+ s.print) := by
  unfold Status.print
  constructor
  · intro h
    rw [h]
    rfl
  · intro h
    rw [if_pos h]
    refine ⟨?_, ?_⟩
    · simp only [List.append_assoc]
      exact List.prefix_append _ _
    · simp only [List.append_assoc]
      exact ((((List.suffix_refl _).trans (List.suffix_append _ _)).trans (List.suffix_append _ _)).trans (List.suffix_append _ _)).trans
        ((List.suffix_append _ _).trans (List.suffix_append _ _))

/-- C233: and says before them where the environment comes from, as far as that is known. -/
theorem C233_told (s : Status) (hs : s.active = true) (v : Str) :
    (s.contextFile = some v → (c!"\n  context file : " ++ v ++ c!"\n") <:+: s.print) ∧
    (s.cwd = some v → (c!"  created in   : " ++ v ++ c!"\n") <:+: s.print) ∧
    (s.shell = some v → (c!"  shell        : " ++ v ++ c!"\n") <:+: s.print) ∧
    (s.version = some v → (c!"  rez version  : " ++ v ++ c!"\n") <:+: s.print) ∧
    s.repr = c!"RezStatus(active, " ++ decimal s.resolved.length ++ c!" packages)" := by
  unfold Status.print Status.repr
  rw [if_pos hs, if_pos hs]
  refine ⟨fun e => ?_, fun e => ?_, fun e => ?_, fun e => ?_, rfl⟩ <;> rw [e] <;> simp only [Option.elim_some]
  · exact ⟨c!"Current rez context:", _, by
      rw [show c!"Current rez context:\n" = c!"Current rez context:" ++ c!"\n" from rfl,
        show c!"\n  context file : " = c!"\n" ++ c!"  context file : " from rfl]
      simp only [List.append_assoc]; rfl⟩
  · iterate 6 apply infix_left
    exact (List.suffix_append _ _).isInfix
  · iterate 5 apply infix_left
    exact (List.suffix_append _ _).isInfix
  · iterate 4 apply infix_left
    exact (List.suffix_append _ _).isInfix

/-- C233: a variable of rez, by its name or by what follows `REZ_` in it, in small letters too. -/
theorem C233_variable (h : Here) (key : Str) :
    rezVar h (c!"REZ_" ++ key) = getVar h (c!"REZ_" ++ key) ∧
    (¬ c!"REZ_" <+: key → rezVar h key = getVar h (c!"REZ_" ++ key.map upperChar)) := by
  unfold rezVar
  constructor
  · rw [if_pos (List.isPrefixOf_iff_prefix.mpr (List.prefix_append _ _))]
  · intro hk
    rw [if_neg fun e => hk (List.isPrefixOf_iff_prefix.mp e)]
    rfl

/-! ## Where it is false, and examples -/

/-- One process. -/
def oneHere (env : List (Str × Option Str)) : Here where
  env := env
  temp := c!"/tmp"
  pid := 7
  makeParent := fun _ => true
  canWrite := fun _ => true
  canonical := fun _ => none

example : Nameable [c!"python-3.9", c!"maya-2024"] ∧ Without c!"\n$`" (oneHere []) [c!"python-3.9", c!"maya-2024"] ∧
    Without c!"\n‘’‚‛" (oneHere []) [c!"python-3.9", c!"maya-2024"] ∧
    OfRequest [c!"python-3.9", c!"maya-2024"] c!"REZPKG_PYTHON" c!"3.9" := by
  have hreq : ∀ pkg n v n' v' : Str, Request pkg n v → Request pkg n' v' → n = n' := by
    intro pkg n v n' v' h1 h2
    have e : n.map capital = n'.map capital ∧ v = v' := by
      have := (request_var h1).symm.trans (request_var h2)
      exact ⟨List.append_cancel_left (congrArg Prod.fst this), congrArg Prod.snd this⟩
    obtain ⟨-, rfl⟩ := e
    rcases h1.2 with r1 | ⟨r1, q1⟩ <;> rcases h2.2 with r2 | ⟨r2, q2⟩
    · exact List.append_cancel_right (r1.symm.trans r2)
    · subst q2
      exact absurd (r2 ▸ r1 ▸ (by simp : '-' ∈ n ++ ['-'])) h2.1
    · subst q1
      exact absurd (r1 ▸ r2 ▸ (by simp : '-' ∈ n' ++ ['-'])) h1.1
    · exact r1.symm.trans r2
  have hp : Request c!"python-3.9" c!"python" c!"3.9" := ⟨by decide, .inl rfl⟩
  have hm : Request c!"maya-2024" c!"maya" c!"2024" := ⟨by decide, .inl rfl⟩
  have w : ∀ bad : Str, (∀ c ∈ bad, c ∉ c!"python-3.9" ∧ c ∉ c!"maya-2024" ∧ c ∉ c!"/tmp") →
      Without bad (oneHere []) [c!"python-3.9", c!"maya-2024"] := by
    intro bad hb c hc
    obtain ⟨h1, h2, h3⟩ := hb c hc
    refine ⟨?_, h3, fun p hp => by cases hp⟩
    intro pkg hpkg
    simp only [List.mem_cons, List.not_mem_nil, or_false] at hpkg
    rcases hpkg with rfl | rfl
    · exact h1
    · exact h2
  refine ⟨?_, w _ (by decide), w _ (by decide), ⟨[], _, [c!"maya-2024"], c!"python", rfl, hp, rfl, ?_⟩⟩
  · intro pkg hpkg n v hr
    simp only [List.mem_cons, List.not_mem_nil, or_false] at hpkg
    rcases hpkg with rfl | rfl
    · rw [hreq _ _ _ _ _ hr hp]
      decide
    · rw [hreq _ _ _ _ _ hr hm]
      decide
  · intro q hq n w' hr
    rw [List.mem_singleton.mp hq] at hr
    rw [hreq _ _ _ _ _ hr hm]
    decide

/-- C233 is false of names with a dash: the variable is that of the first part. -/
theorem C233_dash_false : packageVar c!"my-tool-1.0" = (c!"REZPKG_MY", c!"tool-1.0") := by decide +kernel

set_option maxRecDepth 100000 in
/-- C233 is false of requests with a line break: the rest of the request is run as a command. -/
theorem C233_line_false (st : State) : ∃ st', run bashStep st (build (oneHere []) [c!"a-1\nexport B=\"x\""] c!"bash") = some st' ∧
    st'.var c!"B" = some c!"x" := ⟨_, rfl, rfl⟩

/-- C233 is false of two scripts of one process: both are the same temporary file. -/
theorem C233_temp_false (h : Here) (hw : ∀ f, h.makeParent f = true ∧ h.canWrite f = true) (p q : List Str) :
    ∃ f, (∃ r, (Manager.mk p c!"bash").writeTemp h none = .ok (r, some (f, build h p c!"bash"))) ∧
      ∃ r, (Manager.mk q c!"bash").writeTemp h none = .ok (r, some (f, build h q c!"bash")) := by
  refine ⟨tempFile h c!"bash", ?_, ?_⟩ <;>
  · unfold Manager.writeTemp Manager.write
    rw [if_neg (by simp [hw])]
    exact ⟨_, rfl⟩

/-- C233 is false of the endings of temporary files: `PowerShell` is a name of PowerShell, and the file is called `.sh`. -/
theorem C233_ending_false : shellOf c!"PowerShell" = .powershell ∧ extension c!"PowerShell" = c!"sh" := by decide +kernel

set_option maxRecDepth 100000 in
/-- C233 is false of `cmd`: the script begins with a line that is no comment there. -/
theorem C233_cmd_false (h : Here) : (build h [] c!"cmd").take 24 = c!"# rez-next activation sc" ∧ shellOf c!"cmd" = .cmd := ⟨rfl, by decide⟩

set_option maxRecDepth 100000 in
/-- C233 is false of the two together: after the script a context is active, and has no packages. -/
theorem C233_active_false : ∃ st', run bashStep ⟨fun _ => none, fun _ => none⟩ (build (oneHere []) [c!"a-1"] c!"bash") = some st' ∧
    (st'.var c!"REZ_CONTEXT_FILE").isSome = true ∧ st'.var c!"REZ_USED_PACKAGES_NAMES" = none ∧
    resolvedNames (oneHere [(c!"REZ_CONTEXT_FILE", st'.var c!"REZ_CONTEXT_FILE"), (c!"REZ_RESOLVE", st'.var c!"REZ_RESOLVE")]) = [] ∧
    inContext (oneHere [(c!"REZ_CONTEXT_FILE", st'.var c!"REZ_CONTEXT_FILE"), (c!"REZ_RESOLVE", st'.var c!"REZ_RESOLVE")]) = true :=
  ⟨_, rfl, rfl, rfl, rfl, rfl⟩

/-- C233 is false of environments with any value that is not Unicode: the status panics. -/
theorem C233_unicode_false (h : Here) (k : Str) (hk : (k, none) ∈ h.env) : detect h = .panic := by
  unfold detect
  rw [if_pos (List.any_eq_true.mpr ⟨_, hk, rfl⟩)]

/-- C233 is false of a whole name in small letters. -/
theorem C233_small_false : rezVar (oneHere [(c!"REZ_VERSION", some c!"1")]) c!"version" = some c!"1" ∧
    rezVar (oneHere [(c!"REZ_VERSION", some c!"1")]) c!"rez_version" = none := by decide +kernel

example : Unicode (oneHere [(c!"REZ_USED_PACKAGES_NAMES", some c!"a-1 b-2")]) ∧
    resolvedNames (oneHere [(c!"REZ_USED_PACKAGES_NAMES", some c!"a-1 b-2")]) = [c!"a-1", c!"b-2"] := by
  refine ⟨?_, by decide +kernel⟩
  intro x hx
  rw [List.mem_singleton.mp hx]
  simp

end Rez.Props
