import Verif.Lemmas.AStar
/-!
# Properties of the A* search
-/
namespace Rez.Props
open Rez Rez.Spec Search

/-! ## A concrete search -/

/-- A package without variants. -/
def apkg (name : Str) (version : Option Str) (requires : List Str) : Package :=
  ⟨name, version.bind Version.parse, requires, [], [], none⟩

/-- The requirement that a text denotes. -/
def areq (s : Str) : PackageRequirement :=
  match PackageRequirement.parse s with
  | .ok q => q
  | _ => ⟨[], none, false, false⟩

/-- The major version as `calculate_package_cost` reads it. -/
def major (p : Package) : Nat :=
  match p.version with
  | none => 0
  | some v => min 100 (((splitChar '.' v.asStr).filterMap parseU64).head?.getD 0)

/-- The cost of a state, in thousandths, with the heuristic that is always zero. -/
def cost (s : SState) : Nat := (s.resolved.map fun e => 1000 + 100 * e.2.requires.length - major e.2).sum

/-- The index of the cheapest state. -/
def cheapest : List SState → Nat
  | [] => 0
  | x :: l => if l.all fun y => cost x ≤ cost y then 0 else cheapest l + 1

/-- A hash of texts. -/
def textHash (l : List HashItem) : Nat :=
  l.foldl (fun n i => match i with
    | .text s => s.foldl (fun n c => n * 131 + c.toNat) (n * 131 + 1)
    | .tag _ => n * 131 + 2) 7

/-- A repository given by a list of packages; the cheapest state is taken first. -/
def demoSearch (ps : List Package) : AEnv where
  find := fun n => some (ps.filter fun p => p.name == n)
  allowPrerelease := false
  maxStates := 100
  hash := textHash
  pick := fun _ l => cheapest l
  late := fun _ => false

theorem demoSearch_ok (ps : List Package) : FindOk (demoSearch ps) := by
  intro n qs p h hp
  simp only [demoSearch, Option.some.injEq] at h
  subst h
  simpa using (List.mem_filter.mp hp).2

/-- What a search found, as texts. -/
inductive Found where
  | packages (l : List (Str × Option Str))
  | nothing
  | error
  | aborted
  | unfinished
deriving DecidableEq

/-- What a search found, as texts. -/
def foundBy (r : Option (Searcher × SearchResult)) : Found :=
  match r with
  | none => .unfinished
  | some (_, .found s) => .packages (s.resolved.map fun e => (e.1, e.2.version.map Version.asStr))
  | some (_, .none) => .nothing
  | some (_, .err) => .error
  | some (_, .panic) => .aborted

theorem foundBy_packages {r : Option (Searcher × SearchResult)} {l : List (Str × Option Str)}
    (h : foundBy r = .packages l) : ∃ s g, r = some (s, .found g) ∧
      (chosen g).length = l.length := by
  unfold foundBy at h
  split at h
  · cases h
  · rename_i s g
    simp only [Found.packages.injEq] at h
    exact ⟨s, g, rfl, by rw [← h, chosen, List.length_map, List.length_map]⟩
  · cases h
  · cases h
  · cases h

/-! ## C36 -/

set_option maxRecDepth 100000 in
/-- C36, refuted: of two requirements on one family only the first counts. -/
theorem C36_second_requirement_false :
    foundBy (search (demoSearch [apkg c!"a" (some c!"1") [], apkg c!"a" (some c!"2") []]) 20 Searcher.new
      [areq c!"a-1", areq c!"a-2"]) = .packages [(c!"a", some c!"1")] := by decide +kernel

set_option maxRecDepth 100000 in
/-- C36, refuted: what a package requires of a family that is already chosen is not looked at. -/
theorem C36_dependency_false :
    foundBy (search (demoSearch [apkg c!"a" (some c!"1") [], apkg c!"a" (some c!"2") [],
      apkg c!"b" (some c!"1") [c!"a-1"]]) 20 Searcher.new [areq c!"a", areq c!"b"]) =
      .packages [(c!"b", some c!"1"), (c!"a", some c!"2")] := by decide +kernel

set_option maxRecDepth 100000 in
/-- C36, refuted: a conflict brings in the very package it excludes. -/
theorem C36_conflict_false :
    foundBy (search (demoSearch [apkg c!"a" (some c!"1") [c!"!b"], apkg c!"b" (some c!"1") []]) 20 Searcher.new
      [areq c!"a"]) = .packages [(c!"b", some c!"1"), (c!"a", some c!"1")] := by decide +kernel

set_option maxRecDepth 100000 in
/-- C36, refuted: a version text that is no range is ignored. -/
theorem C36_unreadable_range_false :
    foundBy (search (demoSearch [apkg c!"a" (some c!"1") [], apkg c!"a" (some c!"2.5") []]) 20 Searcher.new
      [areq c!"a==1.*"]) = .packages [(c!"a", some c!"2.5")] := by decide +kernel

set_option maxRecDepth 100000 in
/-- C36, refuted: a searcher that is used again without `clear` may answer with what is left of an earlier search. -/
theorem C36_leftover_false :
    let env := demoSearch [apkg c!"a" (some c!"1") [], apkg c!"a" (some c!"2") [], apkg c!"a" (some c!"3") [],
      apkg c!"b" (some c!"1") []]
    (match search env 20 Searcher.new [areq c!"a"] with
      | some (s, _) => foundBy (search env 20 s [areq c!"b"])
      | none => .unfinished) = .packages [(c!"a", some c!"2")] := by decide +kernel

/-- C36, partial: when all requirements on a family agree about the packages they accept, no requirement is a conflict
and every version text is a range, what a search finds satisfies the request and all requirements of the packages
found.  Missing: requirements that differ, conflicts, other version texts and searchers used before; there the claim is
false. -/
theorem C36_agreeing_partial {env : AEnv} (fok : FindOk env) {reqs : List PackageRequirement} (ag : Agreeing env reqs)
    {fuel : Nat} {s : Searcher} {g : SState} (h : search env fuel Searcher.new reqs = some (s, .found g)) :
    ∀ q, Asked reqs (chosen g) q → AHolds (chosen g) q := by
  obtain ⟨hinv, hgoal⟩ := loop_found (SInv env reqs) (fun s l hs hl => sinv_successors fok hs hl) fuel 0 _ s _
    (fun x hx => by
      simp only [Searcher.new, List.nil_append, List.mem_singleton] at hx
      subst hx
      exact sinv_initial env reqs) h g rfl
  have hpend : g.pending = [] := by
    unfold SState.isGoal at hgoal
    simp only [Bool.and_eq_true, List.isEmpty_iff] at hgoal
    exact hgoal.1
  have hmem : ∀ p ∈ chosen g, mget g.resolved p.name = some p := by
    intro p hp
    obtain ⟨e, he, rfl⟩ := List.mem_map.mp hp
    have hg := mget_of_mem hinv.keys (k := e.1) (v := e.2) he
    rw [(hinv.named _ _ hg).1]
    exact hg
  intro q hq
  have hst : AStated env reqs q := by
    rcases hq with hq | ⟨p, hp, raw, hraw, hparse⟩
    · exact .inl hq
    · exact .inr ⟨p, (hinv.named _ _ (hmem p hp)).2.1, raw, hraw, hparse⟩
  have hkey : q.name ∈ mkeys g.resolved := by
    rcases hq with hq | ⟨p, hp, raw, hraw, hparse⟩
    · rcases hinv.req q hq with hx | hx
      · rw [hpend] at hx; cases hx
      · exact hx
    · rcases hinv.deps _ _ (hmem p hp) raw hraw q hparse with hx | hx
      · rw [hpend] at hx; cases hx
      · exact hx
  obtain ⟨p, hp⟩ := (mget_isSome_iff _ _).mpr hkey
  obtain ⟨hpn, hlist, _, q', hst', hqn', hex⟩ := hinv.named _ _ hp
  have hin' : InSpec q' p := inSpec_of_specExcludes hex (ag.plain q' hst').2
  have hin : InSpec q p := ag.same q' q hst' hst hqn' p hlist (hpn.trans hqn'.symm) hin'
  have hpc : p ∈ chosen g := List.mem_map.mpr ⟨_, mget_some_mem hp, rfl⟩
  unfold AHolds
  rw [(ag.plain q hst).1]
  simp only [Bool.false_eq_true, if_false]
  split
  · intro p2 hp2 hn2
    have := hmem p2 hp2
    rw [hn2, hp] at this
    simp only [Option.some.injEq] at this
    exact this ▸ hin
  · exact ⟨p, hpc, hpn, hin⟩

/-- C36, partial: without any assumption on the request, what a search finds contains a package of every family that is
asked for, every package found is one the repository lists, none is an unwanted pre-release, and each is accepted by
one of the requirements on its family. -/
theorem C36_families_partial {env : AEnv} (fok : FindOk env) {reqs : List PackageRequirement}
    {fuel : Nat} {s : Searcher} {g : SState} (h : search env fuel Searcher.new reqs = some (s, .found g)) :
    (∀ q, Asked reqs (chosen g) q → ∃ p ∈ chosen g, p.name = q.name) ∧
    ((chosen g).map fun p => p.name).Nodup ∧
    ∀ p ∈ chosen g, AListed env p ∧
      (∀ v, p.version = some v → env.allowPrerelease = true ∨ v.isPrerelease = false) ∧
      ∃ q, (q ∈ reqs ∨ ∃ p', AListed env p' ∧ ∃ raw ∈ p'.requires, PackageRequirement.parse raw = .ok q) ∧
        q.name = p.name ∧ ∀ spec v range, q.spec = some spec → p.version = some v →
          VersionRange.parse spec = some range → range.contains v = true := by
  obtain ⟨hinv, hgoal⟩ := loop_found (SInv env reqs) (fun s l hs hl => sinv_successors fok hs hl) fuel 0 _ s _
    (fun x hx => by
      simp only [Searcher.new, List.nil_append, List.mem_singleton] at hx
      subst hx
      exact sinv_initial env reqs) h g rfl
  have hpend : g.pending = [] := by
    unfold SState.isGoal at hgoal
    simp only [Bool.and_eq_true, List.isEmpty_iff] at hgoal
    exact hgoal.1
  have hmem : ∀ e ∈ g.resolved, mget g.resolved e.1 = some e.2 ∧ e.2.name = e.1 := by
    intro e he
    have hg := mget_of_mem hinv.keys (k := e.1) (v := e.2) he
    exact ⟨hg, (hinv.named _ _ hg).1⟩
  refine ⟨?_, ?_, ?_⟩
  · intro q hq
    have hkey : q.name ∈ mkeys g.resolved := by
      rcases hq with hq | ⟨p, hp, raw, hraw, hparse⟩
      · rcases hinv.req q hq with hx | hx
        · rw [hpend] at hx; cases hx
        · exact hx
      · obtain ⟨e, he, rfl⟩ := List.mem_map.mp hp
        rcases hinv.deps _ _ (hmem e he).1 raw hraw q hparse with hx | hx
        · rw [hpend] at hx; cases hx
        · exact hx
    obtain ⟨e, he, hen⟩ := List.mem_map.mp hkey
    exact ⟨e.2, List.mem_map.mpr ⟨e, he, rfl⟩, (hmem e he).2.trans hen⟩
  · have : (chosen g).map (fun p => p.name) = mkeys g.resolved := by
      rw [chosen, List.map_map]
      exact List.map_congr_left fun e he => (hmem e he).2
    rw [this]
    exact hinv.keys
  · intro p hp
    obtain ⟨e, he, rfl⟩ := List.mem_map.mp hp
    obtain ⟨_, hlist, hpre, q, hst, hqn, hex⟩ := hinv.named _ _ (hmem e he).1
    refine ⟨hlist, ?_, q, hst, hqn.trans (hmem e he).2.symm, ?_⟩
    · intro v hv
      unfold prereleaseExcludes at hpre
      rw [hv] at hpre
      simp only [Bool.and_eq_false_iff, Bool.not_eq_false'] at hpre
      exact hpre
    · intro spec v range hs hv hr
      unfold specExcludes at hex
      rw [hs, hv] at hex
      simp only at hex
      rw [hr] at hex
      simpa using hex

/-- C36, refuted: the check for version conflicts and circular dependencies never finds any: in no state that can come
up is a conflict recorded, since a requirement on a family that is resolved is never awaited. -/
theorem C36_check_idle_false {env : AEnv} (fok : FindOk env) {reqs : List PackageRequirement} {s : SState}
    (h : Reached env reqs s) : s.conflicts = [] ∧ ∀ q ∈ s.pending, q.name ∉ mkeys s.resolved :=
  ⟨(reached_inv fok h).noConf, (reached_inv fok h).disj⟩

/-- A repository with a chain of three. -/
def chainSearch : AEnv := demoSearch [apkg c!"a" (some c!"1") [c!"b-1+", c!"c"], apkg c!"b" (some c!"3") [c!"c"],
  apkg c!"b" (some c!"0.5") [], apkg c!"c" (some c!"2") []]

theorem chainSearch_listed (p : Package) (h : AListed chainSearch p) :
    p ∈ [apkg c!"a" (some c!"1") [c!"b-1+", c!"c"], apkg c!"b" (some c!"3") [c!"c"],
      apkg c!"b" (some c!"0.5") [], apkg c!"c" (some c!"2") []] := by
  obtain ⟨ps, hps, hp⟩ := h
  simp only [chainSearch, demoSearch, Option.some.injEq] at hps
  subst hps
  exact (List.mem_filter.mp hp).1

theorem chainSearch_stated (q : PackageRequirement)
    (h : q ∈ [areq c!"a"] ∨ ∃ p, AListed chainSearch p ∧ ∃ raw ∈ p.requires, PackageRequirement.parse raw = .ok q) :
    ∃ x ∈ [c!"a", c!"b-1+", c!"c"], q = areq x := by
  rcases h with h | ⟨p, hp, raw, hraw, hparse⟩
  · exact ⟨c!"a", by decide, List.mem_singleton.mp h⟩
  · have hm : raw ∈ [c!"b-1+", c!"c"] := by
      have := chainSearch_listed p hp
      simp only [List.mem_cons, List.not_mem_nil, or_false] at this
      rcases this with rfl | rfl | rfl | rfl <;> simp only [apkg, List.mem_cons, List.not_mem_nil, or_false] at hraw ⊢ <;>
        tauto
    refine ⟨raw, List.mem_cons_of_mem _ hm, ?_⟩
    unfold areq
    rw [hparse]

set_option maxRecDepth 100000 in
/-- The hypotheses of C36 are met. -/
example : FindOk chainSearch ∧ Agreeing chainSearch [areq c!"a"] ∧
    ∃ s g, search chainSearch 20 Searcher.new [areq c!"a"] = some (s, .found g) ∧ (chosen g).length = 3 := by
  refine ⟨demoSearch_ok _, ⟨?_, ?_⟩, foundBy_packages (l := [(c!"c", some c!"2"), (c!"b", some c!"3"), (c!"a", some c!"1")])
    (by decide +kernel)⟩
  · intro q q' hq hq' hn p _ _ hin
    obtain ⟨x, hx, hqx⟩ := chainSearch_stated q hq
    obtain ⟨y, hy, hqy⟩ := chainSearch_stated q' hq'
    have key : ∀ x ∈ [c!"a", c!"b-1+", c!"c"], ∀ y ∈ [c!"a", c!"b-1+", c!"c"], (areq x).name = (areq y).name → x = y := by
      decide +kernel
    have hxy := key x hx y hy (by rw [← hqx, ← hqy]; exact hn)
    rw [hqy, ← hxy, ← hqx]
    exact hin
  · intro q hq
    obtain ⟨x, hx, hqx⟩ := chainSearch_stated q hq
    have key : ∀ x ∈ [c!"a", c!"b-1+", c!"c"], (areq x).conflict = false ∧
        ((areq x).spec.all fun s => (VersionRange.parse s).isSome) = true := by decide +kernel
    obtain ⟨h1, h2⟩ := key x hx
    rw [← hqx] at h1 h2
    refine ⟨h1, fun spec hs => ?_⟩
    rw [hs] at h2
    exact h2

/-! ## C37 -/

/-- C37: a search explores at most `max_states` states, no two with the same identity hash and none whose hash was
closed before. -/
theorem C37_bounded {env : AEnv} {fuel : Nat} {s s' : Searcher} {reqs : List PackageRequirement} {res : SearchResult}
    (h : search env fuel s reqs = some (s', res)) :
    s'.explored.length ≤ env.maxStates ∧ (s'.explored.map (hashOf env)).Nodup ∧
      ∀ x ∈ s'.explored, hashOf env x ∉ s.closed := by
  have hstart : Counted env s.closed ⟨s.openSet ++ [SState.initial reqs], s.closed, []⟩ :=
    ⟨rfl, List.nodup_nil, (fun x hx => by cases hx), Nat.zero_le _⟩
  have hc := loop_counted fuel 0 _ s' res hstart h
  exact ⟨hc.bound, hc.nodup, hc.new⟩

/-- C37: every search ends, whatever the repositories, the heuristic and the clock do. -/
theorem C37_ends (env : AEnv) (s : Searcher) (reqs : List PackageRequirement) :
    ∃ fuel r, search env fuel s reqs = some r := loop_ends env _ 0

/-- More fuel changes nothing, so `search env fuel s reqs = some r` for some `fuel` says that the search returns `r`. -/
theorem C37_fuel_irrelevant {env : AEnv} {fuel : Nat} {s : Searcher} {reqs : List PackageRequirement}
    {r : Searcher × SearchResult} (h : search env fuel s reqs = some r) (k : Nat) :
    search env (fuel + k) s reqs = some r := loop_more h k

set_option maxRecDepth 100000 in
/-- A search that explores four states, and one that is cut off. -/
example : (search chainSearch 20 Searcher.new [areq c!"a"]).map (fun r => r.1.explored.length) = some 4 ∧
    foundBy (search { chainSearch with maxStates := 2 } 20 Searcher.new [areq c!"a"]) = .error := by decide +kernel

/-! ## C38 -/

set_option maxRecDepth 100000 in
/-- C38, refuted: the second of two equal searches on one searcher finds nothing. -/
theorem C38_repeat_false :
    foundBy (search chainSearch 20 Searcher.new [areq c!"a"]) =
      .packages [(c!"c", some c!"2"), (c!"b", some c!"3"), (c!"a", some c!"1")] ∧
    (match search chainSearch 20 Searcher.new [areq c!"a"] with
      | some (s, _) => foundBy (search chainSearch 20 s [areq c!"a"])
      | none => .unfinished) = .nothing := by decide +kernel

/-- C38, partial: a search that finds nothing finds nothing again (unless it runs out of time or states at once).
Missing: searches that succeed, for which the claim is false. -/
theorem C38_nothing_again_partial {env : AEnv} {fuel : Nat} {s s' : Searcher} {reqs : List PackageRequirement}
    (h : search env fuel s reqs = some (s', .none)) (hl : env.late 0 = false) (hm : 0 < env.maxStates) :
    ∃ s'', search env 2 s' reqs = some (s'', .none) := by
  obtain ⟨h1, h2, _⟩ := loop_none fuel 0 _ s' h
  have hc : s'.closed.contains (hashOf env (SState.initial reqs)) = true := by
    simpa using h2 (SState.initial reqs) (by simp)
  refine ⟨⟨[], s'.closed, []⟩, ?_⟩
  unfold search
  rw [h1, List.nil_append]
  unfold loop
  simp only [List.length_singleton, Nat.mod_one, List.getElem?_cons_zero, hl, Bool.false_eq_true, if_false,
    List.length_nil, ge_iff_le, Nat.le_zero_eq]
  rw [if_neg (by omega), if_pos hc]
  rfl

/-- After `clear` a search answers as a new searcher does. -/
theorem C38_clear_partial (env : AEnv) (fuel : Nat) (s : Searcher) (reqs : List PackageRequirement) :
    search env fuel s.clear reqs = search env fuel Searcher.new reqs := rfl

set_option maxRecDepth 100000 in
/-- A search that finds nothing, because the range of `b` cannot be met. -/
example : foundBy (search chainSearch 20 Searcher.new [areq c!"b-4+", areq c!"a"]) = .nothing ∧
    chainSearch.late 0 = false ∧ 0 < chainSearch.maxStates := by decide +kernel

/-! ## C83 -/

/-- C83, refuted: a search for a package without version finds nothing, although the repository lists it: the state in
which it is resolved has the same identity as the state in which it is awaited.  This does not depend on the hash
function or on the order of the search. -/
theorem C83_versionless_false (hash : List HashItem → Nat) (pick : Nat → List SState → Nat) :
    ∃ s, search { demoSearch [apkg c!"a" none []] with hash := hash, pick := pick } 3 Searcher.new [areq c!"a"] =
      some (s, .none) := by
  have hr : areq c!"a" = ⟨c!"a", none, false, false⟩ := by decide +kernel
  rw [hr]
  simp [search, loop, Searcher.new, SState.initial, demoSearch, Nat.mod_one, SState.isGoal, SState.isValid, successors,
    successorsOf, specExcludes, prereleaseExcludes, apkg, createSuccessor, newRequirements, fresh, hashOf, hashItems,
    detectConflicts, versionConflicts, circularConflicts, SState.fromParent, SState.removeRequirement, mset, mdel, mkeys,
    mget, sortTexts, insertText, PackageRequirement.display]

/-- C83, partial: if states that can come up are told apart by their identity hash, no requirement is weak or a
conflict, then a search that reports that nothing was found is right.  Missing: packages without version and other
coincidences of the identity, for which the claim is false. -/
theorem C83_complete_partial {env : AEnv} (fok : FindOk env) {reqs : List PackageRequirement} (hf : Faithful env reqs)
    (hplain : ∀ q, (q ∈ reqs ∨ ∃ p, AListed env p ∧ ∃ raw ∈ p.requires, PackageRequirement.parse raw = .ok q) →
      q.conflict = false ∧ q.weak = false)
    {fuel : Nat} {s : Searcher} (h : search env fuel Searcher.new reqs = some (s, .none)) :
    ¬ ∃ pkgs, ASolution env reqs pkgs := by
  rintro ⟨pkgs, sol⟩
  refine search_complete fok hf sol.listed ?_ ?_ h
  · intro p hp
    unfold prereleaseExcludes
    cases hv : p.version with
    | none => rfl
    | some v =>
      rcases sol.release p hp v hv with h | h <;> simp [h]
  · intro q hq
    have hpl := hplain q (by
      rcases hq with hq | ⟨p, hp, raw, hraw, hparse⟩
      · exact .inl hq
      · exact .inr ⟨p, sol.listed p hp, raw, hraw, hparse⟩)
    have := sol.holds q hq
    unfold AHolds at this
    rw [hpl.1, hpl.2] at this
    simp only [Bool.false_eq_true, if_false] at this
    obtain ⟨p, hp, hpn, hin⟩ := this
    exact ⟨p, hp, hpn, specExcludes_of_inSpec hin⟩

/-- The successors of a state, none if that fails. -/
def succList (env : AEnv) (s : SState) : List SState :=
  match successors env s with
  | .ok l => l
  | _ => []

/-- The states that are `k` steps away from the start. -/
def level (env : AEnv) (reqs : List PackageRequirement) : Nat → List SState
  | 0 => [SState.initial reqs]
  | k + 1 => (level env reqs k).flatMap (succList env)

theorem reached_level {env : AEnv} {reqs : List PackageRequirement} {s : SState} (h : Reached env reqs s) :
    ∃ k, s ∈ level env reqs k := by
  induction h with
  | start => exact ⟨0, List.mem_singleton.mpr rfl⟩
  | step _ hs hx ih =>
    obtain ⟨k, hk⟩ := ih
    refine ⟨k + 1, List.mem_flatMap.mpr ⟨_, hk, ?_⟩⟩
    unfold succList
    rw [hs]
    exact hx

theorem level_empty {env : AEnv} {reqs : List PackageRequirement} {n : Nat} (h : level env reqs n = []) (k : Nat) :
    level env reqs (n + k) = [] := by
  induction k with
  | zero => exact h
  | succ k ih => rw [← Nat.add_assoc, level, ih]; rfl

theorem nodup_map_eq {α β : Type} {f : α → β} {l : List α} (h : (l.map f).Nodup) {x y : α} (hx : x ∈ l) (hy : y ∈ l)
    (hxy : f x = f y) : x = y := by
  induction l with
  | nil => cases hx
  | cons a l ih =>
    rw [List.map_cons, List.nodup_cons] at h
    rcases List.mem_cons.mp hx with rfl | hx' <;> rcases List.mem_cons.mp hy with rfl | hy'
    · rfl
    · exact absurd (hxy ▸ List.mem_map.mpr ⟨y, hy', rfl⟩) h.1
    · exact absurd (hxy ▸ List.mem_map.mpr ⟨x, hx', rfl⟩) h.1
    · exact ih h.2 hx' hy'

theorem faithful_of_levels {env : AEnv} {reqs : List PackageRequirement} (n : Nat) (h : level env reqs n = [])
    (hn : (((List.range n).flatMap (level env reqs)).map (hashOf env)).Nodup) : Faithful env reqs := by
  have key : ∀ x, Reached env reqs x → x ∈ (List.range n).flatMap (level env reqs) := by
    intro x hx
    obtain ⟨k, hk⟩ := reached_level hx
    refine List.mem_flatMap.mpr ⟨k, ?_, hk⟩
    rw [List.mem_range]
    by_contra hge
    have := level_empty h (k - n)
    rw [Nat.add_sub_cancel' (by omega)] at this
    rw [this] at hk
    cases hk
  intro x y hx hy hxy
  have := nodup_map_eq hn (key x hx) (key y hy) hxy
  subst this
  exact ⟨fun _ => rfl, fun _ => Iff.rfl⟩

/-- A repository in which no `b` is new enough for any `a`. -/
def deadEnd : AEnv := demoSearch [apkg c!"a" (some c!"1") [c!"c", c!"b-9+"], apkg c!"a" (some c!"2") [c!"c", c!"b-8+"],
  apkg c!"b" (some c!"3") [], apkg c!"c" (some c!"2") []]

set_option maxRecDepth 100000 in
/-- The hypotheses of C83 are met by a search that explores five states and finds nothing. -/
example : FindOk deadEnd ∧ Faithful deadEnd [areq c!"a"] ∧
    (∀ q, (q ∈ [areq c!"a"] ∨ ∃ p, AListed deadEnd p ∧ ∃ raw ∈ p.requires, PackageRequirement.parse raw = .ok q) →
      q.conflict = false ∧ q.weak = false) ∧
    foundBy (search deadEnd 20 Searcher.new [areq c!"a"]) = .nothing ∧
    (search deadEnd 20 Searcher.new [areq c!"a"]).map (fun r => r.1.explored.length) = some 5 := by
  refine ⟨demoSearch_ok _, faithful_of_levels 4 ?_ (by decide +kernel), ?_, by decide +kernel, by decide +kernel⟩
  · exact List.eq_nil_of_length_eq_zero (by decide +kernel)
  · intro q hq
    have hm : ∃ x ∈ [c!"a", c!"c", c!"b-9+", c!"b-8+"], q = areq x := by
      rcases hq with hq | ⟨p, ⟨ps, hps, hp⟩, raw, hraw, hparse⟩
      · exact ⟨c!"a", by decide, List.mem_singleton.mp hq⟩
      · simp only [deadEnd, demoSearch, Option.some.injEq] at hps
        subst hps
        have hp' := (List.mem_filter.mp hp).1
        have hm : raw ∈ [c!"c", c!"b-9+", c!"b-8+"] := by
          simp only [List.mem_cons, List.not_mem_nil, or_false] at hp'
          rcases hp' with rfl | rfl | rfl | rfl <;>
            simp only [apkg, List.mem_cons, List.not_mem_nil, or_false] at hraw ⊢ <;> tauto
        refine ⟨raw, List.mem_cons_of_mem _ hm, ?_⟩
        unfold areq
        rw [hparse]
    obtain ⟨x, hx, hqx⟩ := hm
    have key : ∀ x ∈ [c!"a", c!"c", c!"b-9+", c!"b-8+"], (areq x).conflict = false ∧ (areq x).weak = false := by
      decide +kernel
    rw [hqx]
    exact key x hx

end Rez.Props
