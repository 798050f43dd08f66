import Verif.Spec.AStar
import Mathlib.Tactic.ByContra
import Mathlib.Tactic.Push
import Mathlib.Data.List.Perm.Subperm
/-!
# Lemmas about the A* search
-/
namespace Rez
open Rez.Spec Search

/-- requirements of the request and of listed packages -/
def AStated (env : AEnv) (reqs : List PackageRequirement) (q : PackageRequirement) : Prop :=
  q ∈ reqs ∨ ∃ p, AListed env p ∧ ∃ raw ∈ p.requires, PackageRequirement.parse raw = .ok q

/-- what holds of every state the search looks at -/
structure SInv (env : AEnv) (reqs : List PackageRequirement) (s : SState) : Prop where
  keys : (mkeys s.resolved).Nodup
  named : ∀ n p, mget s.resolved n = some p → p.name = n ∧ AListed env p ∧ prereleaseExcludes env p = false ∧
    ∃ q, AStated env reqs q ∧ q.name = n ∧ specExcludes q p = false
  stated : ∀ q ∈ s.pending, AStated env reqs q
  disj : ∀ q ∈ s.pending, q.name ∉ mkeys s.resolved
  noConf : s.conflicts = []
  req : ∀ q ∈ reqs, q ∈ s.pending ∨ q.name ∈ mkeys s.resolved
  deps : ∀ n p, mget s.resolved n = some p → ∀ raw ∈ p.requires, ∀ q, PackageRequirement.parse raw = .ok q →
    q ∈ s.pending ∨ q.name ∈ mkeys s.resolved

theorem sinv_initial (env : AEnv) (reqs : List PackageRequirement) : SInv env reqs (SState.initial reqs) where
  keys := List.nodup_nil
  named := fun n p h => by cases h
  stated := fun q h => .inl h
  disj := fun q _ h => by cases h
  noConf := rfl
  req := fun q h => .inl h
  deps := fun n p h => by cases h

theorem newRequirements_mem {parent : SState} {raws : List Str} {l : List PackageRequirement}
    (h : newRequirements parent raws = .ok l) (q : PackageRequirement) :
    q ∈ l ↔ (∃ raw ∈ raws, PackageRequirement.parse raw = .ok q) ∧ q.name ∉ mkeys parent.resolved := by
  induction raws generalizing l with
  | nil => simp only [newRequirements, Outcome.ok.injEq] at h; subst h; simp
  | cons raw rs ih =>
    unfold newRequirements at h
    cases hp : PackageRequirement.parse raw with
    | panic => rw [hp] at h; cases h
    | err =>
      rw [hp] at h
      simp only at h
      rw [ih h]
      simp [hp]
    | ok r =>
      rw [hp] at h
      simp only at h
      cases hn : newRequirements parent rs with
      | panic => rw [hn] at h; cases h
      | err => rw [hn] at h; cases h
      | ok l' =>
        rw [hn] at h
        simp only [Outcome.ok.injEq] at h
        subst h
        have ih' := ih hn
        split
        · rename_i hm
          rw [ih']
          constructor
          · rintro ⟨⟨raw', hr, hq⟩, hq2⟩
            exact ⟨⟨raw', List.mem_cons_of_mem _ hr, hq⟩, hq2⟩
          · rintro ⟨⟨raw', hr, hq⟩, hq2⟩
            rcases List.mem_cons.mp hr with rfl | hr
            · rw [hp] at hq
              simp only [Outcome.ok.injEq] at hq
              subst hq
              exact absurd hm hq2
            · exact ⟨⟨raw', hr, hq⟩, hq2⟩
        · rename_i hm
          rw [List.mem_cons, ih']
          constructor
          · rintro (rfl | ⟨⟨raw', hr, hq⟩, hq2⟩)
            · exact ⟨⟨raw, List.mem_cons_self .., hp⟩, hm⟩
            · exact ⟨⟨raw', List.mem_cons_of_mem _ hr, hq⟩, hq2⟩
          · rintro ⟨⟨raw', hr, hq⟩, hq2⟩
            rcases List.mem_cons.mp hr with rfl | hr
            · rw [hp] at hq
              simp only [Outcome.ok.injEq] at hq
              exact .inl hq.symm
            · exact .inr ⟨⟨raw', hr, hq⟩, hq2⟩

theorem sinv_successor {env : AEnv} (fok : FindOk env) {reqs : List PackageRequirement} {s s' : SState}
    (h : SInv env reqs s) {r : PackageRequirement} (hr : r ∈ s.pending) {ps : List Package}
    (hf : env.find r.name = some ps) {p : Package} (hp : p ∈ ps) (he : specExcludes r p = false)
    (hpre : prereleaseExcludes env p = false) (hc : createSuccessor s p r = .ok s') : SInv env reqs s' := by
  unfold createSuccessor at hc
  cases hn : newRequirements s p.requires with
  | panic => rw [hn] at hc; cases hc
  | err => rw [hn] at hc; cases hc
  | ok l =>
    rw [hn] at hc
    simp only [Outcome.ok.injEq] at hc
    have hl := newRequirements_mem hn
    have hpn : p.name = r.name := fok _ _ _ hf hp
    have hlist : AListed env p := ⟨ps, by rw [hpn]; exact hf, hp⟩
    have hpend : ∀ q, q ∈ ((s.fromParent p l).removeRequirement r).pending ↔
        (q ∈ s.pending ∨ q ∈ l) ∧ q.name ≠ r.name := by
      intro q
      simp only [SState.removeRequirement, SState.fromParent, List.mem_filter, List.mem_append, bne_iff_ne, ne_eq]
    have hres : ((s.fromParent p l).removeRequirement r).resolved = mset s.resolved p.name p := rfl
    have hdisj : ∀ q ∈ ((s.fromParent p l).removeRequirement r).pending,
        q.name ∉ mkeys ((s.fromParent p l).removeRequirement r).resolved := by
      intro q hq
      obtain ⟨hq, hne⟩ := (hpend q).mp hq
      rw [hres, mem_mkeys_mset, hpn]
      rintro (hx | hx)
      · exact hne hx
      · rcases hq with hq | hq
        · exact h.disj q hq hx
        · exact ((hl q).mp hq).2 hx
    have hnone : ∀ q ∈ ((s.fromParent p l).removeRequirement r).pending,
        mget ((s.fromParent p l).removeRequirement r).resolved q.name = none := fun q hq =>
      (mget_none_iff _ _).mpr (hdisj q hq)
    have hconf : s' = (s.fromParent p l).removeRequirement r := by
      rw [← hc]
      unfold detectConflicts
      have e1 : versionConflicts ((s.fromParent p l).removeRequirement r) = [] := by
        unfold versionConflicts
        rw [List.flatMap_eq_nil_iff]
        intro q hq
        rw [hnone q hq]
      have e2 : circularConflicts ((s.fromParent p l).removeRequirement r) = [] := by
        unfold circularConflicts
        rw [List.flatMap_eq_nil_iff]
        intro q hq
        rw [hnone q hq]
      rw [e1, e2]
      simp
    rw [hconf]
    refine ⟨nodup_mset h.keys _ _, ?_, ?_, hdisj, h.noConf, ?_, ?_⟩
    · intro n p' hg
      rw [hres, mget_mset] at hg
      split at hg
      · rename_i hn'
        simp only [Option.some.injEq] at hg
        subst hg
        exact ⟨hn'.symm, hlist, hpre, r, h.stated r hr, hpn ▸ hn'.symm, he⟩
      · exact h.named n p' hg
    · intro q hq
      obtain ⟨hq, _⟩ := (hpend q).mp hq
      rcases hq with hq | hq
      · exact h.stated q hq
      · obtain ⟨⟨raw, hraw, hparse⟩, _⟩ := (hl q).mp hq
        exact .inr ⟨p, hlist, raw, hraw, hparse⟩
    · intro q hq
      by_cases hne : q.name = r.name
      · right; rw [hres, mem_mkeys_mset, hpn]; exact .inl hne
      · rcases h.req q hq with hx | hx
        · exact .inl ((hpend q).mpr ⟨.inl hx, hne⟩)
        · right; rw [hres, mem_mkeys_mset]; exact .inr hx
    · intro n p' hg raw hraw q hparse
      by_cases hne : q.name = r.name
      · right; rw [hres, mem_mkeys_mset, hpn]; exact .inl hne
      · rw [hres, mget_mset] at hg
        split at hg
        · simp only [Option.some.injEq] at hg
          subst hg
          by_cases hx : q.name ∈ mkeys s.resolved
          · right; rw [hres, mem_mkeys_mset]; exact .inr hx
          · exact .inl ((hpend q).mpr ⟨.inr ((hl q).mpr ⟨⟨raw, hraw, hparse⟩, hx⟩), hne⟩)
        · rcases h.deps n p' hg raw hraw q hparse with hx | hx
          · exact .inl ((hpend q).mpr ⟨.inl hx, hne⟩)
          · right; rw [hres, mem_mkeys_mset]; exact .inr hx

theorem successorsOf_mem {env : AEnv} {s : SState} {r : PackageRequirement} {ps : List Package} {l : List SState}
    (h : successorsOf env s r ps = .ok l) {x : SState} (hx : x ∈ l) :
    ∃ p ∈ ps, specExcludes r p = false ∧ prereleaseExcludes env p = false ∧ createSuccessor s p r = .ok x := by
  induction ps generalizing l with
  | nil => simp only [successorsOf, Outcome.ok.injEq] at h; subst h; cases hx
  | cons p ps ih =>
    unfold successorsOf at h
    by_cases hs : (specExcludes r p || prereleaseExcludes env p) = true
    · rw [if_pos hs] at h
      obtain ⟨p', hp', h'⟩ := ih h hx
      exact ⟨p', List.mem_cons_of_mem _ hp', h'⟩
    · rw [if_neg hs] at h
      simp only [Bool.or_eq_true, not_or, Bool.not_eq_true] at hs
      cases hc : createSuccessor s p r with
      | panic => rw [hc] at h; cases h
      | err =>
        rw [hc] at h
        obtain ⟨p', hp', h'⟩ := ih h hx
        exact ⟨p', List.mem_cons_of_mem _ hp', h'⟩
      | ok y =>
        rw [hc] at h
        simp only at h
        cases hn : successorsOf env s r ps with
        | panic => rw [hn] at h; cases h
        | err => rw [hn] at h; cases h
        | ok l' =>
          rw [hn] at h
          simp only [Outcome.ok.injEq] at h
          subst h
          rcases List.mem_cons.mp hx with rfl | hx
          · exact ⟨p, List.mem_cons_self .., hs.1, hs.2, hc⟩
          · obtain ⟨p', hp', h'⟩ := ih hn hx
            exact ⟨p', List.mem_cons_of_mem _ hp', h'⟩

theorem sinv_successors {env : AEnv} (fok : FindOk env) {reqs : List PackageRequirement} {s : SState}
    (h : SInv env reqs s) {l : List SState} (hs : successors env s = .ok l) : ∀ x ∈ l, SInv env reqs x := by
  intro x hx
  unfold successors at hs
  cases hp : s.pending with
  | nil => rw [hp] at hs; simp only [Outcome.ok.injEq] at hs; subst hs; cases hx
  | cons r rest =>
    rw [hp] at hs
    simp only at hs
    cases hf : env.find r.name with
    | none => rw [hf] at hs; cases hs
    | some ps =>
      rw [hf] at hs
      obtain ⟨p, hpm, he, hpre, hc⟩ := successorsOf_mem hs hx
      exact sinv_successor fok h (by rw [hp]; simp) hf hpm he hpre hc

theorem fresh_mem {env : AEnv} {closed : List Nat} {l : List SState} {x : SState} (h : x ∈ fresh env closed l) : x ∈ l :=
  (List.mem_filter.mp h).1

/-- a property that successors inherit holds of what is found and of all that is explored -/
theorem loop_found {env : AEnv} (P : SState → Prop)
    (hP : ∀ s l, P s → successors env s = .ok l → ∀ x ∈ l, P x) (fuel t : Nat) (s s' : Searcher) (res : SearchResult)
    (ho : ∀ x ∈ s.openSet, P x) (h : loop env fuel t s = some (s', res)) :
    ∀ g, res = .found g → P g ∧ g.isGoal = true := by
  induction fuel generalizing t s with
  | zero => cases h
  | succ fuel ih =>
    unfold loop at h
    cases hg : s.openSet[env.pick t s.openSet % s.openSet.length]? with
    | none =>
      rw [hg] at h
      simp only [Option.some.injEq, Prod.mk.injEq] at h
      obtain ⟨rfl, rfl⟩ := h
      intro g hg; cases hg
    | some cur =>
      rw [hg] at h
      simp only at h
      have hcur : P cur := ho cur (List.mem_of_getElem? hg)
      have hrest : ∀ x ∈ s.openSet.eraseIdx (env.pick t s.openSet % s.openSet.length), P x :=
        fun x hx => ho x (List.mem_of_mem_eraseIdx hx)
      split at h
      · simp only [Option.some.injEq, Prod.mk.injEq] at h
        obtain ⟨rfl, rfl⟩ := h
        intro g hg; cases hg
      · split at h
        · simp only [Option.some.injEq, Prod.mk.injEq] at h
          obtain ⟨rfl, rfl⟩ := h
          intro g hg; cases hg
        · split at h
          · exact ih _ _ hrest h
          · split at h
            · rename_i hgoal
              simp only [Option.some.injEq, Prod.mk.injEq] at h
              obtain ⟨rfl, rfl⟩ := h
              intro g hg
              simp only [SearchResult.found.injEq] at hg
              subst hg
              exact ⟨hcur, hgoal⟩
            · split at h
              · exact ih _ _ hrest h
              · cases hs : successors env cur with
                | err =>
                  rw [hs] at h
                  simp only [Option.some.injEq, Prod.mk.injEq] at h
                  obtain ⟨rfl, rfl⟩ := h
                  intro g hg; cases hg
                | panic =>
                  rw [hs] at h
                  simp only [Option.some.injEq, Prod.mk.injEq] at h
                  obtain ⟨rfl, rfl⟩ := h
                  intro g hg; cases hg
                | ok l =>
                  rw [hs] at h
                  refine ih _ _ ?_ h
                  intro x hx
                  rcases List.mem_append.mp hx with hx | hx
                  · exact hrest x hx
                  · exact hP cur l hcur hs x (fresh_mem hx)

/-! ## The bound -/

/-- the bookkeeping of one search: `c0` is what was closed before -/
structure Counted (env : AEnv) (c0 : List Nat) (s : Searcher) : Prop where
  closed : s.closed = (s.explored.map (hashOf env)).reverse ++ c0
  nodup : (s.explored.map (hashOf env)).Nodup
  new : ∀ x ∈ s.explored, hashOf env x ∉ c0
  bound : s.explored.length ≤ env.maxStates

theorem counted_push {env : AEnv} {c0 : List Nat} {s : Searcher} (h : Counted env c0 s) {o : List SState} {cur : SState}
    (hm : ¬ s.explored.length ≥ env.maxStates) (hc : ¬ s.closed.contains (hashOf env cur) = true) :
    Counted env c0 ⟨o, hashOf env cur :: s.closed, s.explored ++ [cur]⟩ := by
  have hc' : hashOf env cur ∉ s.closed := by simpa using hc
  rw [h.closed, List.mem_append, List.mem_reverse, not_or] at hc'
  refine ⟨?_, ?_, ?_, ?_⟩
  · simp [h.closed]
  · rw [List.map_append, List.nodup_append]
    refine ⟨h.nodup, by simp, ?_⟩
    intro a ha b hb
    simp only [List.map_cons, List.map_nil, List.mem_singleton] at hb
    rintro rfl
    exact hc'.1 (hb ▸ ha)
  · intro x hx
    rcases List.mem_append.mp hx with hx | hx
    · exact h.new x hx
    · simp only [List.mem_singleton] at hx; subst hx; exact hc'.2
  · simp only [List.length_append, List.length_cons, List.length_nil]; omega

theorem loop_counted {env : AEnv} {c0 : List Nat} (fuel t : Nat) (s s' : Searcher) (res : SearchResult)
    (hc : Counted env c0 s) (h : loop env fuel t s = some (s', res)) : Counted env c0 s' := by
  induction fuel generalizing t s with
  | zero => cases h
  | succ fuel ih =>
    unfold loop at h
    cases hg : s.openSet[env.pick t s.openSet % s.openSet.length]? with
    | none =>
      rw [hg] at h
      simp only [Option.some.injEq, Prod.mk.injEq] at h
      obtain ⟨rfl, rfl⟩ := h
      exact hc
    | some cur =>
      rw [hg] at h
      simp only at h
      have hr : ∀ o, Counted env c0 ⟨o, s.closed, s.explored⟩ := fun o => ⟨hc.closed, hc.nodup, hc.new, hc.bound⟩
      split at h
      · simp only [Option.some.injEq, Prod.mk.injEq] at h
        obtain ⟨rfl, rfl⟩ := h
        exact hr _
      · split at h
        · simp only [Option.some.injEq, Prod.mk.injEq] at h
          obtain ⟨rfl, rfl⟩ := h
          exact hr _
        · rename_i hm
          split at h
          · exact ih _ _ (hr _) h
          · rename_i hcl
            split at h
            · simp only [Option.some.injEq, Prod.mk.injEq] at h
              obtain ⟨rfl, rfl⟩ := h
              exact counted_push hc hm hcl
            · split at h
              · exact ih _ _ (counted_push hc hm hcl) h
              · cases hs : successors env cur with
                | err =>
                  rw [hs] at h
                  simp only [Option.some.injEq, Prod.mk.injEq] at h
                  obtain ⟨rfl, rfl⟩ := h
                  exact counted_push hc hm hcl
                | panic =>
                  rw [hs] at h
                  simp only [Option.some.injEq, Prod.mk.injEq] at h
                  obtain ⟨rfl, rfl⟩ := h
                  exact counted_push hc hm hcl
                | ok l =>
                  rw [hs] at h
                  exact ih _ _ (counted_push hc hm hcl) h

theorem pick_lt {env : AEnv} {t : Nat} {l : List SState} {cur : SState} (hg : l[env.pick t l % l.length]? = some cur) :
    (l.eraseIdx (env.pick t l % l.length)).length + 1 = l.length := by
  have hlt : env.pick t l % l.length < l.length := by
    by_contra hc
    rw [List.getElem?_eq_none (by omega)] at hg
    cases hg
  rw [List.length_eraseIdx_of_lt hlt]
  omega

theorem loop_ends (env : AEnv) (s : Searcher) (t : Nat) : ∃ fuel r, loop env fuel t s = some r := by
  generalize hk : env.maxStates - s.explored.length = k
  induction k using Nat.strongRecOn generalizing s t with
  | _ k ihk =>
    generalize hm : s.openSet.length = m
    induction m using Nat.strongRecOn generalizing s t with
    | _ m ihm =>
      cases hg : s.openSet[env.pick t s.openSet % s.openSet.length]? with
      | none => exact ⟨1, _, by rw [loop, hg]⟩
      | some cur =>
        have hlen := pick_lt hg
        by_cases hl : env.late t = true
        · exact ⟨1, _, by rw [loop, hg]; simp only; rw [if_pos hl]⟩
        by_cases hx : s.explored.length ≥ env.maxStates
        · exact ⟨1, _, by rw [loop, hg]; simp only; rw [if_neg hl, if_pos hx]⟩
        by_cases hc : s.closed.contains (hashOf env cur) = true
        · obtain ⟨fuel, r, hr⟩ := ihm (s.openSet.eraseIdx (env.pick t s.openSet % s.openSet.length)).length (by omega)
            { s with openSet := s.openSet.eraseIdx (env.pick t s.openSet % s.openSet.length) } (t + 1) hk rfl
          exact ⟨fuel + 1, r, by rw [loop, hg]; simp only; rw [if_neg hl, if_neg hx, if_pos hc]; exact hr⟩
        by_cases hgo : cur.isGoal = true
        · exact ⟨1, _, by rw [loop, hg]; simp only; rw [if_neg hl, if_neg hx, if_neg hc, if_pos hgo]⟩
        by_cases hv : (!cur.isValid) = true
        · obtain ⟨fuel, r, hr⟩ := ihk (env.maxStates - (s.explored ++ [cur]).length)
            (by simp only [List.length_append, List.length_cons, List.length_nil]; omega)
            ⟨s.openSet.eraseIdx (env.pick t s.openSet % s.openSet.length), hashOf env cur :: s.closed,
              s.explored ++ [cur]⟩ (t + 1) rfl
          exact ⟨fuel + 1, r, by
            rw [loop, hg]; simp only; rw [if_neg hl, if_neg hx, if_neg hc, if_neg hgo, if_pos hv]; exact hr⟩
        cases hs : successors env cur with
        | err =>
          exact ⟨1, _, by
            rw [loop, hg]; simp only; rw [if_neg hl, if_neg hx, if_neg hc, if_neg hgo, if_neg hv, hs]⟩
        | panic =>
          exact ⟨1, _, by
            rw [loop, hg]; simp only; rw [if_neg hl, if_neg hx, if_neg hc, if_neg hgo, if_neg hv, hs]⟩
        | ok l =>
          obtain ⟨fuel, r, hr⟩ := ihk (env.maxStates - (s.explored ++ [cur]).length)
            (by simp only [List.length_append, List.length_cons, List.length_nil]; omega)
            ⟨s.openSet.eraseIdx (env.pick t s.openSet % s.openSet.length) ++
              fresh env (hashOf env cur :: s.closed) l, hashOf env cur :: s.closed, s.explored ++ [cur]⟩ (t + 1) rfl
          exact ⟨fuel + 1, r, by
            rw [loop, hg]; simp only; rw [if_neg hl, if_neg hx, if_neg hc, if_neg hgo, if_neg hv, hs]; exact hr⟩

/-- when nothing is left, everything that was in the open set is closed -/
theorem loop_none {env : AEnv} (fuel t : Nat) (s s' : Searcher) (h : loop env fuel t s = some (s', .none)) :
    s'.openSet = [] ∧ (∀ x ∈ s.openSet, hashOf env x ∈ s'.closed) ∧ ∀ n ∈ s.closed, n ∈ s'.closed := by
  induction fuel generalizing t s with
  | zero => cases h
  | succ fuel ih =>
    unfold loop at h
    cases hg : s.openSet[env.pick t s.openSet % s.openSet.length]? with
    | none =>
      rw [hg] at h
      simp only [Option.some.injEq, Prod.mk.injEq] at h
      obtain ⟨rfl, _⟩ := h
      have hnil : s.openSet = [] := by
        by_contra hne
        have hpos : 0 < s.openSet.length := List.length_pos_iff.mpr hne
        rw [List.getElem?_eq_getElem (Nat.mod_lt _ hpos)] at hg
        cases hg
      exact ⟨hnil, (fun x hx => by rw [hnil] at hx; cases hx), fun n hn => hn⟩
    | some cur =>
      rw [hg] at h
      simp only at h
      have hsplit : ∀ x ∈ s.openSet, x = cur ∨ x ∈ s.openSet.eraseIdx (env.pick t s.openSet % s.openSet.length) := by
        intro x hx
        obtain ⟨i, hi⟩ := List.mem_iff_getElem?.mp hx
        by_cases he : i = env.pick t s.openSet % s.openSet.length
        · subst he; rw [hg] at hi; simp only [Option.some.injEq] at hi; exact .inl hi.symm
        · right
          rw [List.mem_eraseIdx_iff_getElem?]
          exact ⟨i, he, hi⟩
      split at h
      · simp at h
      · split at h
        · simp at h
        · split at h
          · rename_i hcl
            obtain ⟨h1, h2, h3⟩ := ih _ _ h
            refine ⟨h1, fun x hx => ?_, h3⟩
            rcases hsplit x hx with rfl | hx
            · exact h3 _ (by simpa using hcl)
            · exact h2 x hx
          · split at h
            · simp at h
            · split at h
              · obtain ⟨h1, h2, h3⟩ := ih _ _ h
                refine ⟨h1, fun x hx => ?_, fun n hn => h3 n (List.mem_cons_of_mem _ hn)⟩
                rcases hsplit x hx with rfl | hx
                · exact h3 _ (List.mem_cons_self ..)
                · exact h2 x hx
              · cases hs : successors env cur with
                | err => rw [hs] at h; simp at h
                | panic => rw [hs] at h; simp at h
                | ok l =>
                  rw [hs] at h
                  obtain ⟨h1, h2, h3⟩ := ih _ _ h
                  refine ⟨h1, fun x hx => ?_, fun n hn => h3 n (List.mem_cons_of_mem _ hn)⟩
                  rcases hsplit x hx with rfl | hx
                  · exact h3 _ (List.mem_cons_self ..)
                  · exact h2 x (List.mem_append_left _ hx)

/-- when a search that starts afresh finds nothing: what was explored, and where it led -/
theorem loop_none_explored {env : AEnv} (fuel t : Nat) (s s' : Searcher) (h : loop env fuel t s = some (s', .none))
    (P : SState → Prop) (hP : ∀ s l, P s → successors env s = .ok l → ∀ x ∈ l, P x)
    (ho : ∀ x ∈ s.openSet, P x) (he : ∀ x ∈ s.explored, P x)
    (hd : ∀ x ∈ s.explored, x.isGoal = false ∧ (x.isValid = true → ∃ l, successors env x = .ok l ∧
      ∀ y ∈ l, hashOf env y ∈ s.closed ∨ y ∈ s.openSet)) :
    (∀ x ∈ s'.explored, P x) ∧ (∀ x ∈ s'.explored, x.isGoal = false ∧ (x.isValid = true →
      ∃ l, successors env x = .ok l ∧ ∀ y ∈ l, hashOf env y ∈ s'.closed)) := by
  induction fuel generalizing t s with
  | zero => cases h
  | succ fuel ih =>
    unfold loop at h
    cases hg : s.openSet[env.pick t s.openSet % s.openSet.length]? with
    | none =>
      rw [hg] at h
      simp only [Option.some.injEq, Prod.mk.injEq] at h
      obtain ⟨rfl, _⟩ := h
      have hnil : s.openSet = [] := by
        by_contra hne
        have hpos : 0 < s.openSet.length := List.length_pos_iff.mpr hne
        rw [List.getElem?_eq_getElem (Nat.mod_lt _ hpos)] at hg
        cases hg
      refine ⟨he, fun x hx => ⟨(hd x hx).1, fun hv => ?_⟩⟩
      obtain ⟨l, hl, hy⟩ := (hd x hx).2 hv
      refine ⟨l, hl, fun y hyl => (hy y hyl).resolve_right ?_⟩
      rw [hnil]; simp
    | some cur =>
      rw [hg] at h
      simp only at h
      have hcur : P cur := ho cur (List.mem_of_getElem? hg)
      have hrest : ∀ x ∈ s.openSet.eraseIdx (env.pick t s.openSet % s.openSet.length), P x :=
        fun x hx => ho x (List.mem_of_mem_eraseIdx hx)
      have hsplit : ∀ x ∈ s.openSet, x = cur ∨ x ∈ s.openSet.eraseIdx (env.pick t s.openSet % s.openSet.length) := by
        intro x hx
        obtain ⟨i, hi⟩ := List.mem_iff_getElem?.mp hx
        by_cases he : i = env.pick t s.openSet % s.openSet.length
        · subst he; rw [hg] at hi; simp only [Option.some.injEq] at hi; exact .inl hi.symm
        · right
          rw [List.mem_eraseIdx_iff_getElem?]
          exact ⟨i, he, hi⟩
      have hpush : ∀ x ∈ s.explored ++ [cur], P x := by
        intro x hx
        rcases List.mem_append.mp hx with hx | hx
        · exact he x hx
        · simp only [List.mem_singleton] at hx; subst hx; exact hcur
      split at h
      · simp at h
      · split at h
        · simp at h
        · split at h
          · rename_i hcl
            refine ih _ _ h hrest he fun x hx => ⟨(hd x hx).1, fun hv => ?_⟩
            obtain ⟨l, hl, hy⟩ := (hd x hx).2 hv
            refine ⟨l, hl, fun y hyl => ?_⟩
            rcases hy y hyl with h1 | h1
            · exact .inl h1
            · rcases hsplit y h1 with rfl | h1
              · exact .inl (by simpa using hcl)
              · exact .inr h1
          · split at h
            · simp at h
            · rename_i hgoal
              have hold : ∀ (o : List SState), (∀ y ∈ s.openSet.eraseIdx (env.pick t s.openSet % s.openSet.length), y ∈ o) →
                  ∀ x ∈ s.explored, x.isGoal = false ∧ (x.isValid = true → ∃ l, successors env x = .ok l ∧
                    ∀ y ∈ l, hashOf env y ∈ hashOf env cur :: s.closed ∨ y ∈ o) := by
                intro o hoo x hx
                refine ⟨(hd x hx).1, fun hv => ?_⟩
                obtain ⟨l, hl, hy⟩ := (hd x hx).2 hv
                refine ⟨l, hl, fun y hyl => ?_⟩
                rcases hy y hyl with h1 | h1
                · exact .inl (List.mem_cons_of_mem _ h1)
                · rcases hsplit y h1 with rfl | h1
                  · exact .inl (List.mem_cons_self ..)
                  · exact .inr (hoo y h1)
              split at h
              · rename_i hval
                refine ih _ _ h hrest hpush fun x hx => ?_
                rcases List.mem_append.mp hx with hx | hx
                · exact hold _ (fun y hy => hy) x hx
                · simp only [List.mem_singleton] at hx
                  subst hx
                  refine ⟨by simpa using hgoal, fun hv => ?_⟩
                  rw [hv] at hval
                  simp at hval
              · cases hs : successors env cur with
                | err => rw [hs] at h; simp at h
                | panic => rw [hs] at h; simp at h
                | ok l =>
                  rw [hs] at h
                  refine ih _ _ h ?_ hpush fun x hx => ?_
                  · intro x hx
                    rcases List.mem_append.mp hx with hx | hx
                    · exact hrest x hx
                    · exact hP cur l hcur hs x (fresh_mem hx)
                  · rcases List.mem_append.mp hx with hx | hx
                    · exact hold _ (fun y hy => List.mem_append_left _ hy) x hx
                    · simp only [List.mem_singleton] at hx
                      subst hx
                      refine ⟨by simpa using hgoal, fun _ => ⟨l, hs, fun y hy => ?_⟩⟩
                      by_cases hc : hashOf env y ∈ hashOf env x :: s.closed
                      · exact .inl hc
                      · right
                        refine List.mem_append_right _ (List.mem_filter.mpr ⟨hy, ?_⟩)
                        simpa using hc

/-! ## A search does not overlook a solution -/

theorem specExcludes_of_inSpec {q : PackageRequirement} {p : Package} (h : InSpec q p) : specExcludes q p = false := by
  unfold specExcludes
  cases hs : q.spec with
  | none => rfl
  | some spec =>
    cases hv : p.version with
    | none => rfl
    | some v =>
      obtain ⟨range, hr, hc⟩ := h spec v hs hv
      simp [hr, hc]

theorem inSpec_of_specExcludes {q : PackageRequirement} {p : Package} (h : specExcludes q p = false)
    (hq : ∀ spec, q.spec = some spec → (VersionRange.parse spec).isSome = true) : InSpec q p := by
  intro spec v hs hv
  unfold specExcludes at h
  rw [hs, hv] at h
  obtain ⟨range, hr⟩ := Option.isSome_iff_exists.mp (hq spec hs)
  simp only at h
  rw [hr] at h
  exact ⟨range, hr, by simpa using h⟩

theorem successorsOf_complete {env : AEnv} {s : SState} {r : PackageRequirement} {ps : List Package} {l : List SState}
    (h : successorsOf env s r ps = .ok l) {p : Package} (hp : p ∈ ps) (h1 : specExcludes r p = false)
    (h2 : prereleaseExcludes env p = false) : ∃ x ∈ l, createSuccessor s p r = .ok x := by
  induction ps generalizing l with
  | nil => cases hp
  | cons p' ps ih =>
    unfold successorsOf at h
    rcases List.mem_cons.mp hp with rfl | hp
    · rw [h1, h2] at h
      simp only [Bool.or_self, Bool.false_eq_true, if_false] at h
      cases hc : createSuccessor s p r with
      | panic => rw [hc] at h; cases h
      | err =>
        exfalso
        unfold createSuccessor at hc
        have : ∀ raws, newRequirements s raws ≠ .err := by
          intro raws
          induction raws with
          | nil => intro hx; cases hx
          | cons raw rs ihr =>
            unfold newRequirements
            split
            · intro hx; cases hx
            · exact ihr
            · split
              · intro hx; cases hx
              · rename_i hne
                intro hx
                exact ihr hx
        cases hn : newRequirements s p.requires with
        | ok _ => rw [hn] at hc; cases hc
        | err => exact this _ hn
        | panic => rw [hn] at hc; cases hc
      | ok y =>
        rw [hc] at h
        simp only at h
        cases hn : successorsOf env s r ps with
        | panic => rw [hn] at h; cases h
        | err => rw [hn] at h; cases h
        | ok l' =>
          rw [hn] at h
          simp only [Outcome.ok.injEq] at h
          subst h
          exact ⟨y, List.mem_cons_self .., rfl⟩
    · by_cases hs : (specExcludes r p' || prereleaseExcludes env p') = true
      · rw [if_pos hs] at h
        exact ih h hp
      · rw [if_neg hs] at h
        cases hc : createSuccessor s p' r with
        | panic => rw [hc] at h; cases h
        | err => rw [hc] at h; exact ih h hp
        | ok y =>
          rw [hc] at h
          simp only at h
          cases hn : successorsOf env s r ps with
          | panic => rw [hn] at h; cases h
          | err => rw [hn] at h; cases h
          | ok l' =>
            rw [hn] at h
            simp only [Outcome.ok.injEq] at h
            subst h
            obtain ⟨x, hx, hxc⟩ := ih hn hp
            exact ⟨x, List.mem_cons_of_mem _ hx, hxc⟩

/-- the state holds only packages of the solution, and awaits only requirements that the solution meets -/
def Within (sol : List Package) (s : SState) : Prop :=
  (∀ n p, mget s.resolved n = some p → p ∈ sol) ∧
    ∀ q ∈ s.pending, ∃ p ∈ sol, p.name = q.name ∧ specExcludes q p = false

theorem reached_inv {env : AEnv} (fok : FindOk env) {reqs : List PackageRequirement} {s : SState}
    (h : Reached env reqs s) : SInv env reqs s := by
  induction h with
  | start => exact sinv_initial env reqs
  | step _ hs hm ih => exact sinv_successors fok ih hs _ hm

theorem createSuccessor_fields {env : AEnv} (fok : FindOk env) {reqs : List PackageRequirement} {s s' : SState}
    (h : SInv env reqs s) {r : PackageRequirement} (hr : r ∈ s.pending) {ps : List Package}
    (hf : env.find r.name = some ps) {p : Package} (hp : p ∈ ps) (he : specExcludes r p = false)
    (hpre : prereleaseExcludes env p = false) (hc : createSuccessor s p r = .ok s') :
    s'.resolved = mset s.resolved p.name p ∧ ∀ q ∈ s'.pending, q ∈ s.pending ∨
      ∃ raw ∈ p.requires, PackageRequirement.parse raw = .ok q := by
  unfold createSuccessor at hc
  cases hn : newRequirements s p.requires with
  | panic => rw [hn] at hc; cases hc
  | err => rw [hn] at hc; cases hc
  | ok l =>
    rw [hn] at hc
    simp only [Outcome.ok.injEq] at hc
    rw [← hc]
    refine ⟨rfl, fun q hq => ?_⟩
    have hq : q ∈ (s.pending ++ l).filter fun x => x.name != r.name := hq
    rcases List.mem_append.mp (List.mem_filter.mp hq).1 with hq | hq
    · exact .inl hq
    · exact .inr ((newRequirements_mem hn q).mp hq).1

theorem search_complete {env : AEnv} (fok : FindOk env) {reqs : List PackageRequirement} (hf : Faithful env reqs)
    {sol : List Package} (hl : ∀ p ∈ sol, AListed env p) (hpre : ∀ p ∈ sol, prereleaseExcludes env p = false)
    (hreq : ∀ q, Asked reqs sol q → ∃ p ∈ sol, p.name = q.name ∧ specExcludes q p = false)
    {fuel : Nat} {s' : Searcher} (h : search env fuel Searcher.new reqs = some (s', .none)) : False := by
  unfold search at h
  have hP : ∀ s l, Reached env reqs s → successors env s = .ok l → ∀ x ∈ l, Reached env reqs x :=
    fun s l hs hl x hx => .step hs hl hx
  have hopen : ∀ x ∈ ([] ++ [SState.initial reqs] : List SState), Reached env reqs x := by
    intro x hx
    simp only [List.nil_append, List.mem_singleton] at hx
    subst hx
    exact .start
  obtain ⟨hexp, hdone⟩ := loop_none_explored fuel 0 _ s' h (Reached env reqs) hP hopen
    (fun x hx => by cases hx) (fun x hx => by cases hx)
  obtain ⟨_, hinit, _⟩ := loop_none fuel 0 _ s' h
  have hstart : Counted env [] ⟨[] ++ [SState.initial reqs], [], []⟩ :=
    ⟨rfl, List.nodup_nil, (fun x hx => by cases hx), Nat.zero_le _⟩
  have hcount := loop_counted fuel 0 _ s' _ hstart h
  have hclosed : ∀ n ∈ s'.closed, ∃ x ∈ s'.explored, hashOf env x = n := by
    intro n hn
    rw [hcount.closed, List.append_nil, List.mem_reverse] at hn
    exact List.mem_map.mp hn
  -- from any explored state within the solution one gets to another that holds more packages
  have key : ∀ k x, x ∈ s'.explored → Within sol x → sol.length + 1 ≤ x.resolved.length + k → False := by
    intro k
    induction k with
    | zero =>
      intro x hx hw hk
      have hinv := reached_inv fok (hexp x hx)
      have hsub : (mkeys x.resolved) ⊆ sol.map fun p => p.name := by
        intro n hn
        obtain ⟨p, hp⟩ := (mget_isSome_iff _ _).mpr hn
        exact List.mem_map.mpr ⟨p, hw.1 n p hp, (hinv.named n p hp).1⟩
      have := (List.subperm_of_subset hinv.keys hsub).length_le
      simp only [mkeys, List.length_map] at this
      omega
    | succ k ih =>
      intro x hx hw hk
      have hinv := reached_inv fok (hexp x hx)
      obtain ⟨hgoal, hsucc⟩ := hdone x hx
      have hval : x.isValid = true := by simp [SState.isValid, hinv.noConf]
      obtain ⟨l, hl', hy⟩ := hsucc hval
      cases hpd : x.pending with
      | nil =>
        rw [SState.isGoal, hpd, hinv.noConf] at hgoal
        simp at hgoal
      | cons r rest =>
        have hr : r ∈ x.pending := by rw [hpd]; simp
        obtain ⟨p, hps, hpn, hpe⟩ := hw.2 r hr
        obtain ⟨ps, hfind, hpm⟩ := hl p hps
        have hs := hl'
        unfold successors at hs
        rw [hpd] at hs
        simp only at hs
        rw [← hpn, hfind] at hs
        obtain ⟨y, hyl, hyc⟩ := successorsOf_complete hs hpm hpe (hpre p hps)
        have hyr : Reached env reqs y := .step (hexp x hx) hl' hyl
        obtain ⟨hres, hpend⟩ := createSuccessor_fields fok hinv hr (hpn ▸ hfind) hpm hpe (hpre p hps) hyc
        have hwy : Within sol y := by
          constructor
          · intro n p' hg
            rw [hres, mget_mset] at hg
            split at hg
            · simp only [Option.some.injEq] at hg; subst hg; exact hps
            · exact hw.1 n p' hg
          · intro q hq
            rcases hpend q hq with hq | ⟨raw, hraw, hparse⟩
            · exact hw.2 q hq
            · exact hreq q (.inr ⟨p, hps, raw, hraw, hparse⟩)
        obtain ⟨z, hz, hzh⟩ := hclosed _ (hy y hyl)
        obtain ⟨e1, e2⟩ := hf z y (hexp z hz) hyr hzh
        have hwz : Within sol z := ⟨fun n p' hg => hwy.1 n p' (e1 n ▸ hg), fun q hq => hwy.2 q ((e2 q).mp hq)⟩
        refine ih z hz hwz ?_
        have hzinv := reached_inv fok (hexp z hz)
        have hyinv := reached_inv fok hyr
        have hsub : mkeys y.resolved ⊆ mkeys z.resolved := by
          intro n hn
          rw [← mget_isSome_iff] at hn ⊢
          obtain ⟨v, hv⟩ := hn
          exact ⟨v, by rw [e1 n]; exact hv⟩
        have h1 := (List.subperm_of_subset hyinv.keys hsub).length_le
        have h2 : y.resolved.length = x.resolved.length + 1 := by
          rw [hres, mset, List.length_cons]
          congr 1
          have hnot : p.name ∉ mkeys x.resolved := hpn ▸ hinv.disj r hr
          unfold mdel
          rw [List.filter_eq_self.mpr]
          rintro a ha
          simp only [ne_eq, decide_not, Bool.not_eq_true', decide_eq_false_iff_not]
          rintro he
          exact hnot (he ▸ List.mem_map.mpr ⟨a, ha, rfl⟩)
        simp only [mkeys, List.length_map] at h1
        omega
  obtain ⟨x, hx, hxh⟩ := hclosed _ (hinit (SState.initial reqs) (by simp))
  obtain ⟨e1, e2⟩ := hf x _ (hexp x hx) .start hxh
  refine key (sol.length + 1) x hx ⟨?_, ?_⟩ (by omega)
  · intro n p hg
    rw [e1 n] at hg
    cases hg
  · intro q hq
    exact hreq q (.inl ((e2 q).mp hq))

theorem loop_more {env : AEnv} {fuel t : Nat} {s : Searcher} {r : Searcher × SearchResult}
    (h : loop env fuel t s = some r) (k : Nat) : loop env (fuel + k) t s = some r := by
  induction fuel generalizing t s with
  | zero => cases h
  | succ fuel ih =>
    rw [Nat.succ_add]
    unfold loop at h ⊢
    cases hg : s.openSet[env.pick t s.openSet % s.openSet.length]? with
    | none => rw [hg] at h; exact h
    | some cur =>
      rw [hg] at h
      simp only at h ⊢
      by_cases hl : env.late t = true
      · rw [if_pos hl] at h ⊢; exact h
      rw [if_neg hl] at h ⊢
      by_cases hx : s.explored.length ≥ env.maxStates
      · rw [if_pos hx] at h ⊢; exact h
      rw [if_neg hx] at h ⊢
      by_cases hc : s.closed.contains (hashOf env cur) = true
      · rw [if_pos hc] at h ⊢; exact ih h
      rw [if_neg hc] at h ⊢
      by_cases hgo : cur.isGoal = true
      · rw [if_pos hgo] at h ⊢; exact h
      rw [if_neg hgo] at h ⊢
      by_cases hv : (!cur.isValid) = true
      · rw [if_pos hv] at h ⊢; exact ih h
      rw [if_neg hv] at h ⊢
      cases hs : successors env cur with
      | err => rw [hs] at h; exact h
      | panic => rw [hs] at h; exact h
      | ok l => rw [hs] at h; exact ih h

end Rez
