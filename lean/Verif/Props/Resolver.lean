import Verif.Lemmas.ResolverLoop
import Verif.Lemmas.ResolverTerm
import Verif.Lemmas.ResolverVariant
/-!
# C23–C31, C82: the resolver
-/
namespace Rez.Props
open Rez Rez.Spec Rez.RState Rez.Resolver Relation

/-! ## A concrete surrounding, for the examples -/

/-- Stable insertion sort. -/
def insertBy (c : Package → Package → Ordering) (x : Package) : List Package → List Package
  | [] => [x]
  | y :: l => if c x y = .gt then y :: insertBy c x l else x :: y :: l
/-- Stable insertion sort. -/
def sortBy (c : Package → Package → Ordering) (l : List Package) : List Package := l.foldr (insertBy c) []

/-- A repository given by a list of packages, maps iterated in insertion order, sets of versions compared by
their text. -/
def demoEnv (strict : Bool) (ps : List Package) : Env where
  strict := strict
  allowPrerelease := false
  preferLatest := true
  repo := fun n => some (ps.filter fun p => p.name == n)
  order := fun _ l => l
  keyOrder := fun l => l
  sort := sortBy
  inSet := fun l v => l.any fun u => u.repr == v.repr

theorem insertBy_perm (c : Package → Package → Ordering) (x : Package) (l : List Package) :
    (insertBy c x l).Perm (x :: l) := by
  induction l with
  | nil => exact .refl _
  | cons y l ih =>
    unfold insertBy
    split
    · exact (ih.cons y).trans (.swap x y l)
    · exact .refl _

theorem demoEnv_ok (strict : Bool) (ps : List Package) : EnvOk (demoEnv strict ps) := by
  refine ⟨fun _ _ => .refl _, fun _ => .refl _, ?_, ?_⟩
  · intro c l
    show (sortBy c l).Perm l
    induction l with
    | nil => exact .refl _
    | cons x l ih => exact (insertBy_perm c x _).trans (ih.cons x)
  · intro n l h p hp
    simp only [demoEnv, Option.some.injEq] at h
    subst h
    simpa using (List.mem_filter.mp hp).2

theorem insertBy_sorted {c : Package → Package → Ordering} {x : Package} {l : List Package}
    (hsw : ∀ y ∈ l, c y x = (c x y).swap)
    (htr : ∀ a ∈ x :: l, ∀ b ∈ x :: l, ∀ d ∈ x :: l, c a b ≠ .gt → c b d ≠ .gt → c a d ≠ .gt)
    (hs : l.Pairwise fun a b => c a b ≠ .gt) : (insertBy c x l).Pairwise fun a b => c a b ≠ .gt := by
  induction l with
  | nil => simp [insertBy]
  | cons y l ih =>
    have hs' := List.pairwise_cons.mp hs
    unfold insertBy
    split
    · rename_i hgt
      refine List.pairwise_cons.mpr ⟨fun z hz => ?_, ih (fun z hz => hsw z (List.mem_cons_of_mem _ hz)) ?_ hs'.2⟩
      · rcases List.mem_cons.mp ((insertBy_perm c x l).mem_iff.mp hz) with rfl | hz
        · rw [hsw y (List.mem_cons_self ..), hgt]; simp
        · exact hs'.1 z hz
      · intro a ha b hb d hd
        have sub : ∀ e ∈ x :: l, e ∈ x :: y :: l := by
          intro e he
          rcases List.mem_cons.mp he with rfl | he
          · exact List.mem_cons_self ..
          · exact List.mem_cons_of_mem _ (List.mem_cons_of_mem _ he)
        exact htr a (sub a ha) b (sub b hb) d (sub d hd)
    · rename_i hgt
      refine List.pairwise_cons.mpr ⟨fun z hz => ?_, hs⟩
      rcases List.mem_cons.mp hz with rfl | hz'
      · exact hgt
      · exact htr x (List.mem_cons_self ..) y (by simp) z (List.mem_cons_of_mem _ hz) hgt (hs'.1 z hz')

theorem demoEnv_sortOk (strict : Bool) (ps : List Package) : SortOk (demoEnv strict ps) := by
  intro c l
  show _ → _ → (sortBy c l).Pairwise _
  induction l with
  | nil => intros; exact .nil
  | cons x l ih =>
    intro hsw htr
    have hp : (sortBy c l).Perm l := (demoEnv_ok strict ps).sort c l
    have hm : ∀ y, y ∈ sortBy c l → y ∈ x :: l := fun y hy => List.mem_cons_of_mem _ (hp.mem_iff.mp hy)
    have hm' : ∀ y, y ∈ x :: sortBy c l → y ∈ x :: l := fun y hy => by
      rcases List.mem_cons.mp hy with rfl | hy
      · exact List.mem_cons_self ..
      · exact hm y hy
    exact insertBy_sorted (fun y hy => hsw x (List.mem_cons_self ..) y (hm y hy))
      (fun a ha b hb d hd => htr a (hm' a ha) b (hm' b hb) d (hm' d hd))
      (ih (fun a ha b hb => hsw a (List.mem_cons_of_mem _ ha) b (List.mem_cons_of_mem _ hb))
        (fun a ha b hb d hd => htr a (List.mem_cons_of_mem _ ha) b (List.mem_cons_of_mem _ hb) d
          (List.mem_cons_of_mem _ hd)))

/-- A version given by its text. -/
def vsn (s : Str) : Version := (Version.parse s).getD Version.empty
/-- A package with a version and requirements, without variants. -/
def mkPkg (name ver : Str) (reqs : List Str) : Package := ⟨name, some (vsn ver), reqs, [], [], none⟩
/-- A requirement given by its text. -/
def mkReq (s : Str) : Requirement := (Requirement.parse s).getD ⟨[], none, false, false, [], [], none⟩


/-- What a resolve found, as texts. -/
inductive Shown where
  | running
  | error
  | found (packages : List (Str × Str)) (failed : List Str)
  deriving DecidableEq

/-- The resolved packages with their versions, and the names of the failed requirements. -/
def shown : Option (Option Result) → Shown
  | none => .running
  | some none => .error
  | some (some res) => .found
    (res.resolved.map fun i => (i.package.name, (i.package.version.map fun v => v.repr).getD []))
    (res.failed.map fun r => r.name)

theorem shown_found {o : Option (Option Result)} {ps fs} (h : shown o = .found ps fs) :
    ∃ res, o = some (some res) ∧
      (res.resolved.map fun i => (i.package.name, (i.package.version.map fun v => v.repr).getD [])) = ps := by
  match o, h with
  | some (some res), h => simp only [shown, Shown.found.injEq] at h; exact ⟨res, rfl, h.1⟩

/-- A repository with a choice of versions: `a-2` needs `b-3`, which does not exist beside `c`'s `b<2`. -/
def smallEnv : Env := demoEnv true
  [mkPkg c!"a" c!"1" [c!"b"], mkPkg c!"a" c!"2" [c!"b-2"], mkPkg c!"b" c!"1" [], mkPkg c!"b" c!"2" [],
   mkPkg c!"c" c!"1" [c!"b<2", c!"~d-1", c!"!e"]]

set_option maxRecDepth 100000 in
theorem smallEnv_resolves : shown (resolve smallEnv 40 [mkReq c!"a", mkReq c!"c", mkReq c!"!f"]) =
    .found [(c!"a", c!"1"), (c!"c", c!"1"), (c!"b", c!"1")] [] := by decide +kernel

/-! ## C23 -/

/-- C23: after a successful strict resolve every requirement of the request holds among the resolved packages, and
so does every requirement of a resolved package or of the variant chosen for it. -/
theorem C23_strict_satisfies {env : Env} (ok : EnvOk env) (hs : env.strict = true) {fuel : Nat}
    {reqs : List Requirement} {res : Result} (h : resolve env fuel reqs = some (some res)) :
    (∀ r ∈ reqs, r.conflict = false → Holds (packagesOf res.resolved) r) ∧
    (∀ i ∈ res.resolved, ∀ raw, Demands i raw → ¬ IsConflictText raw →
      ∃ r, Requirement.parse raw = some r ∧ Holds (packagesOf res.resolved) r) := by
  obtain ⟨s, _, hi, hg, ho, _, hf, hr, _⟩ := resolve_state ok h
  have key : ∀ r, s.Tracked r → Holds (packagesOf res.resolved) r := by
    intro r ht
    rw [hr]
    rcases tracked_holds_or_failed hi hg ht with h1 | h1
    · exact h1
    · rw [hf hs] at h1; cases h1
  refine ⟨fun r hm hc => key r (tracked_request (ho ▸ hm) hc), fun i hi' raw hd hc => ?_⟩
  obtain ⟨r, hp, ht⟩ := tracked_demand hi (hr ▸ hi') hd hc
  exact ⟨r, hp, key r ht⟩

/-- The hypotheses of C23 are met by a resolve that had to change its mind about `a`. -/
example : ∃ res, EnvOk smallEnv ∧ smallEnv.strict = true ∧
    resolve smallEnv 40 [mkReq c!"a", mkReq c!"c", mkReq c!"!f"] = some (some res) ∧ res.resolved.length = 3 := by
  obtain ⟨res, h, hp⟩ := shown_found smallEnv_resolves
  exact ⟨res, demoEnv_ok _ _, rfl, h, by simpa using congrArg List.length hp⟩

/-! ## C24 -/

/-- C24: a resolve, strict or not, never holds two packages of one family. -/
theorem C24_one_per_family {env : Env} (ok : EnvOk env) {fuel : Nat} {reqs : List Requirement} {res : Result}
    (h : resolve env fuel reqs = some (some res)) : (res.resolved.map fun i => i.package.name).Nodup := by
  obtain ⟨s, _, hi, _, _, _, _, hr, _⟩ := resolve_state ok h
  rw [hr]; exact hi.nodup

/-- Two requirements on one family yield one package of it. -/
example : shown (resolve smallEnv 40 [mkReq c!"b<2", mkReq c!"b"]) = .found [(c!"b", c!"1")] [] := by
  decide +kernel

/-! ## C26 -/

/-- C26, refuted: a conflict that a resolved package brings is not held against packages resolved earlier. -/
theorem C26_package_conflict_false :
    let env := demoEnv true [mkPkg c!"a" c!"1" [], mkPkg c!"b" c!"1" [c!"!a"]]
    shown (resolve env 20 [mkReq c!"a", mkReq c!"b"]) =
      .found [(c!"a", c!"1"), (c!"b", c!"1")] [] := by decide +kernel

/-- C26, refuted: with a blank before the `!` the conflict is even taken for a requirement. -/
theorem C26_blank_conflict_false :
    let env := demoEnv true [mkPkg c!"a" c!"1" [], mkPkg c!"b" c!"1" [c!" !a"]]
    shown (resolve env 20 [mkReq c!"b"]) = .found [(c!"b", c!"1"), (c!"a", c!"1")] [] := by
  decide +kernel

/-- C26, partial: conflicts of the request are respected by every resolve, strict or not.  Missing: conflicts that
resolved packages bring, for which the claim is false. -/
theorem C26_request_conflicts_partial {env : Env} (ok : EnvOk env) {fuel : Nat} {reqs : List Requirement} {res : Result}
    (h : resolve env fuel reqs = some (some res)) :
    ∀ c ∈ reqs, c.conflict = true → Excluded (packagesOf res.resolved) c := by
  obtain ⟨s, _, hi, _, ho, _, _, hr, _⟩ := resolve_state ok h
  intro c hc hcf p hp hn
  rw [hr] at hp
  obtain ⟨i, hi', rfl⟩ := List.mem_map.mp hp
  exact hi.noConflict i hi' c (ho ▸ hc) hcf hn.symm

/-- The conflict `!a-2` makes the resolve settle for `a-1`. -/
example : (mkReq c!"!a-2").conflict = true ∧
    shown (resolve smallEnv 40 [mkReq c!"!a-2", mkReq c!"a"]) =
      .found [(c!"a", c!"1"), (c!"b", c!"2")] [] := by decide +kernel

/-! ## C27 -/

/-- C27: every resolved package is listed by a repository under its name, respects the prerelease policy, and has
one of its variants chosen if it has any. -/
theorem C27_listed {env : Env} (ok : EnvOk env) {fuel : Nat} {reqs : List Requirement} {res : Result}
    (h : resolve env fuel reqs = some (some res)) :
    ∀ i ∈ res.resolved, Listed env i.package ∧ ReleaseOk env i.package ∧ VariantChosen i := by
  obtain ⟨s, _, hi, _, _, _, _, hr, _⟩ := resolve_state ok h
  intro i hm
  obtain ⟨_, _, _, _, hv⟩ := hi.valid i (hr ▸ hm)
  exact ⟨hv.listed, hv.release, hv.variant⟩

/-- Prereleases are passed over, and a variant is chosen. -/
example :
    let env := demoEnv true [⟨c!"a", some (vsn c!"1"), [], [[c!"b-2"], [c!"b-1"]], [], none⟩, mkPkg c!"a" c!"2.rc1" [],
      mkPkg c!"b" c!"1" []]
    shown (resolve env 40 [mkReq c!"b", mkReq c!"a"]) =
      .found [(c!"b", c!"1"), (c!"a", c!"1")] [] ∧
    ((resolve env 40 [mkReq c!"b", mkReq c!"a"]).map fun o => o.map fun r => r.resolved.map fun i => i.variantIndex) =
      some (some [none, some 1]) := by decide +kernel

/-! ## C28 -/

/-- C28: a package is in the result only if the request needs its family through a chain of requirements that are
neither weak nor conflicts. -/
theorem C28_needed {env : Env} (ok : EnvOk env) {fuel : Nat} {reqs : List Requirement} {res : Result}
    (h : resolve env fuel reqs = some (some res)) :
    ∀ i ∈ res.resolved, Needed reqs res.resolved i.package.name := by
  obtain ⟨s, _, hi, _, ho, _, _, hr, _⟩ := resolve_state ok h
  intro i hm
  rw [hr, ← ho]
  exact needed_spec hi (hi.needed i (hr ▸ hm))

/-- Weak requirements pull nothing in, and packages needed only by a version given up again are dropped. -/
example :
    let env := demoEnv true [mkPkg c!"a" c!"2" [c!"x"], mkPkg c!"a" c!"1" [c!"~y"], mkPkg c!"c" c!"1" [c!"a<2"],
      mkPkg c!"d" c!"1" [c!"c"], mkPkg c!"x" c!"1" [], mkPkg c!"y" c!"1" []]
    shown (resolve env 40 [mkReq c!"a", mkReq c!"d"]) =
      .found [(c!"a", c!"1"), (c!"d", c!"1"), (c!"c", c!"1")] [] := by decide +kernel

/-! ## C25 -/

/-- More fuel changes nothing once the loop has ended, so `resolve env fuel reqs = some o` for some `fuel` says that
the resolver returns `o`. -/
theorem C25_fuel_irrelevant {env : Env} {fuel : Nat} {reqs : List Requirement} {o : Option Result}
    (h : resolve env fuel reqs = some o) (k : Nat) : resolve env (fuel + k) reqs = some o := by
  unfold resolve at h ⊢
  cases hr : run env fuel 1 (RState.new env reqs) with
  | none => rw [hr] at h; cases h
  | some x => rw [run_more hr k]; rw [hr] at h; exact h

/-- Two families whose versions require each other crosswise. -/
def crossEnv : Env := demoEnv true
  [mkPkg c!"p" c!"1" [c!"q-1"], mkPkg c!"p" c!"2" [c!"q-2"], mkPkg c!"q" c!"1" [c!"p-2"], mkPkg c!"q" c!"2" [c!"p-1"]]

set_option maxRecDepth 100000 in
/-- C25, refuted: on this repository of four packages, asked for `p`, the resolver never returns. -/
theorem C25_terminates_false : ∀ fuel, resolve crossEnv fuel [mkReq c!"p"] = none :=
  diverges (k := 13) (p := 9) (fun _ => rfl) (by decide +kernel) (by rfl)

/-- One family, without any requirements. -/
def spellEnv : Env := demoEnv true [mkPkg c!"p" c!"1.1" [], mkPkg c!"p" c!"01.1" []]

set_option maxRecDepth 100000 in
/-- C25, refuted: even where packages require nothing the resolver need not return.  `p~=1.0` and `p~=01.0` both count
as equal to `p~=1`, so only the latter is kept as a constraint, and the two versions replace each other forever. -/
theorem C25_spellings_false :
    ∀ fuel, resolve spellEnv fuel [mkReq c!"p~=1", mkReq c!"p~=1.0", mkReq c!"p~=01.0"] = none :=
  diverges (k := 4) (p := 4) (fun _ => rfl) (by decide +kernel) (by rfl)

theorem demoEnv_setOk (strict : Bool) (ps : List Package) : SetOk (demoEnv strict ps) where
  empty := fun _ => rfl
  inserted := fun l v => by simp [demoEnv]
  kept := fun l u v h => by
    simp only [demoEnv, List.any_cons, Bool.or_eq_true] at h ⊢
    exact .inr h

/-- C25, partial: the resolver returns, in strict mode or not, whenever the families can be put in an order in which
packages only require families that come later, and stated requirements that count as equal accept the same packages.
Missing: families that require each other, and unequal requirements that count as equal, for which the claim is
false. -/
theorem C25_layered_partial {env : Env} (ok : EnvOk env) (so : SetOk env) {reqs : List Requirement} {fams : List Str}
    (lay : Layered env reqs fams) (sp : SpellingsAgree env reqs) : ∃ fuel o, resolve env fuel reqs = some o := by
  have hq : QueueOk (RState.new env reqs) := by
    intro r hr
    have hr : r ∈ reqs.filter fun r => !r.conflict := hr
    obtain ⟨h1, h2⟩ := List.mem_filter.mp hr
    exact .inl ⟨h1, by simpa using h2⟩
  obtain ⟨fuel, hf⟩ := run_terminates ok so sp lay _ (new_inv ok reqs) rfl hq 1
  obtain ⟨x, hx⟩ := Option.isSome_iff_exists.mp hf
  exact ⟨fuel, _, by unfold resolve; rw [hx]; rfl⟩

/-- The hypotheses of `C25_layered_partial` are met by a repository where the newest `a` has to be given up. -/
example : EnvOk smallEnv ∧ SetOk smallEnv ∧ Layered smallEnv [mkReq c!"a", mkReq c!"c"] [c!"a", c!"c", c!"b", c!"d"] ∧
    SpellingsAgree smallEnv [mkReq c!"a", mkReq c!"c"] := by
  have hlist : ∀ p, Listed smallEnv p → p ∈ [mkPkg c!"a" c!"1" [c!"b"], mkPkg c!"a" c!"2" [c!"b-2"],
      mkPkg c!"b" c!"1" [], mkPkg c!"b" c!"2" [], mkPkg c!"c" c!"1" [c!"b<2", c!"~d-1", c!"!e"]] := by
    rintro p ⟨ps, hps, hp⟩
    simp only [smallEnv, demoEnv, Option.some.injEq] at hps
    subst hps
    exact (List.mem_filter.mp hp).1
  have htext : ∀ p, Listed smallEnv p → ∀ raw, TextOf p raw → ¬ IsConflictText raw →
      (p.name, raw) ∈ [(c!"a", c!"b"), (c!"a", c!"b-2"), (c!"c", c!"b<2"), (c!"c", c!"~d-1")] := by
    intro p hp raw ht hc
    have := hlist p hp
    simp only [List.mem_cons, List.not_mem_nil, or_false] at this
    rcases this with rfl | rfl | rfl | rfl | rfl <;> rcases ht with h | ⟨vs, hvs, _⟩ <;>
      simp only [mkPkg, List.not_mem_nil, List.mem_cons, or_false] at * <;> grind [IsConflictText]
  have hparse : ∀ x ∈ [(c!"a", c!"b"), (c!"a", c!"b-2"), (c!"c", c!"b<2"), (c!"c", c!"~d-1")],
      Requirement.parse x.2 = some (mkReq x.2) := by
    intro x hx
    simp only [List.mem_cons, List.not_mem_nil, or_false] at hx
    rcases hx with rfl | rfl | rfl | rfl <;> rfl
  have hnames : ∀ x ∈ [(c!"a", c!"b"), (c!"a", c!"b-2"), (c!"c", c!"b<2"), (c!"c", c!"~d-1")],
      (mkReq x.2).name ∈ [c!"a", c!"c", c!"b", c!"d"] ∧
      [c!"a", c!"c", c!"b", c!"d"].idxOf x.1 < [c!"a", c!"c", c!"b", c!"d"].idxOf (mkReq x.2).name := by decide +kernel
  have hreq : ∀ r ∈ [mkReq c!"a", mkReq c!"c"], r.conflict = false → r.name ∈ [c!"a", c!"c", c!"b", c!"d"] := by
    decide +kernel
  refine ⟨demoEnv_ok _ _, demoEnv_setOk _ _, ⟨hreq, ?_⟩, ?_⟩
  · intro p hp _ raw ht hc r hr
    have h := htext p hp raw ht hc
    rw [Option.some.inj (hr.symm.trans (hparse (p.name, raw) h))]
    exact hnames (p.name, raw) h
  · have hst : ∀ r, Stated smallEnv [mkReq c!"a", mkReq c!"c"] r →
        ∃ x ∈ [c!"a", c!"c", c!"b", c!"b-2", c!"b<2", c!"~d-1"], r = mkReq x := by
      rintro r (h | ⟨p, hp, raw, ht, hc, hr⟩)
      · rcases List.mem_pair.mp h with h | h
        · exact ⟨c!"a", by decide, h⟩
        · exact ⟨c!"c", by decide, h⟩
      · have h := htext p hp raw ht hc
        refine ⟨raw, ?_, Option.some.inj (hr.symm.trans (hparse (p.name, raw) h))⟩
        simp only [List.mem_cons, Prod.mk.injEq, List.not_mem_nil, or_false] at h ⊢
        rcases h with h | h | h | h <;> simp [h.2]
    have heq : ∀ x ∈ [c!"a", c!"c", c!"b", c!"b-2", c!"b<2", c!"~d-1"],
        ∀ y ∈ [c!"a", c!"c", c!"b", c!"b-2", c!"b<2", c!"~d-1"],
        (mkReq x).eqv (mkReq y) = true → x = y := by decide +kernel
    intro r r' hr hr' he p _ hin
    obtain ⟨x, hx, hrx⟩ := hst r hr
    obtain ⟨y, hy, hry⟩ := hst r' hr'
    have hxy := heq x hx y hy (by rw [← hrx, ← hry]; exact he)
    rw [hry, ← hxy, ← hrx]
    exact hin

/-! ## C29 -/

/-- C29, partial: the candidates for a requirement are exactly the packages of its family that the repository lists,
that respect the prerelease policy and that lie in its range, each as often as it is listed.  Missing here: the
order. -/
theorem C29_candidates_partial {env : Env} (ok : EnvOk env) {r : Requirement} {cs : List Package}
    (h : candidates env r = some cs) : ∃ ps keep, env.repo r.name = some ps ∧ cs.Perm (ps.filter keep) ∧
      ∀ p, keep p = true ↔ ReleaseOk env p ∧ InRange r p := by
  unfold candidates at h
  cases hr : env.repo r.name with
  | none => rw [hr] at h; cases h
  | some ps =>
    rw [hr] at h
    simp only [Option.map_some, Option.some.injEq] at h
    subst h
    refine ⟨ps, acceptable env r, rfl, ok.sort _ _, fun p => ?_⟩
    exact acceptable_iff env r p

/-- C29, partial: where comparison of the listed versions is transitive, the candidates come newest first, or oldest
first if so configured.  Missing: families with versions that the comparison cannot order, for which the claim is
false.  Packages without a version come first in the one case and last in the other. -/
theorem C29_sorted_partial {env : Env} (ok : EnvOk env) (so : SortOk env) {r : Requirement} {cs ps : List Package}
    (h : candidates env r = some cs) (hr : env.repo r.name = some ps) (hc : Comparable ps) :
    (env.preferLatest = true → NewestFirst cs) ∧ (env.preferLatest = false → OldestFirst cs) := by
  unfold candidates at h
  rw [hr] at h
  simp only [Option.map_some, Option.some.injEq] at h
  subst h
  have hc' : Comparable (ps.filter (acceptable env r)) := fun p hp q hq r hr =>
    hc p (List.mem_of_mem_filter hp) q (List.mem_of_mem_filter hq) r (List.mem_of_mem_filter hr)
  constructor
  · intro hp
    unfold filterSort NewestFirst
    rw [if_pos hp]
    refine (so cmpLatest _ (fun x _ y _ => cmpLatest_swap x y) (cmpLatest_trans hc')).imp ?_
    intro p q hpq
    unfold cmpLatest at hpq
    constructor
    · intro hq
      cases hv : p.version with
      | none => rfl
      | some v => rw [hq, hv] at hpq; exact absurd rfl hpq
    · intro u v hu hv hlt
      rw [hu, hv] at hpq
      apply hpq
      simp only
      rw [← Version.cmp_swap, hlt]; rfl
  · intro hp
    unfold filterSort OldestFirst
    rw [if_neg (by simp [hp])]
    refine (so cmpOldest _ (fun x _ y _ => cmpOldest_swap x y) (cmpOldest_trans hc')).imp ?_
    intro p q hpq
    unfold cmpOldest at hpq
    constructor
    · intro hq
      cases hv : q.version with
      | none => rfl
      | some v => rw [hq, hv] at hpq; exact absurd rfl hpq
    · intro u v hu hv hlt
      rw [hu, hv] at hpq
      exact hpq hlt

/-- C29, refuted: three versions that no order can put newest first. -/
theorem C29_sorted_false (env : Env) (h : env.repo c!"p" = some [mkPkg c!"p" c!"b" [],
      mkPkg c!"p" c!"99999999999999999999" [], mkPkg c!"p" c!"a1" []])
    (ok : EnvOk env) (hp : env.allowPrerelease = true) :
    ∃ cs, candidates env (mkReq c!"p") = some cs ∧ ¬ NewestFirst cs ∧ ¬ OldestFirst cs := by
  have hn : (mkReq c!"p").name = c!"p" := by decide
  obtain ⟨ps, keep, hps, hperm, hk⟩ := C29_candidates_partial ok (r := mkReq c!"p")
    (cs := filterSort env [mkPkg c!"p" c!"b" [],
      mkPkg c!"p" c!"99999999999999999999" [], mkPkg c!"p" c!"a1" []] (mkReq c!"p")) (by unfold candidates; rw [hn, h]; rfl)
  rw [hn, h] at hps
  simp only [Option.some.injEq] at hps
  have hall : ∀ p ∈ ps, keep p = true := fun p _ => (hk p).mpr ⟨fun _ _ => .inl hp, fun _ _ => rfl⟩
  rw [List.filter_eq_self.mpr hall] at hperm
  subst hps
  refine ⟨_, by unfold candidates; rw [hn, h]; rfl, ?_, ?_⟩
  · intro hN
    have e12 : (vsn c!"b").cmp (vsn c!"99999999999999999999") = .lt := by decide
    have e23 : (vsn c!"99999999999999999999").cmp (vsn c!"a1") = .lt := by decide
    have e31 : (vsn c!"a1").cmp (vsn c!"b") = .lt := by decide
    exact no_cycle_sorted hperm (fun x y => ∃ u v, x.version = some u ∧ y.version = some v ∧ u.cmp v = .lt)
      ⟨_, _, rfl, rfl, e12⟩ ⟨_, _, rfl, rfl, e23⟩ ⟨_, _, rfl, rfl, e31⟩
      (hN.imp fun hxy => fun ⟨u, v, hu, hv, hlt⟩ => hxy.2 u v hu hv hlt)
  · intro hO
    have e12 : (vsn c!"99999999999999999999").cmp (vsn c!"b") = .gt := by decide
    have e23 : (vsn c!"a1").cmp (vsn c!"99999999999999999999") = .gt := by decide
    have e31 : (vsn c!"b").cmp (vsn c!"a1") = .gt := by decide
    exact no_cycle_sorted (hperm.trans (.swap _ _ _)) (fun x y => ∃ u v, x.version = some u ∧ y.version = some v ∧ u.cmp v = .gt)
      ⟨_, _, rfl, rfl, e12⟩ ⟨_, _, rfl, rfl, e31⟩ ⟨_, _, rfl, rfl, e23⟩
      (hO.imp fun hxy => fun ⟨u, v, hu, hv, hlt⟩ => hxy.2 u v hu hv hlt)

/-- A family of four, of which one is a prerelease and one out of range. -/
def familyEnv : Env := demoEnv true
  [mkPkg c!"p" c!"1.2" [], mkPkg c!"p" c!"3.0" [], mkPkg c!"p" c!"1.10" [], mkPkg c!"p" c!"1.11.rc1" []]

/-- The hypotheses of C29 are met, and the candidates for `p-1` are 1.10 and 1.2. -/
example : EnvOk familyEnv ∧ SortOk familyEnv ∧
    (∃ ps, familyEnv.repo c!"p" = some ps ∧ ps.length = 4 ∧ Comparable ps) ∧
    (candidates familyEnv (mkReq c!"p-1")).map (fun l => l.map fun p => p.version.map fun v => v.repr) =
      some [some c!"1.10", some c!"1.2"] := by
  refine ⟨demoEnv_ok _ _, demoEnv_sortOk _ _, ⟨_, rfl, by decide +kernel, ?_⟩, by decide +kernel⟩
  intro p hp q hq r hr u v w hu hv hw
  have key : ∀ x ∈ [c!"1.2", c!"3.0", c!"1.10", c!"1.11.rc1"], ∀ y ∈ [c!"1.2", c!"3.0", c!"1.10", c!"1.11.rc1"],
      ∀ z ∈ [c!"1.2", c!"3.0", c!"1.10", c!"1.11.rc1"],
      (vsn x).cmp (vsn y) ≠ .gt → (vsn y).cmp (vsn z) ≠ .gt → (vsn x).cmp (vsn z) ≠ .gt := by decide +kernel
  have pick : ∀ p v, p ∈ [mkPkg c!"p" c!"1.2" [], mkPkg c!"p" c!"3.0" [], mkPkg c!"p" c!"1.10" [],
      mkPkg c!"p" c!"1.11.rc1" []] → p.version = some v →
      ∃ x ∈ [c!"1.2", c!"3.0", c!"1.10", c!"1.11.rc1"], v = vsn x := by
    intro p v hp hv
    simp only [List.mem_cons, List.not_mem_nil, or_false] at hp
    rcases hp with rfl | rfl | rfl | rfl <;> simp only [mkPkg, Option.some.injEq] at hv <;> subst hv <;> simp
  obtain ⟨x, hx, rfl⟩ := pick p u (List.mem_of_mem_filter hp) hu
  obtain ⟨y, hy, rfl⟩ := pick q v (List.mem_of_mem_filter hq) hv
  obtain ⟨z, hz, rfl⟩ := pick r w (List.mem_of_mem_filter hr) hw
  exact key x hx y hy z hz

/-- The hypotheses of C29's refutation are met. -/
example : ∃ env, env.repo c!"p" = some [mkPkg c!"p" c!"b" [], mkPkg c!"p" c!"99999999999999999999" [],
    mkPkg c!"p" c!"a1" []] ∧ EnvOk env ∧ env.allowPrerelease = true := by
  refine ⟨{ demoEnv true [mkPkg c!"p" c!"b" [], mkPkg c!"p" c!"99999999999999999999" [],
    mkPkg c!"p" c!"a1" []] with allowPrerelease := true }, by rfl, ?_, rfl⟩
  have h := demoEnv_ok true [mkPkg c!"p" c!"b" [], mkPkg c!"p" c!"99999999999999999999" [], mkPkg c!"p" c!"a1" []]
  exact ⟨h.order, h.keyOrder, h.sort, h.named⟩

/-! ## C30 -/

/-- C30: the search for a cycle reports one exactly when the relation has one, and what it reports is one: it ends
where it begins and each member leads to the next. -/
theorem C30_cycle_exact {env : Env} (ok : EnvOk env) (g : List (Str × List Str)) :
    ((detectCycle env g).isSome = true ↔ ∃ n, TransGen (fun a b => b ∈ (mget g a).getD []) n n) ∧
    (∀ c, detectCycle env g = some c → ∃ x l, c = x :: (l ++ [x]) ∧ Linked (fun a b => b ∈ (mget g a).getD []) c) := by
  have h := detectCycle_spec (env := env) ok.keyOrder g
  cases hd : detectCycle env g with
  | none =>
    rw [hd] at h
    refine ⟨⟨fun hx => (by cases hx), fun ⟨n, hn⟩ => absurd hn (h n)⟩, fun c hc => (by cases hc)⟩
  | some c =>
    rw [hd] at h
    obtain ⟨x, _, hx⟩ := closedPath_cyclic h
    refine ⟨⟨fun _ => ⟨x, hx⟩, fun _ => rfl⟩, fun c' hc => ?_⟩
    simp at hc
    subst hc
    exact h

/-- C30: a successful resolve, strict or not, has no cycle among its packages. -/
theorem C30_result_acyclic {env : Env} (ok : EnvOk env) {fuel : Nat} {reqs : List Requirement} {res : Result}
    (h : resolve env fuel reqs = some (some res)) : ∀ n, ¬ TransGen (Requires res.resolved) n n := by
  obtain ⟨s, _, hi, _, _, hcy, _, hr, _⟩ := resolve_state ok h
  have hd := detectCycle_spec (env := env) ok.keyOrder s.depGraph
  rw [hcy] at hd
  intro n hn
  rw [hr] at hn
  exact hd n (TransGen.mono (fun a b hab => (edge_iff hi a b).mpr hab) _ _ hn)

/-- C30: when the loop has ended, the resolve fails for a cycle exactly if its packages have one. -/
theorem C30_cycle_reported {env : Env} (ok : EnvOk env) {fuel : Nat} {reqs : List Requirement} {s : RState}
    (h : run env fuel 1 (RState.new env reqs) = some (some s)) :
    (detectCycle env s.depGraph).isSome = true ↔ ∃ n, TransGen (Requires s.resolved) n n := by
  have hi := (run_inv ok fuel 1 (new_inv ok reqs) h).1
  rw [(C30_cycle_exact ok s.depGraph).1]
  constructor
  · rintro ⟨n, hn⟩; exact ⟨n, TransGen.mono (fun a b hab => (edge_iff hi a b).mp hab) _ _ hn⟩
  · rintro ⟨n, hn⟩; exact ⟨n, TransGen.mono (fun a b hab => (edge_iff hi a b).mpr hab) _ _ hn⟩

/-- A cycle through three families makes the resolve fail; without the last edge it succeeds. -/
example :
    let env := fun l => demoEnv true [mkPkg c!"a" c!"1" [c!"b"], mkPkg c!"b" c!"1" [c!"c"], mkPkg c!"c" c!"1" l]
    shown (resolve (env [c!"a"]) 40 [mkReq c!"a"]) = .error ∧
    shown (resolve (env []) 40 [mkReq c!"a"]) = .found [(c!"a", c!"1"), (c!"b", c!"1"), (c!"c", c!"1")] [] ∧
    detectCycle (env []) [(c!"a", [c!"b"]), (c!"b", [c!"c"]), (c!"c", [c!"a"])] = some [c!"a", c!"b", c!"c", c!"a"] := by
  decide +kernel

/-! ## C31 -/

/-- A newer version of `a` that needs a family nobody provides. -/
def stuckEnv : Env := demoEnv true [mkPkg c!"a" c!"2" [c!"missing"], mkPkg c!"a" c!"1" []]

/-- C31, refuted: the strict resolve of `a` fails although `a-1` alone is a solution. -/
theorem C31_unresolvable_false :
    shown (resolve stuckEnv 20 [mkReq c!"a"]) = .error ∧
    Solution stuckEnv [mkReq c!"a"] [⟨mkPkg c!"a" c!"1" [], none, true, [], none⟩] := by
  refine ⟨by decide +kernel, ?_⟩
  have hd : ∀ raw, ¬ Demands ⟨mkPkg c!"a" c!"1" [], none, true, [], none⟩ raw := by
    rintro raw (h | ⟨k, vs, h, _⟩)
    · cases h
    · cases h
  refine ⟨?_, ?_, ?_, ?_, ?_, ?_, ?_, ?_, ?_⟩
  · intro i hi
    rw [List.mem_singleton.mp hi]
    exact ⟨_, rfl, List.mem_filter.mpr ⟨List.mem_cons_of_mem _ (List.mem_cons_self ..), by decide⟩⟩
  · intro i hi v hv
    rw [List.mem_singleton.mp hi] at hv
    right
    cases hv
    decide
  · intro i hi
    rw [List.mem_singleton.mp hi]
    exact .inl ⟨rfl, rfl⟩
  · simp
  · intro r hr _
    rw [List.mem_singleton.mp hr]
    unfold Holds
    rw [if_neg (by decide)]
    exact ⟨_, List.mem_singleton.mpr rfl, by decide, fun v hv => by cases hv; decide⟩
  · intro r hr hc
    rw [List.mem_singleton.mp hr] at hc
    exact absurd hc (by decide)
  · intro i hi raw h
    rw [List.mem_singleton.mp hi] at h
    exact absurd h (hd raw)
  · intro i hi raw h
    rw [List.mem_singleton.mp hi] at h
    exact absurd h (hd raw)
  · intro n hn
    have : ∀ a b, ¬ Requires [⟨mkPkg c!"a" c!"1" [], none, true, [], none⟩] a b := by
      rintro a b ⟨i, hi, _, raw, _, h, _⟩
      rw [List.mem_singleton.mp hi] at h
      exact hd raw h
    cases hn with
    | single h => exact this _ _ h
    | tail _ h => exact this _ _ h

/-! ## C82 -/

/-- C82: every requirement of the request or of a resolved package that does not hold in the result is reported as
failed, strict or not. -/
theorem C82_unmet_reported {env : Env} (ok : EnvOk env) {fuel : Nat} {reqs : List Requirement} {res : Result}
    (h : resolve env fuel reqs = some (some res)) (r : Requirement)
    (hr : (r ∈ reqs ∧ r.conflict = false) ∨
      ∃ i ∈ res.resolved, ∃ raw, Demands i raw ∧ ¬ IsConflictText raw ∧ Requirement.parse raw = some r)
    (hn : ¬ Holds (packagesOf res.resolved) r) : r ∈ res.failed := by
  obtain ⟨s, _, hi, hg, ho, _, _, hrs, hf⟩ := resolve_state ok h
  rw [hf]
  rw [hrs, ← ho] at hr
  rw [hrs] at hn
  rcases tracked_holds_or_failed hi hg ((tracked_iff hi r).mpr hr) with h1 | h1
  · exact absurd h1 hn
  · exact h1

/-- C82, partial: a requirement reported as failed, if not weak, is one of the request or of a resolved package (or
equal to one) and does not hold in the result.  Missing: weak requirements, for which the claim is false. -/
theorem C82_reported_unmet_partial {env : Env} (ok : EnvOk env) {fuel : Nat} {reqs : List Requirement} {res : Result}
    (h : resolve env fuel reqs = some (some res)) (r : Requirement) (hr : r ∈ res.failed) (hw : r.weak = false) :
    ¬ Holds (packagesOf res.resolved) r ∧ ∃ r', r'.eqv r = true ∧
      ((r' ∈ reqs ∧ r'.conflict = false) ∨
        ∃ i ∈ res.resolved, ∃ raw, Demands i raw ∧ ¬ IsConflictText raw ∧ Requirement.parse raw = some r') := by
  obtain ⟨s, _, hi, hg, ho, _, _, hrs, hf⟩ := resolve_state ok h
  rw [hf] at hr
  obtain ⟨_, ha, hs⟩ := finalFailed_mem.mp hr
  rw [hrs, ← ho]
  refine ⟨fun hh => hs (sat_of_holds hh (.inl hw)), ?_⟩
  unfold isActive hasReq at ha
  obtain ⟨r', hm, he⟩ := List.any_eq_true.mp ha
  exact ⟨r', he, (tracked_iff hi r').mp (hi.activeOnly r.name r' hm).2⟩

/-- C82 and C31, refuted: `b` weakly requires an `x` newer than the one `a-2` needs.  That failure is recorded and
kept after `a-2` has given way to `a-1`, which needs no `x`: the lenient resolve reports a failure although every
requirement holds, and the strict one fails. -/
theorem C82_stale_failure_false :
    let env := fun st => demoEnv st [mkPkg c!"a" c!"2" [c!"x-1"], mkPkg c!"a" c!"1" [], mkPkg c!"d" c!"1" [c!"b"],
      mkPkg c!"b" c!"1" [c!"~x-2", c!"c"], mkPkg c!"c" c!"1" [c!"a<2"], mkPkg c!"x" c!"1" []]
    shown (resolve (env false) 60 [mkReq c!"a", mkReq c!"d"]) =
      .found [(c!"a", c!"1"), (c!"d", c!"1"), (c!"b", c!"1"), (c!"c", c!"1")] [c!"x", c!"x"] ∧
    shown (resolve (env true) 60 [mkReq c!"a", mkReq c!"d"]) = .error := by decide +kernel

/-- A lenient resolve that reports what it could not find. -/
example : shown (resolve (demoEnv false [mkPkg c!"a" c!"1" [c!"b-2"], mkPkg c!"b" c!"1" []]) 40 [mkReq c!"a"]) =
    .found [(c!"a", c!"1")] [c!"b"] := by decide +kernel

/-! ## C84 -/

/-- C84: the variant chosen for a package is one of its variants, all its texts can be read, none of its conflicts
excludes a resolved package, and no other such variant has more requirements that resolved packages satisfy (then:
more requirements on requested families; then: fewer requirements). -/
theorem C84_best_variant {s : RState} (hn : (s.resolved.map fun i => i.package.name).Nodup) {p : Package} {k : Nat}
    (h : selectVariant s p = some k) :
    ∃ vs, p.variants[k]? = some vs ∧ VariantAdmitted s.resolved vs ∧
      ∀ (j : Nat) ws, p.variants[j]? = some ws → VariantAdmitted s.resolved ws →
        Preferred (variantMerit s.original s.resolved vs) (variantMerit s.original s.resolved ws) := by
  unfold selectVariant at h
  split at h
  · cases h
  · cases hf : (variantKeys s 0 p.variants).foldl maxKey none with
    | none => rw [hf] at h; cases h
    | some key =>
      rw [hf] at h
      simp only [Option.map_some, Option.some.injEq] at h
      subst h
      rcases foldMaxKey_mem _ _ _ hf with hm | hm
      · obtain ⟨_, v, hv, hc, hk⟩ := variantKeys_index s p.variants 0 key hm
        refine ⟨v, by simpa using hv, (variantCompatible_iff hn v).mp hc, fun j ws hj hws => ?_⟩
        have hcw := (variantCompatible_iff hn ws).mpr hws
        have := (foldMaxKey_max _ _ _ hf).2 _ (variantKeys_mem s p.variants 0 j ws hj hcw)
        rw [hk, variantMerit_eq s _ (compatible_readable hc), variantMerit_eq s _ (compatible_readable hcw)] at this
        exact this
      · cases hm

/-- C84: a package with variants is passed over exactly when none of them may be chosen. -/
theorem C84_none_admitted {s : RState} (hn : (s.resolved.map fun i => i.package.name).Nodup) {p : Package}
    (hp : p.variants ≠ []) :
    selectVariant s p = none ↔ ∀ vs ∈ p.variants, ¬ VariantAdmitted s.resolved vs := by
  unfold selectVariant
  rw [if_neg (by simpa using hp), Option.map_eq_none_iff]
  constructor
  · intro h vs hvs hadm
    obtain ⟨j, hj⟩ := List.getElem?_of_mem hvs
    have := variantKeys_mem s p.variants 0 j vs hj ((variantCompatible_iff hn vs).mpr hadm)
    rw [(foldMaxKey_none _ _ h).1] at this
    cases this
  · intro h
    cases hf : (variantKeys s 0 p.variants).foldl maxKey none with
    | none => rfl
    | some key =>
      rcases foldMaxKey_mem _ _ _ hf with hm | hm
      · obtain ⟨_, v, hv, hc, _⟩ := variantKeys_index s p.variants 0 key hm
        exact absurd ((variantCompatible_iff hn v).mp hc) (h v (List.mem_of_getElem? hv))
      · cases hm

/-- A resolve in which the variant that conflicts with `b` is passed over, and of the others the one that `b`
satisfies is chosen. -/
example :
    let env := demoEnv true [mkPkg c!"b" c!"2" [],
      { mkPkg c!"a" c!"1" [] with variants := [[c!"!b"], [c!"c"], [c!"b-2"]] }, mkPkg c!"c" c!"1" []]
    ((resolve env 40 [mkReq c!"b", mkReq c!"a"]).map fun o => o.map fun r => r.resolved.map fun i => i.variantIndex) =
      some (some [none, some 2]) := by decide +kernel

end Rez.Props
