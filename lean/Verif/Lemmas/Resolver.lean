import Verif.Spec.Resolver
import Verif.Lemmas.Version
import Mathlib.Tactic.Tauto
import Mathlib.Data.List.TakeWhile
import Mathlib.Data.List.Perm.Subperm
/-!
# The invariant of the resolver
-/
namespace Rez
open Rez.Spec

/-! ## Equality of requirements -/

theorem Version.eqv_refl (v : Version) : v.eqv v = true := by unfold Version.eqv; rw [Version.cmp_refl]; rfl

theorem eqvVersions_refl (l : List Version) : eqvVersions l l = true := by
  induction l with
  | nil => rfl
  | cons v l ih => simp [eqvVersions, Version.eqv_refl, ih]

mutual
theorem VersionConstraint.eqv_refl : ∀ c : VersionConstraint, c.eqv c = true
  | .exact v => by simp [VersionConstraint.eqv, Version.eqv_refl]
  | .greaterThan v => by simp [VersionConstraint.eqv, Version.eqv_refl]
  | .greaterThanOrEqual v => by simp [VersionConstraint.eqv, Version.eqv_refl]
  | .lessThan v => by simp [VersionConstraint.eqv, Version.eqv_refl]
  | .lessThanOrEqual v => by simp [VersionConstraint.eqv, Version.eqv_refl]
  | .compatible v => by simp [VersionConstraint.eqv, Version.eqv_refl]
  | .range a b => by simp [VersionConstraint.eqv, Version.eqv_refl]
  | .multiple cs => by rw [VersionConstraint.eqv]; exact VersionConstraint.eqvAll_refl cs
  | .alternative cs => by rw [VersionConstraint.eqv]; exact VersionConstraint.eqvAll_refl cs
  | .exclude vs => by simp [VersionConstraint.eqv, eqvVersions_refl]
  | .wildcard p => by simp [VersionConstraint.eqv]
  | .prefixOf v => by simp [VersionConstraint.eqv, Version.eqv_refl]
  | .any => by simp [VersionConstraint.eqv]
theorem VersionConstraint.eqvAll_refl : ∀ cs : List VersionConstraint, VersionConstraint.eqvAll cs cs = true
  | [] => by simp [VersionConstraint.eqvAll]
  | c :: cs => by
    rw [VersionConstraint.eqvAll, VersionConstraint.eqv_refl c, VersionConstraint.eqvAll_refl cs]; rfl
end

theorem Requirement.eqv_refl (r : Requirement) : r.eqv r = true := by
  unfold Requirement.eqv
  have : eqvConstraint r.constraint r.constraint = true := by
    cases r.constraint with
    | none => rfl
    | some c => exact VersionConstraint.eqv_refl c
  simp [this]

theorem Requirement.eqv_name {a b : Requirement} (h : a.eqv b = true) : a.name = b.name := by
  unfold Requirement.eqv at h
  simp only [Bool.and_eq_true, beq_iff_eq] at h
  exact h.1.1.1.1.1.1

theorem hasReq_of_mem {l : List Requirement} {r : Requirement} (h : r ∈ l) : hasReq l r = true :=
  List.any_eq_true.mpr ⟨r, h, Requirement.eqv_refl r⟩

theorem hasReq_append {l l' : List Requirement} {r : Requirement} (h : hasReq l r = true) : hasReq (l ++ l') r = true := by
  unfold hasReq at *
  rw [List.any_append, h]; rfl

/-! ## Maps -/

theorem mget_filter_key {α : Type} (m : List (Str × α)) (P : Str → Bool) (k : Str) :
    mget (m.filter fun p => P p.1) k = if P k = true then mget m k else none := by
  induction m with
  | nil => simp
  | cons p m ih =>
    obtain ⟨a, v⟩ := p
    by_cases hP : P a = true
    · rw [List.filter_cons_of_pos (by exact hP)]
      by_cases ha : a = k
      · subst ha; simp [mget, hP]
      · simp only [mget]; rw [if_neg ha, if_neg ha, ih]
    · rw [List.filter_cons_of_neg (by exact hP), ih]
      by_cases ha : a = k
      · subst ha; simp [hP]
      · simp only [mget]; rw [if_neg ha]

theorem mkeys_filter_nodup {α : Type} {m : List (Str × α)} (h : (mkeys m).Nodup) (P : Str × α → Bool) :
    (mkeys (m.filter P)).Nodup := by
  unfold mkeys at *
  exact h.sublist (List.Sublist.map _ List.filter_sublist)

namespace RState

/-! ## Rebuilding the constraints -/

theorem insertActive_mono (m : List (Str × List Requirement)) (r e : Requirement) (n : Str)
    (h : hasReq ((mget m n).getD []) e = true) : hasReq ((mget (insertActive m r) n).getD []) e = true := by
  unfold insertActive
  simp only
  rw [mget_mset]
  split
  · rename_i hn
    subst hn
    show hasReq (if _ then _ else _) e = true
    split
    · exact h
    · exact hasReq_append h
  · exact h

theorem insertActive_self (m : List (Str × List Requirement)) (r : Requirement) :
    hasReq ((mget (insertActive m r) r.name).getD []) r = true := by
  unfold insertActive
  simp only
  rw [mget_mset, if_pos rfl]
  simp only [Option.getD_some]
  split
  · assumption
  · exact hasReq_of_mem (by simp)

theorem foldActive_mono (l : List Requirement) (m : List (Str × List Requirement)) (e : Requirement) (n : Str)
    (h : hasReq ((mget m n).getD []) e = true) : hasReq ((mget (l.foldl insertActive m) n).getD []) e = true := by
  induction l generalizing m with
  | nil => exact h
  | cons r l ih => exact ih _ (insertActive_mono m r e n h)

theorem foldActive_mem (l : List Requirement) (m : List (Str × List Requirement)) (r : Requirement) (h : r ∈ l) :
    hasReq ((mget (l.foldl insertActive m) r.name).getD []) r = true := by
  induction l generalizing m with
  | nil => cases h
  | cons a l ih =>
    rcases List.mem_cons.mp h with rfl | h
    · exact foldActive_mono l _ _ _ (insertActive_self m r)
    · exact ih _ h

theorem foldActive_only (l : List Requirement) (m : List (Str × List Requirement)) (n : Str) (e : Requirement)
    (h : e ∈ (mget (l.foldl insertActive m) n).getD []) : e ∈ (mget m n).getD [] ∨ (e ∈ l ∧ e.name = n) := by
  induction l generalizing m with
  | nil => exact .inl h
  | cons a l ih =>
    rcases ih _ h with h1 | ⟨h, hn⟩
    · unfold insertActive at h1
      simp only at h1
      rw [mget_mset] at h1
      split at h1
      · rename_i hn
        subst hn
        simp only [Option.getD_some] at h1
        split at h1
        · exact .inl h1
        · rcases List.mem_append.mp h1 with h | h
          · exact .inl h
          · simp at h; subst h
            exact .inr ⟨List.mem_cons_self, rfl⟩
      · exact .inl h1
    · exact .inr ⟨List.mem_cons_of_mem _ h, hn⟩

theorem insertConflict_mem {l : List Requirement} {r c : Requirement} (h : c ∈ l) : c ∈ insertConflict l r := by
  unfold insertConflict; split
  · exact h
  · exact List.mem_append_left _ h

theorem foldConflict_mem (rs : List Requirement) {l : List Requirement} {c : Requirement} (h : c ∈ l) :
    c ∈ rs.foldl insertConflict l := by
  induction rs generalizing l with
  | nil => exact h
  | cons r rs ih => exact ih (insertConflict_mem h)

theorem recordDependency_edge (m : List (Str × List Str)) (s t a b : Str) :
    b ∈ (mget (recordDependency m s t) a).getD [] ↔ b ∈ (mget m a).getD [] ∨ (a = s ∧ b = t) := by
  unfold recordDependency
  rw [mget_mset]
  by_cases h : a = s
  · subst h; simp
  · simp [h]

theorem foldDependency_edge (es : List (Str × Str)) (m : List (Str × List Str)) (a b : Str) :
    b ∈ (mget (es.foldl (fun m e => recordDependency m e.1 e.2) m) a).getD [] ↔
      b ∈ (mget m a).getD [] ∨ (a, b) ∈ es := by
  induction es generalizing m with
  | nil => simp
  | cons e es ih =>
    obtain ⟨x, y⟩ := e
    rw [List.foldl_cons, ih, recordDependency_edge]
    simp only [List.mem_cons, Prod.mk.injEq, or_assoc]

/-! ## What is tracked -/

/-- the requirements in force: those of the request, and those of the resolved packages -/
def Tracked (s : RState) (r : Requirement) : Prop :=
  (r ∈ s.original ∧ r.conflict = false) ∨
    ∃ i ∈ s.resolved, ∃ deps, mget s.pkgReqs i.package.name = some deps ∧ r ∈ deps

theorem versionOk_iff (r : Requirement) (p : Package) : versionOk r p = true ↔ InRange r p := by
  unfold versionOk InRange
  cases p.version with
  | none => simp
  | some v => simp

/-- some resolved package satisfies the requirement -/
def Sat (s : RState) (r : Requirement) : Prop := ∃ i ∈ s.resolved, i.package.name = r.name ∧ InRange r i.package

theorem findSatisfying_iff (s : RState) (r : Requirement) : (s.findSatisfying r).isSome = true ↔ s.Sat r := by
  unfold findSatisfying Sat
  rw [List.find?_isSome]
  constructor
  · rintro ⟨i, hi, h⟩
    simp only [Bool.and_eq_true, beq_iff_eq] at h
    exact ⟨i, hi, h.1, (versionOk_iff _ _).mp h.2⟩
  · rintro ⟨i, hi, hn, h⟩
    exact ⟨i, hi, by simp only [Bool.and_eq_true, beq_iff_eq]; exact ⟨hn, (versionOk_iff _ _).mpr h⟩⟩

theorem hasFamily_iff (s : RState) (n : Str) : s.hasFamily n = true ↔ ∃ i ∈ s.resolved, i.package.name = n := by
  unfold hasFamily
  rw [List.any_eq_true]
  simp only [beq_iff_eq]

/-- the requirement has been dealt with -/
def Done (s : RState) (r : Requirement) : Prop :=
  s.Sat r ∨ (r.weak = true ∧ ∀ i ∈ s.resolved, i.package.name ≠ r.name) ∨ r ∈ s.failed

/-! ## The resolved list -/

theorem replaceFirst_mem {l : List Info} {i j : Info} (hn : (l.map fun i => i.package.name).Nodup) :
    j ∈ replaceFirst l i ↔ j = i ∨ (j ∈ l ∧ j.package.name ≠ i.package.name) := by
  induction l with
  | nil => simp [replaceFirst]
  | cons a l ih =>
    simp only [List.map_cons, List.nodup_cons] at hn
    unfold replaceFirst
    split
    · rename_i ha
      simp only [List.mem_cons]
      constructor
      · rintro (rfl | h)
        · exact .inl rfl
        · refine .inr ⟨.inr h, fun e => hn.1 ?_⟩
          rw [ha, ← e]; exact List.mem_map_of_mem (f := fun i : Info => i.package.name) h
      · rintro (rfl | ⟨rfl | h, hne⟩)
        · exact .inl rfl
        · exact absurd ha hne
        · exact .inr h
    · rename_i ha
      simp only [List.mem_cons]
      rw [ih hn.2]
      constructor
      · rintro (rfl | rfl | h)
        · exact .inr ⟨.inl rfl, ha⟩
        · exact .inl rfl
        · exact .inr ⟨.inr h.1, h.2⟩
      · rintro (rfl | ⟨rfl | h, hne⟩)
        · exact .inr (.inl rfl)
        · exact .inl rfl
        · exact .inr (.inr ⟨h, hne⟩)

theorem replaceFirst_names (l : List Info) (i : Info) (n : Str) :
    n ∈ (replaceFirst l i).map (fun i => i.package.name) ↔
      n = i.package.name ∨ n ∈ l.map (fun i => i.package.name) := by
  induction l with
  | nil => simp [replaceFirst]
  | cons a l ih =>
    unfold replaceFirst
    split
    · rename_i ha
      simp only [List.map_cons, List.mem_cons, ha]
      tauto
    · simp only [List.map_cons, List.mem_cons, ih]
      tauto

theorem replaceFirst_nodup {l : List Info} {i : Info} (hn : (l.map fun i => i.package.name).Nodup) :
    ((replaceFirst l i).map fun i => i.package.name).Nodup := by
  induction l with
  | nil => simp [replaceFirst]
  | cons a l ih =>
    simp only [List.map_cons, List.nodup_cons] at hn
    unfold replaceFirst
    split
    · rename_i ha
      simp only [List.map_cons, List.nodup_cons]
      rw [← ha]; exact hn
    · rename_i ha
      simp only [List.map_cons, List.nodup_cons]
      refine ⟨fun h => ?_, ih hn.2⟩
      rcases (replaceFirst_names l i _).mp h with h | h
      · exact ha h
      · exact hn.1 h

end RState

/-! ## Valid packages -/
open RState

/-- what holds of every resolved package, whatever the state: it is listed by the repository, respects the
prerelease policy, has one of its variants chosen if it has any, and its requirements are `deps` and `confl` -/
structure ValidInfo (env : Env) (i : Info) (deps confl : List Requirement) : Prop where
  listed : ∃ ps, env.repo i.package.name = some ps ∧ i.package ∈ ps
  release : ∀ v, i.package.version = some v → env.allowPrerelease = true ∨ v.isPrerelease = false
  variant : (i.package.variants = [] ∧ i.variantIndex = none) ∨
    ∃ k vs, i.variantIndex = some k ∧ i.package.variants[k]? = some vs
  requires : Resolver.splitRequires (Resolver.effectiveRequires i.package i.variantIndex) = some (deps, confl)

/-- the part of the invariant that concerns the packages -/
structure Core (env : Env) (s : RState) : Prop where
  nodup : (s.resolved.map fun i => i.package.name).Nodup
  reqKeys : (mkeys s.pkgReqs).Nodup
  valid : ∀ i ∈ s.resolved, ∃ deps confl, mget s.pkgReqs i.package.name = some deps ∧
    mget s.pkgConflicts i.package.name = some confl ∧ ValidInfo env i deps confl
  reqOwner : ∀ n ∈ mkeys s.pkgReqs, ∃ i ∈ s.resolved, i.package.name = n
  noConflict : ∀ i ∈ s.resolved, ∀ c ∈ s.original, c.conflict = true → c.name = i.package.name → ¬ InRange c i.package

/-- families needed by the request, in terms of the recorded requirements -/
inductive NeededIn (s : RState) : Str → Prop
  | request {r} : r ∈ s.original → r.weak = false → r.conflict = false → NeededIn s r.name
  | package {n deps r} : mget s.pkgReqs n = some deps → NeededIn s n → r ∈ deps → r.weak = false → NeededIn s r.name

/-- the invariant of the main loop -/
structure Inv (env : Env) (s : RState) : Prop extends Core env s where
  active : ∀ r, s.Tracked r → s.isActive r = true
  activeOnly : ∀ n, ∀ r ∈ (mget s.active n).getD [], r.name = n ∧ s.Tracked r
  conflicts : ∀ c ∈ s.original, c.conflict = true → c ∈ s.conflictReqs
  queue : ∀ r, s.Tracked r → r ∈ s.queue ∨ s.Done r
  needed : ∀ i ∈ s.resolved, NeededIn s i.package.name
  graph : ∀ a b, b ∈ (mget s.depGraph a).getD [] ↔ ∃ deps, mget s.pkgReqs a = some deps ∧ ∃ r ∈ deps, r.name = b

/-! ## Pruning -/

theorem reachStep_fold (ns : List Str) (s : List Str × List Str) (P : Str → Prop)
    (h1 : ∀ n ∈ s.1, P n) (h2 : ∀ n ∈ s.2, n ∈ s.1) (h : ∀ n ∈ ns, P n) :
    (∀ n ∈ (ns.foldl reachStep s).1, P n) ∧ (∀ n ∈ (ns.foldl reachStep s).2, n ∈ (ns.foldl reachStep s).1) := by
  induction ns generalizing s with
  | nil => exact ⟨h1, h2⟩
  | cons n ns ih =>
    rw [List.foldl_cons]
    have hn := h n List.mem_cons_self
    have hrest : ∀ m ∈ ns, P m := fun m hm => h m (List.mem_cons_of_mem _ hm)
    unfold reachStep
    split
    · exact ih s h1 h2 hrest
    · refine ih _ ?_ ?_ hrest
      · intro m hm
        rcases List.mem_cons.mp hm with rfl | hm
        · exact hn
        · exact h1 m hm
      · intro m hm
        rcases List.mem_cons.mp hm with rfl | hm
        · exact List.mem_cons_self
        · exact List.mem_cons_of_mem _ (h2 m hm)

theorem reachLoop_sound (s : RState) (fuel : Nat) (reach pending : List Str)
    (h1 : ∀ n ∈ reach, NeededIn s n) (h2 : ∀ n ∈ pending, n ∈ reach) :
    ∀ n ∈ reachLoop s.pkgReqs fuel reach pending, NeededIn s n := by
  induction fuel generalizing reach pending with
  | zero => exact h1
  | succ fuel ih =>
    cases pending with
    | nil => exact h1
    | cons n pending =>
      unfold reachLoop
      simp only
      have hns : ∀ m ∈ ((((mget s.pkgReqs n).getD []).filter fun r => !r.weak).map fun r => r.name), NeededIn s m := by
        intro m hm
        obtain ⟨r, hr, rfl⟩ := List.mem_map.mp hm
        obtain ⟨hr, hw⟩ := List.mem_filter.mp hr
        cases hg : mget s.pkgReqs n with
        | none => rw [hg] at hr; cases hr
        | some deps =>
          rw [hg] at hr
          exact .package hg (h1 n (h2 n List.mem_cons_self)) hr (by simpa using hw)
      have := reachStep_fold _ (reach, pending) (NeededIn s) h1 (fun m hm => h2 m (List.mem_cons_of_mem _ hm)) hns
      exact ih _ _ this.1 this.2

theorem reachable_sound (s : RState) : ∀ n ∈ s.reachable, NeededIn s n := by
  have hr : ∀ n ∈ s.roots, NeededIn s n := by
    unfold roots
    refine (reachStep_fold _ ([], []) (NeededIn s) (fun _ h => by cases h) (fun _ h => by cases h) ?_).1
    intro n hn
    obtain ⟨r, hr, rfl⟩ := List.mem_map.mp hn
    obtain ⟨hr, hc⟩ := List.mem_filter.mp hr
    simp only [Bool.and_eq_true, Bool.not_eq_true'] at hc
    exact .request hr hc.1 hc.2
  exact reachLoop_sound s _ _ _ hr (fun _ h => h)

/-! The search of `prune_orphaned_packages` also finds every needed family. -/

theorem reachStep_fold_nodup (ns : List Str) (s : List Str × List Str) (h : s.1.Nodup) :
    (ns.foldl reachStep s).1.Nodup ∧ (∀ n ∈ s.1, n ∈ (ns.foldl reachStep s).1) ∧
    (∀ n ∈ ns, n ∈ (ns.foldl reachStep s).1) ∧
    (∀ n ∈ (ns.foldl reachStep s).1, n ∈ s.1 ∨ n ∈ (ns.foldl reachStep s).2) ∧
    (∀ n ∈ s.2, n ∈ (ns.foldl reachStep s).2) ∧
    (ns.foldl reachStep s).1.length + s.2.length = s.1.length + (ns.foldl reachStep s).2.length := by
  induction ns generalizing s with
  | nil =>
    refine ⟨h, fun _ h => h, fun _ h => ?_, fun _ h => Or.inl h, fun _ h => h, rfl⟩
    cases h
  | cons n ns ih =>
    rw [List.foldl_cons, show reachStep s n = if n ∈ s.1 then s else (n :: s.1, n :: s.2) from rfl]
    split
    · rename_i hn
      obtain ⟨a, b, c, d, e, f⟩ := ih s h
      exact ⟨a, b, fun m hm => (List.mem_cons.mp hm).elim (fun e => e ▸ b n hn) (c m), d, e, f⟩
    · rename_i hn
      obtain ⟨a, b, c, d, e, f⟩ := ih (n :: s.1, n :: s.2) (List.nodup_cons.mpr ⟨hn, h⟩)
      refine ⟨a, fun m hm => b m (List.mem_cons_of_mem _ hm), ?_, ?_, fun m hm => e m (List.mem_cons_of_mem _ hm), ?_⟩
      · intro m hm
        rcases List.mem_cons.mp hm with rfl | hm
        · exact b _ List.mem_cons_self
        · exact c m hm
      · intro m hm
        rcases d m hm with hm | hm
        · rcases List.mem_cons.mp hm with rfl | hm
          · exact .inr (e _ List.mem_cons_self)
          · exact .inl hm
        · exact .inr hm
      · simp only [List.length_cons] at f ⊢; omega


/-- the names that a name leads to -/
def nextNames (s : RState) (n : Str) : List Str :=
  (((mget s.pkgReqs n).getD []).filter fun r => !r.weak).map fun r => r.name

theorem reachLoop_complete (s : RState) (U : List Str) (hU : ∀ n, ∀ m ∈ nextNames s n, m ∈ U) (fuel : Nat)
    (reach pending : List Str) (hn : reach.Nodup) (hr : ∀ n ∈ reach, n ∈ U)
    (hp : ∀ n ∈ pending, n ∈ reach) (hc : ∀ n ∈ reach, n ∈ pending ∨ ∀ m ∈ nextNames s n, m ∈ reach)
    (hf : pending.length + U.length < fuel + reach.length) :
    (∀ n ∈ reach, n ∈ reachLoop s.pkgReqs fuel reach pending) ∧
    (∀ n ∈ reachLoop s.pkgReqs fuel reach pending, ∀ m ∈ nextNames s n,
      m ∈ reachLoop s.pkgReqs fuel reach pending) := by
  induction fuel generalizing reach pending with
  | zero =>
    have := (List.subperm_of_subset hn hr).length_le
    omega
  | succ fuel ih =>
    cases pending with
    | nil =>
      refine ⟨fun n h => h, fun n h m hm => ?_⟩
      rcases hc n h with h | h
      · cases h
      · exact h m hm
    | cons n pending =>
      unfold reachLoop
      simp only
      obtain ⟨a, b, c, d, e, f⟩ := reachStep_fold_nodup (nextNames s n) (reach, pending) hn
      have g := reachStep_fold (nextNames s n) (reach, pending) (fun m => m ∈ U) hr
        (fun m hm => hp m (List.mem_cons_of_mem _ hm)) (hU n)
      have := ih ((nextNames s n).foldl reachStep (reach, pending)).1 ((nextNames s n).foldl reachStep (reach, pending)).2
        a g.1 g.2 ?_ ?_
      · exact ⟨fun m hm => this.1 m (b m hm), this.2⟩
      · intro m hm
        rcases d m hm with h | h
        · rcases hc m h with h | h
          · rcases List.mem_cons.mp h with rfl | h
            · exact .inr c
            · exact .inl (e m h)
          · exact .inr fun x hx => b x (h x hx)
        · exact .inl h
      · simp only [List.length_cons] at hf f
        omega

theorem reachable_iff (s : RState) (n : Str) : n ∈ s.reachable ↔ NeededIn s n := by
  refine ⟨reachable_sound s n, fun h => ?_⟩
  have hroots := reachStep_fold_nodup ((s.original.filter fun r => !r.weak && !r.conflict).map fun r => r.name)
    ([], []) List.nodup_nil
  have hsound := reachStep_fold ((s.original.filter fun r => !r.weak && !r.conflict).map fun r => r.name)
    ([], []) (fun m => m ∈ s.original.map fun r => r.name) (fun _ h => by cases h) (fun _ h => by cases h)
    (fun m hm => by
      obtain ⟨r, hr, rfl⟩ := List.mem_map.mp hm
      exact List.mem_map_of_mem (f := fun r : Requirement => r.name) (List.mem_filter.mp hr).1)
  have hU : ∀ n, ∀ m ∈ nextNames s n,
      m ∈ (s.original.map fun r => r.name) ++ (s.pkgReqs.flatMap Prod.snd).map fun r => r.name := by
    intro n m hm
    obtain ⟨r, hr, rfl⟩ := List.mem_map.mp hm
    have hr := (List.mem_filter.mp hr).1
    cases hg : mget s.pkgReqs n with
    | none => rw [hg] at hr; cases hr
    | some deps =>
      rw [hg] at hr
      exact List.mem_append_right _ (List.mem_map_of_mem (f := fun r : Requirement => r.name)
        (List.mem_flatMap.mpr ⟨_, mget_some_mem hg, hr⟩))
  have := reachLoop_complete s _ hU (s.original.length + (s.pkgReqs.flatMap Prod.snd).length + 1) s.roots s.roots
    hroots.1 (fun m hm => List.mem_append_left _ (hsound.1 m hm)) (fun _ h => h) (fun m hm => .inl hm)
    (by simp only [List.length_append, List.length_map]; omega)
  induction h with
  | request hr hw hc =>
    refine this.1 _ (hroots.2.2.1 _ (List.mem_map.mpr ⟨_, List.mem_filter.mpr ⟨hr, ?_⟩, rfl⟩))
    simp [hw, hc]
  | package hg _ hr hw ih =>
    refine this.2 _ ih _ (List.mem_map.mpr ⟨_, List.mem_filter.mpr ⟨?_, ?_⟩, rfl⟩)
    · rw [hg]; exact hr
    · simp [hw]


theorem needed_prune {s : RState} {n : Str} (h : NeededIn s n) : NeededIn s.prune n := by
  induction h with
  | request hr hw hc => exact .request hr hw hc
  | @package m deps r hg hm hr hw ih =>
    refine .package (n := m) (deps := deps) ?_ ih hr hw
    show mget (s.pkgReqs.filter fun p => decide (p.1 ∈ s.reachable)) m = some deps
    rw [mget_filter_key s.pkgReqs (fun k => decide (k ∈ s.reachable)), if_pos (by simpa using (reachable_iff s m).mpr hm)]
    exact hg

theorem core_congr {env : Env} {s s' : RState} (h : Core env s) (h1 : s'.original = s.original)
    (h2 : s'.resolved = s.resolved) (h3 : s'.pkgReqs = s.pkgReqs) (h4 : s'.pkgConflicts = s.pkgConflicts) :
    Core env s' := by
  refine ⟨?_, ?_, ?_, ?_, ?_⟩
  · rw [h2]; exact h.nodup
  · rw [h3]; exact h.reqKeys
  · rw [h2, h3, h4]; exact h.valid
  · rw [h2, h3]; exact h.reqOwner
  · rw [h2, h1]; exact h.noConflict

theorem core_prune {env : Env} {s : RState} (h : Core env s) : Core env s.prune := by
  refine ⟨?_, mkeys_filter_nodup h.reqKeys _, ?_, ?_, ?_⟩
  · exact h.nodup.sublist (List.Sublist.map _ List.filter_sublist)
  · intro i hi
    obtain ⟨hi, hn⟩ := List.mem_filter.mp hi
    obtain ⟨deps, confl, h1, h2, h3⟩ := h.valid i hi
    refine ⟨deps, confl, ?_, ?_, h3⟩
    · show mget (s.pkgReqs.filter fun p => decide (p.1 ∈ s.reachable)) _ = some deps
      rw [mget_filter_key s.pkgReqs (fun k => decide (k ∈ s.reachable)), if_pos hn]; exact h1
    · show mget (s.pkgConflicts.filter fun p => decide (p.1 ∈ s.reachable)) _ = some confl
      rw [mget_filter_key s.pkgConflicts (fun k => decide (k ∈ s.reachable)), if_pos hn]; exact h2
  · intro n hn
    obtain ⟨p, hp, rfl⟩ := List.mem_map.mp hn
    obtain ⟨hp, hr⟩ := List.mem_filter.mp hp
    obtain ⟨i, hi, he⟩ := h.reqOwner p.1 (List.mem_map_of_mem hp)
    exact ⟨i, List.mem_filter.mpr ⟨hi, by rw [he]; exact hr⟩, he⟩
  · intro i hi
    exact h.noConflict i (List.mem_filter.mp hi).1

theorem mget_eq_of_perm {α : Type} {m m' : List (Str × α)} (hn : (mkeys m).Nodup) (h : m'.Perm m) (k : Str) :
    mget m' k = mget m k := by
  have hn' : (mkeys m').Nodup := (h.map Prod.fst).nodup_iff.mpr hn
  cases hg : mget m k with
  | some v => exact mget_of_mem hn' (h.mem_iff.mpr (mget_some_mem hg))
  | none =>
    rw [mget_none_iff] at hg ⊢
    exact fun hk => hg ((h.map Prod.fst).mem_iff.mp hk)

/-- what `set_package_requirements` establishes, from the packages alone -/
theorem inv_of_core {env : Env} (ok : EnvOk env) (t : Nat) {s : RState} (h : Core env s)
    (hneed : ∀ i ∈ s.resolved, NeededIn s i.package.name) :
    Inv env (refilterFailed (requeue (rebuild env t s))) := by
  have hc : Core env (refilterFailed (requeue (rebuild env t s))) := core_congr h rfl rfl rfl rfl
  have tracked_iff : ∀ r, (refilterFailed (requeue (rebuild env t s))).Tracked r ↔ s.Tracked r := fun r => Iff.rfl
  have hperm := ok.order (2 * t) s.pkgReqs
  have hmem : ∀ r, r ∈ (env.order (2 * t) s.pkgReqs).flatMap Prod.snd ↔ ∃ p ∈ s.pkgReqs, r ∈ p.2 := by
    intro r
    rw [List.mem_flatMap]
    constructor
    · rintro ⟨p, hp, hr⟩; exact ⟨p, hperm.mem_iff.mp hp, hr⟩
    · rintro ⟨p, hp, hr⟩; exact ⟨p, hperm.mem_iff.mpr hp, hr⟩
  have entry : ∀ p ∈ s.pkgReqs, mget s.pkgReqs p.1 = some p.2 := fun p hp => mget_of_mem h.reqKeys hp
  refine ⟨hc, ?_, ?_, ?_, ?_, ?_, ?_⟩
  · rintro r (⟨hr, hcf⟩ | ⟨i, hi, deps, hg, hr⟩)
    · show hasReq ((mget (List.foldl insertActive _ _) r.name).getD []) r = true
      refine foldActive_mono _ _ _ _ (foldActive_mem _ _ _ (List.mem_filter.mpr ⟨hr, by simp [hcf]⟩))
    · show hasReq ((mget (List.foldl insertActive _ _) r.name).getD []) r = true
      exact foldActive_mem _ _ _ ((hmem r).mpr ⟨_, mget_some_mem hg, hr⟩)
  · intro n r hr
    rcases foldActive_only _ _ _ _ hr with hr | ⟨hr, hn⟩
    · rcases foldActive_only _ _ _ _ hr with hr | ⟨hr, hn⟩
      · cases hr
      · obtain ⟨hr, hcf⟩ := List.mem_filter.mp hr
        exact ⟨hn, .inl ⟨hr, by simpa using hcf⟩⟩
    · obtain ⟨p, hp, hr⟩ := (hmem r).mp hr
      obtain ⟨i, hi, he⟩ := h.reqOwner p.1 (List.mem_map_of_mem hp)
      refine ⟨hn, .inr ⟨i, hi, p.2, ?_, hr⟩⟩
      show mget s.pkgReqs i.package.name = some p.2
      rw [he]; exact entry p hp
  · intro c hc hcf
    exact foldConflict_mem _ (List.mem_filter.mpr ⟨hc, by simp [hcf]⟩)
  · rintro r (⟨hr, hcf⟩ | ⟨i, hi, deps, hg, hr⟩)
    · exact .inl (List.mem_append_left _ (List.mem_filter.mpr ⟨hr, by simp [hcf]⟩))
    · refine .inl (List.mem_append_right _ (List.mem_flatMap.mpr ⟨i, hi, ?_⟩))
      show r ∈ (mget s.pkgReqs i.package.name).getD []
      have hg : mget s.pkgReqs i.package.name = some deps := hg
      rw [hg]; exact hr
  · intro i hi
    have := hneed i hi
    clear hi
    generalize i.package.name = n at this
    induction this with
    | request hr hw hc => exact .request hr hw hc
    | package hg _ hr hw ih => exact .package (s := refilterFailed (requeue (rebuild env t s))) hg ih hr hw
  · intro a b
    show b ∈ (mget (List.foldl _ _ _) a).getD [] ↔ _
    rw [foldDependency_edge]
    simp only [mget_nil, Option.getD_none, List.not_mem_nil, false_or]
    rw [List.mem_flatMap]
    constructor
    · rintro ⟨p, hp, hr⟩
      obtain ⟨r, hr, he⟩ := List.mem_map.mp hr
      simp only [Prod.mk.injEq] at he
      refine ⟨p.2, ?_, r, hr, he.2⟩
      rw [← he.1]; exact entry p (hperm.mem_iff.mp hp)
    · rintro ⟨deps, hg, r, hr, rfl⟩
      exact ⟨(a, deps), hperm.mem_iff.mpr (mget_some_mem hg), List.mem_map.mpr ⟨r, hr, rfl⟩⟩

/-- taking a package into the solve establishes the invariant -/
theorem select_inv {env : Env} (ok : EnvOk env) (t : Nat) {s : RState} (h : Core env s)
    (q : Info × List Requirement × List Requirement) (hq : ValidInfo env q.1 q.2.1 q.2.2) (name : Str)
    (hname : name = q.1.package.name)
    (hcf : ∀ c ∈ s.original, c.conflict = true → c.name = q.1.package.name → ¬ InRange c q.1.package) :
    Inv env (Resolver.select env t s name q) := by
  subst hname
  unfold Resolver.select setRequirements
  simp only
  have hcore : Core env { s.addResolved q.1 with
      pkgReqs := mset s.pkgReqs q.1.package.name q.2.1, pkgConflicts := mset s.pkgConflicts q.1.package.name q.2.2 } := by
    refine ⟨replaceFirst_nodup h.nodup, nodup_mset h.reqKeys _ _, ?_, ?_, ?_⟩
    · intro i hi
      rcases (replaceFirst_mem h.nodup).mp hi with rfl | ⟨hi, hne⟩
      · refine ⟨q.2.1, q.2.2, ?_, ?_, hq⟩ <;> simp only [mget_mset, if_true]
      · obtain ⟨deps, confl, h1, h2, h3⟩ := h.valid i hi
        refine ⟨deps, confl, ?_, ?_, h3⟩ <;> simp only [mget_mset] <;> rw [if_neg hne]
        · exact h1
        · exact h2
    · intro n hn
      rcases mem_mkeys_mset.mp hn with rfl | hn
      · exact ⟨q.1, (replaceFirst_mem h.nodup).mpr (.inl rfl), rfl⟩
      · obtain ⟨i, hi, rfl⟩ := h.reqOwner n hn
        by_cases he : i.package.name = q.1.package.name
        · exact ⟨q.1, (replaceFirst_mem h.nodup).mpr (.inl rfl), he.symm⟩
        · exact ⟨i, (replaceFirst_mem h.nodup).mpr (.inr ⟨hi, he⟩), rfl⟩
    · intro i hi
      rcases (replaceFirst_mem h.nodup).mp hi with rfl | ⟨hi, _⟩
      · exact hcf
      · exact h.noConflict i hi
  refine inv_of_core ok t (core_prune hcore) ?_
  intro i hi
  have := (List.mem_filter.mp hi).2
  simp only [decide_eq_true_eq] at this
  exact needed_prune ((reachable_iff _ _).mp this)

/-! ## The steps -/
open Resolver

theorem variantKeys_index (s : RState) (vs : List (List Str)) (n : Nat) :
    ∀ k ∈ variantKeys s n vs, n ≤ k.index ∧ ∃ v, vs[k.index - n]? = some v ∧ variantCompatible s v = true ∧
      k = variantKey s k.index v := by
  induction vs generalizing n with
  | nil => intro k hk; cases hk
  | cons v vs ih =>
    intro k hk
    unfold variantKeys at hk
    rcases List.mem_append.mp hk with hk | hk
    · split at hk
      · rename_i hc
        simp at hk
        subst hk
        exact ⟨Nat.le_refl _, v, by simp [variantKey], hc, rfl⟩
      · cases hk
    · obtain ⟨hle, w, hw, hc, he⟩ := ih (n + 1) k hk
      refine ⟨by omega, w, ?_, hc, he⟩
      rw [show k.index - n = (k.index - (n + 1)) + 1 by omega]
      simpa using hw

theorem foldMaxKey_mem (ks : List VariantKey) (acc : Option VariantKey) (k : VariantKey)
    (h : ks.foldl maxKey acc = some k) : k ∈ ks ∨ acc = some k := by
  induction ks generalizing acc with
  | nil => exact .inr h
  | cons a ks ih =>
    rcases ih _ h with h | h
    · exact .inl (List.mem_cons_of_mem _ h)
    · unfold maxKey at h
      split at h
      · simp at h; subst h; exact .inl List.mem_cons_self
      · split at h
        · exact .inr h
        · simp at h; subst h; exact .inl List.mem_cons_self

/-- the variant chosen is one of the package's, and compatible -/
theorem selectVariant_some {s : RState} {p : Package} {k : Nat} (h : selectVariant s p = some k) :
    ∃ v, p.variants[k]? = some v ∧ variantCompatible s v = true := by
  unfold selectVariant at h
  split at h
  · cases h
  · cases hf : (variantKeys s 0 p.variants).foldl maxKey none with
    | none => rw [hf] at h; cases h
    | some key =>
      rw [hf] at h
      simp at h
      subst h
      rcases foldMaxKey_mem _ _ _ hf with hm | hm
      · obtain ⟨_, v, hv, hc, _⟩ := variantKeys_index s p.variants 0 key hm
        exact ⟨v, by simpa using hv, hc⟩
      · cases hm

/-- a package the resolver may consider -/
structure Eligible (env : Env) (p : Package) : Prop where
  listed : ∃ ps, env.repo p.name = some ps ∧ p ∈ ps
  release : ∀ v, p.version = some v → env.allowPrerelease = true ∨ v.isPrerelease = false

theorem candidates_mem {env : Env} (ok : EnvOk env) {r : Requirement} {cs : List Package}
    (h : candidates env r = some cs) {p : Package} (hp : p ∈ cs) :
    p.name = r.name ∧ Eligible env p ∧ InRange r p := by
  unfold candidates at h
  cases hr : env.repo r.name with
  | none => rw [hr] at h; cases h
  | some ps =>
    rw [hr] at h
    simp at h
    subst h
    have hm := (ok.sort _ _).mem_iff.mp hp
    obtain ⟨hm, ha⟩ := List.mem_filter.mp hm
    have hn := ok.named _ _ hr p hm
    refine ⟨hn, ⟨⟨ps, by rw [hn]; exact hr, hm⟩, ?_⟩, ?_⟩
    · intro v hv
      unfold acceptable at ha
      rw [hv] at ha
      simp only at ha
      split at ha
      · cases ha
      · rename_i hne
        simp only [Bool.and_eq_true, Bool.not_eq_true', not_and] at hne
        cases hpre : env.allowPrerelease with
        | true => exact .inl rfl
        | false => exact .inr (by simpa using hne hpre)
    · intro v hv
      unfold acceptable at ha
      rw [hv] at ha
      simp only at ha
      split at ha
      · cases ha
      · exact ha

theorem tryCandidate_valid {env : Env} {s : RState} {p : Package} {r : Requirement}
    {q : Info × List Requirement × List Requirement} (hp : Eligible env p) (h : tryCandidate s p r = some q) :
    q.1.package = p ∧ ValidInfo env q.1 q.2.1 q.2.2 := by
  unfold tryCandidate at h
  simp only at h
  split at h
  · cases h
  · rename_i hv
    cases hs : splitRequires (effectiveRequires p (selectVariant s p)) with
    | none => rw [hs] at h; cases h
    | some d =>
      rw [hs] at h
      simp at h
      subst h
      refine ⟨rfl, hp.listed, hp.release, ?_, hs⟩
      simp only
      cases hsel : selectVariant s p with
      | none =>
        rw [hsel] at hv
        simp only [Option.isNone_none, Bool.and_true, Bool.not_eq_true', Bool.not_eq_false,
          List.isEmpty_iff] at hv
        exact .inl ⟨hv, rfl⟩
      | some k =>
        obtain ⟨v, hv, _⟩ := selectVariant_some hsel
        exact .inr ⟨k, v, rfl, hv⟩

theorem checkExplicit_none {s : RState} {p : Package} (h : (s.checkExplicit p).isNone = true)
    (hin : ∀ c ∈ s.original, c.conflict = true → c ∈ s.conflictReqs) :
    ∀ c ∈ s.original, c.conflict = true → c.name = p.name → ¬ InRange c p := by
  intro c hc hcf hn hr
  unfold checkExplicit at h
  simp only [Option.isNone_map, Option.isNone_iff_eq_none, List.find?_eq_none, Bool.and_eq_true, beq_iff_eq,
    not_and] at h
  exact h c (hin c hc hcf) hn ((versionOk_iff c p).mpr hr)

theorem checkConflicts_none {s : RState} {p : Package} (h : s.checkConflicts p = none) :
    (s.checkExplicit p).isNone = true ∧ ∀ r ∈ (mget s.active p.name).getD [], InRange r p := by
  unfold checkConflicts at h
  split at h
  · cases h
  · rename_i he
    refine ⟨by rw [he]; rfl, ?_⟩
    intro r hr v hv
    unfold unsatisfied at h
    rw [hv] at h
    cases hg : mget s.active p.name with
    | none => rw [hg] at hr; cases hr
    | some l =>
      rw [hg] at h hr
      simp only [Option.map_eq_none_iff, List.find?_eq_none, Bool.not_eq_true, Bool.not_eq_false'] at h
      simpa using h r hr

/-- changes that concern neither the packages nor the queue nor the constraints, and only add failures -/
theorem inv_congr {env : Env} {s s' : RState} (h : Inv env s) (h1 : s'.original = s.original)
    (h2 : s'.resolved = s.resolved) (h3 : s'.pkgReqs = s.pkgReqs) (h4 : s'.pkgConflicts = s.pkgConflicts)
    (h5 : s'.active = s.active) (h6 : s'.conflictReqs = s.conflictReqs) (h7 : s'.depGraph = s.depGraph)
    (h8 : s'.queue = s.queue) (h9 : ∀ r ∈ s.failed, r ∈ s'.failed) : Inv env s' := by
  obtain ⟨o, q, re, fa, co, cr, ac, pr, pc, rj, dg⟩ := s
  obtain ⟨o', q', re', fa', co', cr', ac', pr', pc', rj', dg'⟩ := s'
  simp only at h1 h2 h3 h4 h5 h6 h7 h8 h9
  subst h1 h2 h3 h4 h5 h6 h7 h8
  refine ⟨core_congr h.toCore rfl rfl rfl rfl, h.active, h.activeOnly, h.conflicts, ?_, ?_, h.graph⟩
  · intro r hr
    rcases h.queue r hr with h | h | h | h
    · exact .inl h
    · exact .inr (.inl h)
    · exact .inr (.inr (.inl h))
    · exact .inr (.inr (.inr (h9 r h)))
  · intro i hi
    have := h.needed i hi
    clear hi
    generalize i.package.name = n at this
    induction this with
    | request hr hw hc => exact .request hr hw hc
    | @package _ _ r hg _ hr hw ih => exact .package (r := r) hg ih hr hw


/-- the state differs at most in the list of rejected versions and the log of conflicts -/
def Quiet (s s' : RState) : Prop := ∃ rj cf, s' = { s with rejected := rj, conflicts := cf }

theorem Quiet.refl (s : RState) : Quiet s s := ⟨s.rejected, s.conflicts, rfl⟩
theorem Quiet.trans {a b c : RState} (h : Quiet a b) (h' : Quiet b c) : Quiet a c := by
  obtain ⟨_, _, rfl⟩ := h
  obtain ⟨rj, cf, rfl⟩ := h'
  exact ⟨rj, cf, rfl⟩

theorem quiet_reject (env : Env) (s : RState) (p : Package) : Quiet s (s.reject env p) := by
  unfold reject
  split
  · exact Quiet.refl s
  · exact ⟨_, s.conflicts, rfl⟩

theorem Quiet.core {env : Env} {s s' : RState} (q : Quiet s s') (h : Core env s) : Core env s' := by
  obtain ⟨_, _, rfl⟩ := q
  exact core_congr h rfl rfl rfl rfl

/-- what the steps below need of the state: its packages are in order, and it knows the conflicts of the request -/
structure Ready (env : Env) (s : RState) : Prop extends Core env s where
  conflicts : ∀ c ∈ s.original, c.conflict = true → c ∈ s.conflictReqs

theorem Quiet.ready {env : Env} {s s' : RState} (q : Quiet s s') (h : Ready env s) : Ready env s' := by
  refine ⟨q.core h.toCore, ?_⟩
  obtain ⟨_, _, rfl⟩ := q
  exact h.conflicts

theorem tryCandidates_spec {env : Env} (ok : EnvOk env) (t : Nat) (r : Requirement) (cs : List Package) (s : RState)
    (best : Option Package) (h : Ready env s) (hcs : ∀ c ∈ cs, Eligible env c)
    (hb : ∀ c, best = some c → Eligible env c ∧ (s.checkExplicit c).isNone = true) :
    ((tryCandidates env t r cs s best).2.1 = true → Inv env (tryCandidates env t r cs s best).1) ∧
    ((tryCandidates env t r cs s best).2.1 = false → Quiet s (tryCandidates env t r cs s best).1 ∧
      ∀ c, (tryCandidates env t r cs s best).2.2 = some c → Eligible env c ∧ (s.checkExplicit c).isNone = true) := by
  induction cs generalizing s best with
  | nil => exact ⟨fun h => by simp [tryCandidates] at h, fun _ => ⟨Quiet.refl s, hb⟩⟩
  | cons c cs ih =>
    have hc := hcs c List.mem_cons_self
    have hrest : ∀ c ∈ cs, Eligible env c := fun x hx => hcs x (List.mem_cons_of_mem _ hx)
    unfold tryCandidates
    split
    · exact ih s best h hrest hb
    · have hb' : ∀ x, (if (best.isNone && (s.checkExplicit c).isNone) = true then some c else best) = some x →
          Eligible env x ∧ (s.checkExplicit x).isNone = true := by
        intro x hx
        split at hx
        · rename_i hcond
          simp only [Bool.and_eq_true] at hcond
          simp at hx; subst hx
          exact ⟨hc, hcond.2⟩
        · exact hb x hx
      generalize (if (best.isNone && (s.checkExplicit c).isNone) = true then some c else best) = best' at hb'
      simp only
      split
      · rename_i k _
        have hq : Quiet s { s with conflicts := s.conflicts ++ [k] } := ⟨s.rejected, _, rfl⟩
        obtain ⟨h1, h2⟩ := ih { s with conflicts := s.conflicts ++ [k] } best' (hq.ready h) hrest hb'
        exact ⟨h1, fun hf => ⟨hq.trans (h2 hf).1, (h2 hf).2⟩⟩
      · rename_i hcc
        split
        · rename_i q hq
          refine ⟨fun _ => ?_, fun hf => by simp at hf⟩
          obtain ⟨he, hv⟩ := tryCandidate_valid hc hq
          refine select_inv ok t h.toCore q hv _ rfl ?_
          rw [he]
          exact checkExplicit_none (checkConflicts_none hcc).1 h.conflicts
        · exact ih s best' h hrest hb'

theorem skipBacktrack_false {env : Env} {s : RState} {cur : Package} {reqs : List Requirement} {c : Package}
    (h : skipBacktrack env s cur reqs c = false) :
    s.isRejected env c = false ∧ eqvVersion c.version cur.version = false ∧
    (∀ r ∈ reqs, InRange r c) ∧ (s.checkExplicit c).isNone = true := by
  unfold skipBacktrack at h
  simp only [Bool.or_eq_false_iff] at h
  obtain ⟨⟨⟨h1, h2⟩, h3⟩, h4⟩ := h
  refine ⟨h1, h2, ?_, by simpa using h4⟩
  intro r hr v hv
  rw [hv] at h3
  simp only [List.any_eq_false, Bool.not_eq_true', Bool.not_eq_false] at h3
  exact h3 r hr

theorem backtrackCandidates_spec {env : Env} (ok : EnvOk env) (t : Nat) (name : Str) (cur : Info)
    (reqs : List Requirement) (primary : Requirement) (cs : List Package) (s : RState) (h : Ready env s)
    (hcs : ∀ c ∈ cs, Eligible env c ∧ c.name = name) :
    ((backtrackCandidates env t name cur reqs primary cs s).2 = true →
      Inv env (backtrackCandidates env t name cur reqs primary cs s).1) ∧
    ((backtrackCandidates env t name cur reqs primary cs s).2 = false →
      (backtrackCandidates env t name cur reqs primary cs s).1 = s) := by
  induction cs with
  | nil => exact ⟨fun h => by simp [backtrackCandidates] at h, fun _ => rfl⟩
  | cons c cs ih =>
    have hc := hcs c List.mem_cons_self
    have ih := ih fun x hx => hcs x (List.mem_cons_of_mem _ hx)
    unfold backtrackCandidates
    split
    · exact ih
    · rename_i hsk
      have hsk := skipBacktrack_false (by simpa using hsk)
      split
      · rename_i q hq
        refine ⟨fun _ => ?_, fun hf => by simp at hf⟩
        obtain ⟨he, hv⟩ := tryCandidate_valid hc.1 hq
        refine select_inv ok t h.toCore q hv _ (by rw [he, hc.2]) ?_
        rw [he]
        exact checkExplicit_none hsk.2.2.2 h.conflicts
      · exact ih

theorem backtrackPackage_spec {env : Env} (ok : EnvOk env) (t : Nat) (s s' : RState) (b : Bool) (name : Str)
    (h : Ready env s) (hact : ∀ r ∈ (mget s.active name).getD [], r.name = name)
    (hr : backtrackPackage env t s name = some (s', b)) :
    (b = true → Inv env s') ∧ (b = false → Quiet s s') := by
  unfold backtrackPackage at hr
  split at hr
  · simp at hr; obtain ⟨rfl, rfl⟩ := hr
    exact ⟨fun h => (by cases h), fun _ => Quiet.refl s⟩
  · rename_i cur hcur
    split at hr
    · simp at hr; obtain ⟨rfl, rfl⟩ := hr
      exact ⟨fun h => (by cases h), fun _ => Quiet.refl s⟩
    · simp at hr; obtain ⟨rfl, rfl⟩ := hr
      exact ⟨fun h => (by cases h), fun _ => Quiet.refl s⟩
    · rename_i primary rest hg
      have hpn : primary.name = name := hact primary (by rw [hg]; exact List.mem_cons_self)
      cases hcs : candidates env primary with
      | none => rw [hcs] at hr; cases hr
      | some cs =>
        rw [hcs] at hr
        simp at hr
        have hq := quiet_reject env s cur.package
        have hcs' : ∀ c ∈ cs, Eligible env c ∧ c.name = name := fun c hc =>
          ⟨(candidates_mem ok hcs hc).2.1, by rw [(candidates_mem ok hcs hc).1, hpn]⟩
        have := backtrackCandidates_spec ok t name cur (primary :: rest) primary cs _ (hq.ready h) hcs'
        rw [hr] at this
        exact ⟨this.1, fun hb => by rw [show s' = s.reject env cur.package from this.2 hb]; exact hq⟩

theorem backtrackLoop_spec {env : Env} (ok : EnvOk env) (t : Nat) (ns : List Str) (s s' : RState) (b : Bool)
    (h : Ready env s) (hact : ∀ n, ∀ r ∈ (mget s.active n).getD [], r.name = n)
    (hr : backtrackLoop env t ns s = some (s', b)) :
    (b = true → Inv env s') ∧ (b = false → Quiet s s') := by
  induction ns generalizing s with
  | nil =>
    simp [backtrackLoop] at hr
    obtain ⟨rfl, rfl⟩ := hr
    exact ⟨fun h => (by cases h), fun _ => Quiet.refl s⟩
  | cons n ns ih =>
    unfold backtrackLoop at hr
    split at hr
    · cases hr
    · rename_i s1 hb
      simp at hr; obtain ⟨rfl, rfl⟩ := hr
      exact backtrackPackage_spec ok t s s1 true n h (hact n) hb
    · rename_i s1 hb
      have hq := (backtrackPackage_spec ok t s s1 false n h (hact n) hb).2 rfl
      have hact' : ∀ n, ∀ r ∈ (mget s1.active n).getD [], r.name = n := by
        obtain ⟨_, _, rfl⟩ := hq; exact hact
      obtain ⟨h1, h2⟩ := ih s1 (hq.ready h) hact' hr
      exact ⟨h1, fun hb => hq.trans (h2 hb)⟩

theorem bestEffort_some {env : Env} {s : RState} {has : Bool} {best : Option Package} {r : Requirement}
    {q : Info × List Requirement × List Requirement} (h : bestEffort env s has best r = some q) :
    env.strict = false ∧ has = false ∧ ∃ c, best = some c ∧ tryCandidate s c r = some q := by
  unfold bestEffort at h
  split at h
  · cases h
  · rename_i hn
    simp only [Bool.or_eq_true, not_or, Bool.not_eq_true] at hn
    cases hb : best with
    | none => rw [hb] at h; cases h
    | some c => rw [hb] at h; exact ⟨hn.1, hn.2, c, rfl, h⟩

theorem inv_pop {env : Env} {s : RState} {r : Requirement} (h : Inv env { s with queue := r :: s.queue })
    (hd : s.Done r) : Inv env s := by
  refine ⟨core_congr h.toCore rfl rfl rfl rfl, h.active, h.activeOnly, h.conflicts, ?_, ?_, h.graph⟩
  · intro x hx
    rcases h.queue x hx with hq | hq
    · rcases List.mem_cons.mp hq with rfl | hq
      · exact .inr hd
      · exact .inl hq
    · exact .inr hq
  · intro i hi
    have := h.needed i hi
    clear hi
    generalize i.package.name = n at this
    induction this with
    | request hr hw hc => exact .request hr hw hc
    | @package _ _ r hg _ hr hw ih => exact .package (r := r) hg ih hr hw

theorem getNext_inv {env : Env} {s s' : RState} {r : Requirement} (h : Inv env s) (hg : s.getNext = some (r, s')) :
    Inv env { s' with queue := r :: s'.queue } ∧ s.isActive r = true := by
  unfold getNext at hg
  split at hg
  · cases hg
  · rename_i x q hq
    simp at hg
    obtain ⟨rfl, rfl⟩ := hg
    have hact : s.isActive x = true := by
      have := List.head_dropWhile_not (fun r => !s.isActive r) (l := s.queue) (by rw [hq]; simp)
      simp only [hq, List.head_cons] at this
      simpa using this
    refine ⟨?_, hact⟩
    refine ⟨core_congr h.toCore rfl rfl rfl rfl, h.active, h.activeOnly, h.conflicts, ?_, ?_, h.graph⟩
    · intro y hy
      rcases h.queue y hy with hm | hd
      · left
        have hy' := h.active y hy
        have hsplit := List.takeWhile_append_dropWhile (p := fun r => !s.isActive r) (l := s.queue)
        rw [← hsplit, hq] at hm
        rcases List.mem_append.mp hm with hm | hm
        · have := List.mem_takeWhile_imp hm
          simp [hy'] at this
        · exact hm
      · exact .inr hd
    · intro i hi
      have := h.needed i hi
      clear hi
      generalize i.package.name = n at this
      induction this with
      | request hr hw hc => exact .request hr hw hc
      | @package _ _ r hg _ hr hw ih => exact .package (r := r) hg ih hr hw

theorem inv_quiet_fail {env : Env} {s s' : RState} {r : Requirement} (h : Inv env { s with queue := r :: s.queue })
    (hq : Quiet s s') : Inv env (fail s' r) := by
  obtain ⟨rj, cf, rfl⟩ := hq
  refine inv_pop (r := r) ?_ (.inr (.inr (List.mem_append_right _ List.mem_cons_self)))
  exact inv_congr h rfl rfl rfl rfl rfl rfl rfl rfl (fun x hx => List.mem_append_left _ hx)

theorem process_inv {env : Env} (ok : EnvOk env) (t : Nat) {s s' : RState} {r : Requirement}
    (h : Inv env { s with queue := r :: s.queue }) (hp : process env t s r = some s') : Inv env s' := by
  have hready : Ready env s := ⟨core_congr h.toCore rfl rfl rfl rfl, h.conflicts⟩
  unfold process at hp
  split at hp
  · rename_i hsat
    simp at hp; subst hp
    exact inv_pop h (.inl ((findSatisfying_iff s r).mp hsat))
  · split at hp
    · rename_i hw
      simp at hp; subst hp
      simp only [Bool.and_eq_true, Bool.not_eq_true'] at hw
      refine inv_pop h (.inr (.inl ⟨hw.1, fun i hi he => ?_⟩))
      have := (hasFamily_iff s r.name).mpr ⟨i, hi, he⟩
      rw [hw.2] at this; cases this
    · split at hp
      · cases hp
      · rename_i cs hcs
        split at hp
        · simp at hp; subst hp
          exact inv_quiet_fail h (Quiet.refl s)
        · have hspec := tryCandidates_spec ok t r cs s none hready (fun c hc => (candidates_mem ok hcs hc).2.1)
            (fun c hc => by cases hc)
          simp only at hp
          split at hp
          · rename_i hb
            simp at hp; subst hp
            exact hspec.1 hb
          · rename_i hb
            obtain ⟨hq, hbest⟩ := hspec.2 (by simpa using hb)
            generalize (tryCandidates env t r cs s none).1 = s1 at hq hp
            generalize (tryCandidates env t r cs s none).2.2 = best at hbest hp
            unfold afterCandidates at hp
            split at hp
            · rename_i q hbe
              simp at hp; subst hp
              obtain ⟨_, _, c, hc, htry⟩ := bestEffort_some hbe
              obtain ⟨he, hx⟩ := hbest c hc
              obtain ⟨hpk, hv⟩ := tryCandidate_valid he htry
              refine select_inv ok t (hq.core hready.toCore) q hv _ rfl ?_
              rw [hpk]
              obtain ⟨_, _, rfl⟩ := hq
              exact checkExplicit_none hx hready.conflicts
            · split at hp
              · have hact : ∀ n, ∀ r ∈ (mget s1.active n).getD [], r.name = n := by
                  obtain ⟨_, _, rfl⟩ := hq
                  exact fun n r hr => (h.activeOnly n r hr).1
                unfold backtrackSource at hp
                split at hp
                · cases hp
                · rename_i s2 hbs
                  simp at hp; subst hp
                  split at hbs
                  · cases hbs
                  · exact (backtrackLoop_spec ok t _ s1 s2 true (hq.ready hready) hact hbs).1 rfl
                · rename_i s2 hbs
                  simp at hp; subst hp
                  split at hbs
                  · cases hbs
                  · exact inv_quiet_fail h
                      (hq.trans ((backtrackLoop_spec ok t _ s1 s2 false (hq.ready hready) hact hbs).2 rfl))
              · simp at hp; subst hp
                exact inv_quiet_fail h hq

theorem new_inv {env : Env} (ok : EnvOk env) (reqs : List Requirement) : Inv env (RState.new env reqs) := by
  have hc : Core env ⟨reqs, reqs.filter fun r => !r.conflict, [], [], [], [], [], [], [], [], []⟩ :=
    ⟨List.nodup_nil, List.nodup_nil, fun i hi => (by cases hi), fun n hn => (by cases hn), fun i hi => (by cases hi)⟩
  have h := inv_of_core ok 0 hc (fun i hi => by cases hi)
  have e : refilterFailed (requeue (rebuild env 0 ⟨reqs, reqs.filter fun r => !r.conflict, [], [], [], [], [], [], [], [], []⟩))
      = RState.new env reqs := by
    unfold RState.new refilterFailed requeue rebuild
    simp
  rw [e] at h
  exact h

theorem run_inv {env : Env} (ok : EnvOk env) (fuel t : Nat) {s s' : RState} (h : Inv env s)
    (hr : run env fuel t s = some (some s')) : Inv env s' ∧ s'.getNext = none := by
  induction fuel generalizing s t with
  | zero => cases hr
  | succ fuel ih =>
    unfold run at hr
    split at hr
    · rename_i hg
      simp at hr; subst hr
      exact ⟨h, hg⟩
    · rename_i r s1 hg
      split at hr
      · cases hr
      · rename_i s2 hp
        exact ih _ (process_inv ok t (getNext_inv h hg).1 hp) hr

/-- at the end everything has been dealt with -/
theorem final_done {env : Env} {s : RState} (h : Inv env s) (hg : s.getNext = none) (r : Requirement)
    (hr : s.Tracked r) : s.Done r := by
  rcases h.queue r hr with hm | hd
  · exfalso
    unfold getNext at hg
    split at hg
    · rename_i hq
      have := List.dropWhile_eq_nil_iff.mp hq r hm
      rw [h.active r hr] at this
      cases this
    · cases hg
  · exact hd

end Rez
