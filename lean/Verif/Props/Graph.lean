import Verif.Lemmas.GraphSearch
import Verif.Props.Range
/-!
# Properties of the dependency graph (C32 to C35, C79, C80)
-/
namespace Rez.Props
open Rez Rez.Spec Graph

/-- a package with only a name -/
def plainPkg (name : Str) : Package := ⟨name, none, [], [], [], none⟩

/-! ## C33 -/

/-- C33 does not hold: adding `b` again leaves the edge from `a` without its mirror. -/
theorem C33_readd_false :
    ∃ na nb, let g := runOps [.addPackage (plainPkg c!"a"), .addPackage (plainPkg c!"b"), .addEdge c!"a" c!"b",
        .addPackage (plainPkg c!"b")]
      mget g.nodes c!"a" = some na ∧ mget g.nodes c!"b" = some nb ∧ c!"b" ∈ na.deps ∧ c!"a" ∉ nb.dependents :=
  ⟨_, _, rfl, rfl, by decide, by decide⟩

/-- C33 does not hold: a failed `add_dependency_edge` leaves an edge to a package that is not in the graph. -/
theorem C33_dangling_false :
    ∃ na, let g := runOps [.addPackage (plainPkg c!"a"), .addEdge c!"a" c!"x"]
      mget g.nodes c!"a" = some na ∧ c!"x" ∈ na.deps ∧ mget g.nodes c!"x" = none ∧
        ((runOps [.addPackage (plainPkg c!"a")]).addEdge c!"a" c!"x").2 = false :=
  ⟨_, rfl, by decide, rfl, rfl⟩

/-- C33, partial: the mirroring holds after every history in which packages are added under new keys and edges
to packages in the graph.  Missing: the other histories (refuted above). -/
theorem C33_mirrored_partial (ops : List GraphOp) (h : CleanFrom Graph.new ops) : Mirrored (runOps ops) :=
  mirrored_run mirrored_new ops h

/-- the history of the examples: a -> b -> c, a -> c, and d removed again -/
def sampleOps : List GraphOp :=
  [.addPackage (plainPkg c!"a"), .addPackage (plainPkg c!"b"), .addPackage (plainPkg c!"c"), .addEdge c!"a" c!"b",
    .addPackage (plainPkg c!"d"), .addEdge c!"d" c!"b", .addEdge c!"b" c!"c", .addEdge c!"a" c!"c", .removePackage c!"d"]

example : CleanFrom Graph.new sampleOps ∧ (runOps sampleOps).nodes.length = 3 := by decide

/-! ## C32 -/

/-- C32 does not hold: after `b` was added again, `b` may be listed before `a` which depends on it. -/
theorem C32_order_false :
    let g := runOps [.addPackage (plainPkg c!"a"), .addPackage (plainPkg c!"b"), .addEdge c!"a" c!"b",
        .addPackage (plainPkg c!"b")]
    g.topologicalSort [c!"b", c!"a"] = some (some [c!"b", c!"a"]) ∧ Dep g c!"a" c!"b" :=
  ⟨by decide, _, rfl, by decide⟩

/-- C32 does not hold: after `a` was added again, the graph has no edge left but a cycle is reported. -/
theorem C32_spurious_cycle_false :
    let g := runOps [.addPackage (plainPkg c!"a"), .addPackage (plainPkg c!"b"), .addEdge c!"a" c!"b",
        .addPackage (plainPkg c!"a")]
    g.topologicalSort [c!"b", c!"a"] = some none ∧ ∀ a b, ¬ Dep g a b := by
  refine ⟨by decide, ?_⟩
  rintro a b ⟨n, hn, hb⟩
  have hm := mget_some_mem hn
  have : ∀ p ∈ (runOps [.addPackage (plainPkg c!"a"), .addPackage (plainPkg c!"b"), .addEdge c!"a" c!"b",
        .addPackage (plainPkg c!"a")]).nodes, p.2.deps = [] := by decide
  rw [this _ hm] at hb
  cases hb

/-- C32, partial: for every clean history and every iteration order of the maps, `get_resolved_packages` returns,
and it returns a list exactly when the graph has no cycle; the list holds each package of the graph once, and
each package stands before the packages it depends on.  Missing: histories that are not clean (refuted
above). -/
theorem C32_topological_partial (ops : List GraphOp) (h : CleanFrom Graph.new ops) (g : Graph)
    (hs : SameGraph (runOps ops) g) (hlen : g.nodes.length < 2 ^ 64) (order : List Str)
    (ho : order.Perm (mkeys g.nodes)) :
    (Acyclic g → ∃ ps, g.resolvedPackages order = some (some ps) ∧ (ps.map Package.key).Perm (mkeys g.nodes) ∧
      ∀ a b, Dep g a b → Before (ps.map Package.key) a b) ∧
    (¬ Acyclic g → g.resolvedPackages order = some none) := by
  have hm := mirrored_same (C33_mirrored_partial ops h) hs
  have hk : KeysOk g := by
    have h0 : KeysOk (runOps ops) := keysOk_run (g := Graph.new) (by intro k n hk; cases hk) ops
    intro k n' hn'
    have : k ∈ mkeys (runOps ops).nodes := hs.keys.mem_iff.mp ((mget_isSome_iff _ _).mp ⟨_, hn'⟩)
    obtain ⟨n, hn⟩ := (mget_isSome_iff _ _).mpr this
    obtain ⟨m, hm, e, _⟩ := hs.nodes k n hn
    rw [hn'] at hm; simp at hm; subst hm
    rw [e]; exact h0 k n hn
  obtain ⟨h1, h2⟩ := topologicalSort_spec hm hlen order ho
  constructor
  · intro ha
    obtain ⟨l, hl, hp, hb⟩ := h1 ha
    have hmap : ∀ l : List Str, (∀ k ∈ l, k ∈ mkeys g.nodes) →
        (l.filterMap fun k => (mget g.nodes k).map (·.package)).map Package.key = l := by
      intro l hl
      induction l with
      | nil => rfl
      | cons k l ih =>
        obtain ⟨n, hn⟩ := (mget_isSome_iff _ _).mpr (hl k (by simp))
        have ih := ih (fun x hx => hl x (by simp [hx]))
        rw [List.filterMap_cons_some (b := n.package) (by simp [hn]), List.map_cons, ih, hk k n hn]
    refine ⟨l.filterMap fun k => (mget g.nodes k).map (·.package), by simp [resolvedPackages, hl], ?_⟩
    rw [hmap l (fun k hk => hp.mem_iff.mp hk)]
    exact ⟨hp, hb⟩
  · intro ha
    simp [resolvedPackages, h2 ha]

example : (runOps sampleOps).topologicalSort [c!"c", c!"b", c!"a"] = some (some [c!"a", c!"b", c!"c"]) := by decide

/-! ## C34 -/

/-- C34: the accessibility entry of a package holds exactly what it depends on, directly or not, and itself,
without duplicates; for every graph. -/
theorem C34_accessibility (g : Graph) (k : Str) (hk : k ∈ mkeys g.nodes) :
    ∃ l, (k, l) ∈ g.accessibility ∧ l.Nodup ∧ ∀ x, x ∈ l ↔ Relation.ReflTransGen (Dep g) k x :=
  ⟨g.accessibleFrom k, List.mem_map.mpr ⟨k, hk, rfl⟩, accessibleFrom_nodup g k, accessibleFrom_iff g k⟩

/-- C34: `accessibility` has one entry per package of the graph. -/
theorem C34_accessibility_keys (g : Graph) : mkeys g.accessibility = mkeys g.nodes := by
  unfold accessibility mkeys
  rw [List.map_map]; exact List.map_id' _

/-- C34: `find_cycle` never panics, what it returns is a cycle, and when it returns nothing there is none; for
every graph and iteration order. -/
theorem C34_find_cycle (g : Graph) :
    (∃ c, g.findCycle = .found c ∧ IsCycle g c ∧ ¬ Acyclic g) ∨ (∃ s, g.findCycle = .clear s ∧ Acyclic g) := by
  have h := findCycle_spec g
  revert h
  cases g.findCycle with
  | clear s => exact fun h => .inr ⟨s, rfl, h⟩
  | found c => exact fun h => .inl ⟨c, rfl, h, isCycle_not_acyclic h⟩
  | panic => exact fun h => h.elim

/-- a graph with a cycle: the cycle is found -/
example : (runOps [.addPackage (plainPkg c!"a"), .addPackage (plainPkg c!"b"), .addEdge c!"a" c!"b",
    .addEdge c!"b" c!"a"]).findCycle = .found [c!"b", c!"a"] := by rfl

/-! ## C79 -/

/-- C79 does not hold: a, b, c is a chain of dependencies, but the reported depth of `a` is 2. -/
theorem C79_depth_false :
    Linked (Dep (runOps sampleOps)) [c!"a", c!"b", c!"c"] ∧ (runOps sampleOps).nodeDepth c!"a" = 2 :=
  ⟨⟨⟨_, rfl, by decide⟩, ⟨_, rfl, by decide⟩, trivial⟩, by decide⟩

/-- C79, partial: the reported depth is never too large: a chain of dependencies of that length starts at the
package.  Missing: that it is the longest (refuted above). -/
theorem C79_depth_partial (g : Graph) (k : Str) (hk : k ∈ mkeys g.nodes) :
    ∃ c, c.head? = some k ∧ Linked (Dep g) c ∧ (∀ x ∈ c, x ∈ mkeys g.nodes) ∧ c.length = g.nodeDepth k := by
  obtain ⟨c, h1, h2, h3, h4⟩ := depthRec_chain g (g.allKeys.length + 1) k []
  rcases h1 with rfl | h1
  · exfalso
    obtain ⟨n, hn⟩ := (mget_isSome_iff _ _).mpr hk
    rw [depthRec] at h4
    simp [hn] at h4
  · exact ⟨c, h1, h2, h3, h4⟩

example : c!"a" ∈ mkeys (runOps sampleOps).nodes := by decide

/-! ## C80 -/

theorem anyIncompatible_iff (l : List PackageRequirement) :
    anyIncompatible l = true ↔ ∃ l1 a l2 b l3, l = l1 ++ a :: (l2 ++ b :: l3) ∧ requirementsCompatible a b = false := by
  induction l with
  | nil => simp [anyIncompatible]
  | cons r rs ih =>
    simp only [anyIncompatible, Bool.or_eq_true, List.any_eq_true, Bool.not_eq_true', ih]
    constructor
    · rintro (⟨s, hs, hc⟩ | ⟨l1, a, l2, b, l3, rfl, h⟩)
      · obtain ⟨l2, l3, rfl⟩ := List.append_of_mem hs
        exact ⟨[], r, l2, s, l3, rfl, hc⟩
      · exact ⟨r :: l1, a, l2, b, l3, rfl, h⟩
    · rintro ⟨l1, a, l2, b, l3, h, hc⟩
      cases l1 with
      | nil =>
        simp at h
        obtain ⟨rfl, rfl⟩ := h
        exact .inl ⟨b, by simp, hc⟩
      | cons x l1 =>
        simp at h
        obtain ⟨rfl, rfl⟩ := h
        exact .inr ⟨l1, a, l2, b, l3, rfl, hc⟩

/-- C80 does not hold: `>=1.1` and `<=1.0` are reported as a conflict although version 1 satisfies both. -/
theorem C80_reported_false :
    ∃ v ra rb, let g := runOps [.addRequirement ⟨c!"x", some c!">=1.1", false, false⟩,
        .addRequirement ⟨c!"x", some c!"<=1.0", false, false⟩]
      g.detectConflicts.map (·.name) = [c!"x"] ∧ Version.parse c!"1" = some v ∧
      VersionRange.parse c!">=1.1" = some ra ∧ VersionRange.parse c!"<=1.0" = some rb ∧
      ra.contains v = true ∧ rb.contains v = true :=
  ⟨_, _, _, by decide, rfl, rfl, rfl, by decide, by decide⟩

/-- C80, partial: for versions of a family on which `<=` is transitive, a reported conflict is real: two of the
reported requirements have no version in common.  Missing: other versions (refuted above). -/
theorem C80_reported_real_partial (g : Graph) (S : Version → Prop) (hS : TransOn S)
    (hm : ∀ kv ∈ g.requirements, ∀ r ∈ kv.2, ∀ s rg, r.spec = some s → VersionRange.parse s = some rg →
      ∀ u, Mentions rg u → S u)
    (c : Conflict) (hc : c ∈ g.detectConflicts) :
    ∃ a ∈ c.requirements, ∃ b ∈ c.requirements, ∃ sa sb ra rb, a.spec = some sa ∧ b.spec = some sb ∧
      VersionRange.parse sa = some ra ∧ VersionRange.parse sb = some rb ∧
      ∀ v, S v → ¬ (ra.contains v = true ∧ rb.contains v = true) := by
  unfold detectConflicts at hc
  obtain ⟨⟨name, rs⟩, hmem, rfl⟩ := List.mem_map.mp hc
  obtain ⟨hmem, hcond⟩ := List.mem_filter.mp hmem
  simp only [Bool.and_eq_true] at hcond
  obtain ⟨l1, a, l2, b, l3, hrs, hab⟩ := (anyIncompatible_iff rs).mp hcond.2
  have ha : a ∈ rs := by rw [hrs]; simp
  have hb : b ∈ rs := by rw [hrs]; simp
  refine ⟨a, ha, b, hb, ?_⟩
  unfold requirementsCompatible at hab
  simp only at hab
  split at hab
  · cases hab
  rename_i hne
  simp only [Bool.or_eq_true, not_or, Bool.not_eq_true] at hne
  cases hsa : a.spec with
  | none => rw [hsa] at hne; simp at hne
  | some sa =>
  cases hsb : b.spec with
  | none => rw [hsb] at hne; simp at hne
  | some sb =>
  rw [hsa, hsb] at hab
  simp only [Option.getD_some] at hab
  cases hra : VersionRange.parse sa with
  | none => rw [hra] at hab; simp at hab
  | some ra =>
  cases hrb : VersionRange.parse sb with
  | none => rw [hra, hrb] at hab; simp at hab
  | some rb =>
  rw [hra, hrb] at hab
  simp only at hab
  refine ⟨sa, sb, ra, rb, rfl, rfl, hra, hrb, ?_⟩
  rintro v hv ⟨hva, hvb⟩
  obtain ⟨r, hr, _⟩ := C11_intersect_complete_partial S hS ra rb (.parse hra) (.parse hrb)
    (hm _ hmem a ha sa ra hsa hra) (hm _ hmem b hb sb rb hsb hrb) v hv hva hvb
  rw [hr] at hab; cases hab

/-- C80: two requirements of one family whose ranges have no intersection are always reported, whatever else is
required of the family. -/
theorem C80_disjoint_reported (g : Graph) (name : Str) (l1 l2 l3 : List PackageRequirement) (a b : PackageRequirement)
    (hmem : (name, l1 ++ a :: (l2 ++ b :: l3)) ∈ g.requirements) (sa sb : Str) (ha : a.spec = some sa)
    (hb : b.spec = some sb) (ra rb : VersionRange) (hra : VersionRange.parse sa = some ra)
    (hrb : VersionRange.parse sb = some rb) (hna : sa ≠ []) (hnb : sb ≠ []) (h : ra.intersect rb = none) :
    ∃ c ∈ g.detectConflicts, c.name = name ∧ a ∈ c.requirements ∧ b ∈ c.requirements := by
  refine ⟨⟨name, l1 ++ a :: (l2 ++ b :: l3), g.requirementSources name⟩, ?_, rfl, by simp, by simp⟩
  refine List.mem_map.mpr ⟨_, List.mem_filter.mpr ⟨hmem, ?_⟩, rfl⟩
  simp only [Bool.and_eq_true, decide_eq_true_eq]
  refine ⟨by simp; omega, (anyIncompatible_iff _).mpr ⟨l1, a, l2, b, l3, rfl, ?_⟩⟩
  unfold requirementsCompatible
  simp [ha, hb, hra, hrb, h, hna, hnb]

example : ((runOps [.addRequirement ⟨c!"x", some c!">=2", false, false⟩, .addRequirement ⟨c!"y", none, false, false⟩,
    .addRequirement ⟨c!"x", some c!"<1", false, false⟩]).detectConflicts.map (·.name)) = [c!"x"] := by decide

/-- Does the operation leave the recorded requirements alone, except for adding one? -/
def KeepsRequirements : GraphOp → Prop
  | .applyResolution _ => False
  | .clear => False
  | _ => True

/-- The requirements a history adds for a family, in order. -/
def addedFor (n : Str) (ops : List GraphOp) : List PackageRequirement :=
  ops.filterMap fun op => match op with
    | .addRequirement r => if r.name = n then some r else none
    | _ => none

theorem requirements_removePackage (g : Graph) (k : Str) : (g.removePackage k).requirements = g.requirements := by
  unfold removePackage; split <;> rfl

theorem requirements_addEdge (g : Graph) (a b : Str) : (g.addEdge a b).1.requirements = g.requirements := by
  unfold addEdge
  split
  · rfl
  · split <;> rfl

theorem requirements_addPackage (g : Graph) (p : Package) : (g.addPackage p).1.requirements = g.requirements := by
  unfold addPackage; split <;> rfl

/-- C80: the graph records every requirement it is given: after a history without resolutions, the requirements of
a family are exactly those added for it, in order, whatever else happened to the graph. -/
theorem C80_requirements_recorded (ops : List GraphOp) (h : ∀ op ∈ ops, KeepsRequirements op) (n : Str) :
    (mget (runOps ops).requirements n).getD [] = addedFor n ops := by
  have : ∀ (ops : List GraphOp) (g : Graph), (∀ op ∈ ops, KeepsRequirements op) →
      (mget (ops.foldl GraphOp.apply g).requirements n).getD [] = (mget g.requirements n).getD [] ++ addedFor n ops := by
    intro ops
    induction ops with
    | nil => intro g _; simp [addedFor]
    | cons op ops ih =>
      intro g hk
      rw [List.foldl_cons, ih _ fun o ho => hk o (List.mem_cons_of_mem _ ho)]
      have hop := hk op List.mem_cons_self
      cases op with
      | addPackage p =>
        show (mget (g.addPackage p).1.requirements n).getD [] ++ _ = _
        rw [requirements_addPackage]; rfl
      | addRequirement r =>
        show (mget (g.addRequirement r).requirements n).getD [] ++ _ = _
        unfold addRequirement
        simp only
        rw [mget_mset]
        by_cases e : r.name = n
        · subst e; simp [addedFor]
        · simp [addedFor, e, Ne.symm e]
      | addConstraint r => rfl
      | addExclusion n => rfl
      | addEdge a b =>
        show (mget (g.addEdge a b).1.requirements n).getD [] ++ _ = _
        rw [requirements_addEdge]; rfl
      | removePackage k =>
        show (mget (g.removePackage k).requirements n).getD [] ++ _ = _
        rw [requirements_removePackage]; rfl
      | applyResolution r => exact hop.elim
      | clear => exact hop.elim
  exact this ops _ h

example : (runOps [.addRequirement ⟨c!"x", some c!">=2", false, false⟩, .addRequirement ⟨c!"y", none, false, false⟩,
    .addExclusion c!"z", .addRequirement ⟨c!"x", some c!"<1", false, false⟩]).requirements.map (fun p => p.2.length) =
    [2, 1] := by decide

/-! ## C35 -/

theorem requirements_removeAll (ks : List Str) (g : Graph) :
    (ks.foldl removePackage g).requirements = g.requirements := by
  induction ks generalizing g with
  | nil => rfl
  | cons k ks ih =>
    rw [List.foldl_cons, ih]
    unfold removePackage; split <;> rfl

theorem nodes_removeAll (ks : List Str) (g : Graph) (k : Str) :
    k ∈ mkeys (ks.foldl removePackage g).nodes ↔ k ∈ mkeys g.nodes ∧ k ∉ ks := by
  induction ks generalizing g with
  | nil => simp
  | cons x ks ih =>
    rw [List.foldl_cons, ih]
    have : k ∈ mkeys (g.removePackage x).nodes ↔ k ∈ mkeys g.nodes ∧ k ≠ x := by
      cases h0 : mget g.nodes x with
      | none =>
        have e : g.removePackage x = g := by unfold removePackage; rw [h0]
        rw [e]
        constructor
        · intro h
          refine ⟨h, ?_⟩
          rintro rfl
          exact (mget_none_iff _ _).mp h0 h
        · exact fun h => h.1
      | some n0 =>
        rw [← mget_isSome_iff, mget_removePackage g x k n0 h0, ← mget_isSome_iff]
        by_cases hk : k = x
        · simp [hk]
        · simp [hk]
    rw [this]
    simp only [List.mem_cons, not_or, and_assoc]

/-- the requirements of a graph have one entry per family -/
theorem requirements_nodup (ops : List GraphOp) : (mkeys (runOps ops).requirements).Nodup := by
  have : ∀ (ops : List GraphOp) (g : Graph), (mkeys g.requirements).Nodup →
      (mkeys (ops.foldl GraphOp.apply g).requirements).Nodup := by
    intro ops
    induction ops with
    | nil => exact fun _ h => h
    | cons op ops ih =>
      intro g h
      apply ih
      cases op with
      | addPackage p => show (mkeys (g.addPackage p).1.requirements).Nodup; unfold addPackage; split <;> exact h
      | addRequirement r => exact nodup_mset h _ _
      | addConstraint r => exact h
      | addExclusion n => exact h
      | addEdge a b =>
        show (mkeys (g.addEdge a b).1.requirements).Nodup
        unfold addEdge
        split
        · exact h
        · split <;> exact h
      | removePackage k => show (mkeys (g.removePackage k).requirements).Nodup; unfold removePackage; split <;> exact h
      | applyResolution r =>
        show (mkeys (g.applyResolution r).requirements).Nodup
        unfold applyResolution
        simp only
        split
        · rw [requirements_removeAll]; exact nodup_mset h _ _
        · rw [requirements_removeAll]; exact h
      | clear => exact List.nodup_nil
  exact this ops _ List.nodup_nil

/-- C35 does not hold: with ranges as requirements no version is chosen, and the conflict is still there. -/
theorem C35_unsettled_false :
    let g := runOps [.addRequirement ⟨c!"x", some c!">=2", false, false⟩, .addRequirement ⟨c!"x", some c!"<1", false, false⟩]
    ∃ c, g.detectConflicts = [c] ∧ (latestWins c).selected.isNone = true ∧
      ((g.applyResolution (latestWins c)).detectConflicts.map (·.name)) = [c!"x"] :=
  ⟨_, rfl, by decide, by decide⟩

/-- C35, partial: after a resolution that chose a version, the family is no longer in conflict and its only
requirement is the chosen version; the requirements of the other families are unchanged; and exactly the
packages the resolution names leave the graph.  For every history of the graph.  Missing: resolutions that choose
no version (refuted above). -/
theorem C35_settled_partial (ops : List GraphOp) (r : Resolution) (v : Version) (hv : r.selected = some v)
    (hr : r.name ∈ mkeys (runOps ops).requirements) :
    let g' := (runOps ops).applyResolution r
    (∀ c ∈ g'.detectConflicts, c.name ≠ r.name) ∧
    mget g'.requirements r.name = some [⟨r.name, some v.asStr, false, false⟩] ∧
    (∀ n, n ≠ r.name → mget g'.requirements n = mget (runOps ops).requirements n) ∧
    (∀ k, k ∈ mkeys g'.nodes ↔ k ∈ mkeys (runOps ops).nodes ∧ k ∉ r.modified) := by
  intro g'
  obtain ⟨old, hold⟩ := (mget_isSome_iff _ _).mpr hr
  have hreq : g'.requirements = mset (runOps ops).requirements r.name [⟨r.name, some v.asStr, false, false⟩] := by
    show ((runOps ops).applyResolution r).requirements = _
    unfold applyResolution
    simp only [requirements_removeAll, hold, hv]
  refine ⟨?_, ?_, ?_, ?_⟩
  · intro c hc hcn
    unfold detectConflicts at hc
    obtain ⟨⟨name, rs⟩, hmem, rfl⟩ := List.mem_map.mp hc
    obtain ⟨hmem, hcond⟩ := List.mem_filter.mp hmem
    simp only at hcn
    subst hcn
    have hget := mget_of_mem (by rw [hreq]; exact nodup_mset (requirements_nodup ops) _ _) hmem
    rw [hreq, mget_mset, if_pos rfl] at hget
    simp at hget
    subst hget
    simp at hcond
  · rw [hreq, mget_mset, if_pos rfl]
  · intro n hn
    rw [hreq, mget_mset, if_neg hn]
  · intro k
    show k ∈ mkeys ((runOps ops).applyResolution r).nodes ↔ _
    rw [applyResolution_nodes, nodes_removeAll]

/-- `v` is the exact version some requirement of the conflict asks for. -/
def NamedBy (c : Conflict) (v : Version) : Prop := ∃ r ∈ c.requirements, ∃ s, r.spec = some s ∧ Version.parse s = some v

theorem mem_specVersions (c : Conflict) (v : Version) : v ∈ specVersions c ↔ NamedBy c v := by
  unfold specVersions NamedBy
  rw [List.mem_filterMap]
  constructor
  · rintro ⟨r, hr, h⟩
    obtain ⟨s, hs, hp⟩ := Option.bind_eq_some_iff.mp h
    exact ⟨r, hr, s, hs, hp⟩
  · rintro ⟨r, hr, s, hs, hp⟩
    exact ⟨r, hr, by rw [hs]; exact hp⟩

theorem pick_fold (S : Version → Prop) (lt : Version → Version → Bool) (le : Version → Version → Prop)
    (hle : ∀ a b, lt b a = false → le b a) (hlt : ∀ a b, lt b a = true → le a b)
    (htr : ∀ a b c, S a → S b → S c → le a b → le b c → le a c) (hrefl : ∀ a, le a a)
    (l : List Version) (hl : ∀ v ∈ l, S v) (acc : Option Version) (ha : ∀ a, acc = some a → S a) :
    let res := l.foldl (fun acc v => match acc with
      | none => some v
      | some cur => if lt v cur then some v else some cur) acc
    (res = none ↔ acc = none ∧ l = []) ∧
    ∀ m, res = some m → S m ∧ (m ∈ l ∨ acc = some m) ∧ (∀ v ∈ l, le v m) ∧ ∀ a, acc = some a → le a m := by
  induction l generalizing acc with
  | nil =>
    intro res
    refine ⟨by simp [res], ?_⟩
    intro m hm
    have hm : acc = some m := hm
    refine ⟨ha m hm, .inr hm, by simp, ?_⟩
    intro a h; rw [hm] at h; simp at h; subst h; exact hrefl _
  | cons x l ih =>
    intro res
    have hx := hl x (by simp)
    cases acc with
    | none =>
      have := ih (fun v hv => hl v (by simp [hv])) (some x) (by intro a h; simp at h; subst h; exact hx)
      obtain ⟨h1, h2⟩ := this
      refine ⟨by simp only [res, List.foldl_cons]; rw [h1]; simp, ?_⟩
      intro m hm
      obtain ⟨e1, e2, e3, e4⟩ := h2 m hm
      refine ⟨e1, ?_, ?_, by simp⟩
      · rcases e2 with e | e
        · exact .inl (by simp [e])
        · simp at e; exact .inl (by simp [e])
      · intro v hv
        rcases List.mem_cons.mp hv with rfl | hv
        · exact e4 _ rfl
        · exact e3 v hv
    | some cur =>
      have hcur := ha cur rfl
      by_cases hg : lt x cur = true
      · have := ih (fun v hv => hl v (by simp [hv])) (some x) (by intro a h; simp at h; subst h; exact hx)
        obtain ⟨h1, h2⟩ := this
        have e : res = l.foldl (fun acc v => match acc with
            | none => some v
            | some cur => if lt v cur then some v else some cur) (some x) := by
          simp only [res, List.foldl_cons, hg, if_true]
        rw [e]
        refine ⟨by rw [h1]; simp, ?_⟩
        intro m hm
        obtain ⟨e1, e2, e3, e4⟩ := h2 m hm
        refine ⟨e1, ?_, ?_, ?_⟩
        · rcases e2 with e | e
          · exact .inl (by simp [e])
          · simp at e; exact .inl (by simp [e])
        · intro v hv
          rcases List.mem_cons.mp hv with rfl | hv
          · exact e4 _ rfl
          · exact e3 v hv
        · intro a h; simp at h; subst h
          exact htr _ _ _ hcur hx e1 (hlt _ _ hg) (e4 _ rfl)
      · simp only [Bool.not_eq_true] at hg
        have := ih (fun v hv => hl v (by simp [hv])) (some cur) (by intro a h; simp at h; subst h; exact hcur)
        obtain ⟨h1, h2⟩ := this
        have e : res = l.foldl (fun acc v => match acc with
            | none => some v
            | some cur => if lt v cur then some v else some cur) (some cur) := by
          simp only [res, List.foldl_cons, hg, Bool.false_eq_true, if_false]
        rw [e]
        refine ⟨by rw [h1]; simp, ?_⟩
        intro m hm
        obtain ⟨e1, e2, e3, e4⟩ := h2 m hm
        refine ⟨e1, ?_, ?_, e4⟩
        · rcases e2 with e | e
          · exact .inl (by simp [e])
          · exact .inr e
        · intro v hv
          rcases List.mem_cons.mp hv with rfl | hv
          · exact htr _ _ _ hx hcur e1 (hle _ _ hg) (e4 _ rfl)
          · exact e3 v hv

/-- C35: LatestWins chooses a version exactly when a requirement names one, and then the greatest of the versions
named (on families where `<=` is transitive). -/
theorem C35_latest_partial (c : Conflict) (S : Version → Prop) (hS : TransOn S) (hc : ∀ v, NamedBy c v → S v) :
    ((latestWins c).selected = none ↔ ∀ v, ¬ NamedBy c v) ∧
    ∀ m, (latestWins c).selected = some m → NamedBy c m ∧ ∀ v, NamedBy c v → v.le m = true := by
  obtain ⟨h1, h2⟩ := pick_fold S Version.gt (fun a b => a.cmp b ≠ .gt)
    (by intro a b h; simpa [Version.gt] using h)
    (by intro a b h; rw [← Version.cmp_swap b a]; simp [Version.gt] at h; rw [h]; decide)
    (fun a b c ha hb hc => hS a b c ha hb hc) (fun a => by rw [Version.cmp_refl]; decide)
    (specVersions c) (fun v hv => hc v ((mem_specVersions c v).mp hv)) none (by simp)
  constructor
  · refine Iff.trans h1 ?_
    simp only [true_and, List.eq_nil_iff_forall_not_mem, mem_specVersions]
  · intro m hm
    obtain ⟨_, e2, e3, _⟩ := h2 m hm
    refine ⟨(mem_specVersions c m).mp (by simpa using e2), ?_⟩
    intro v hv
    simpa [Version.le] using e3 v ((mem_specVersions c v).mpr hv)

/-- C35: EarliestWins chooses a version exactly when a requirement names one, and then the least of the versions
named (on families where `<=` is transitive). -/
theorem C35_earliest_partial (c : Conflict) (S : Version → Prop) (hS : TransOn S) (hc : ∀ v, NamedBy c v → S v) :
    ((earliestWins c).selected = none ↔ ∀ v, ¬ NamedBy c v) ∧
    ∀ m, (earliestWins c).selected = some m → NamedBy c m ∧ ∀ v, NamedBy c v → m.le v = true := by
  obtain ⟨h1, h2⟩ := pick_fold S Version.lt (fun a b => b.cmp a ≠ .gt)
    (by intro a b h; rw [← Version.cmp_swap b a]; simp [Version.lt] at h; revert h; cases b.cmp a <;> simp)
    (by intro a b h; simp [Version.lt] at h; rw [h]; decide)
    (fun a b c ha hb hc h1 h2 => hS c b a hc hb ha h2 h1) (fun a => by rw [Version.cmp_refl]; decide)
    (specVersions c) (fun v hv => hc v ((mem_specVersions c v).mp hv)) none (by simp)
  constructor
  · refine Iff.trans h1 ?_
    simp only [true_and, List.eq_nil_iff_forall_not_mem, mem_specVersions]
  · intro m hm
    obtain ⟨_, e2, e3, _⟩ := h2 m hm
    refine ⟨(mem_specVersions c m).mp (by simpa using e2), ?_⟩
    intro v hv
    simpa [Version.le] using e3 v ((mem_specVersions c v).mpr hv)

/-- a conflict between two exact versions is settled by choosing the greater -/
example : ∃ c v, (runOps [.addRequirement ⟨c!"x", some c!"1.9", false, false⟩,
    .addRequirement ⟨c!"x", some c!"1.10", false, false⟩]).detectConflicts = [c] ∧
    (latestWins c).selected = some v ∧ v.asStr = c!"1.10" := ⟨_, _, rfl, rfl, by decide⟩

/-! ## C81 -/

/-- Every package of the second graph is in the first, under the same key. -/
def NoNewPackage (g g' : Graph) : Prop :=
  ∀ k n, mget g'.nodes k = some n → ∃ n', mget g.nodes k = some n' ∧ n'.package = n.package

theorem noNew_refl (g : Graph) : NoNewPackage g g := fun _ n h => ⟨n, h, rfl⟩

theorem noNew_trans {a b c : Graph} (h : NoNewPackage a b) (h' : NoNewPackage b c) : NoNewPackage a c := by
  intro k n hn
  obtain ⟨n', hn', e⟩ := h' k n hn
  obtain ⟨n'', hn'', e'⟩ := h k n' hn'
  exact ⟨n'', hn'', e'.trans e⟩

theorem noNew_mupd (g : Graph) (g' : Graph) (k : Str) (f : GraphNode → GraphNode) (hf : ∀ n, (f n).package = n.package)
    (h : g'.nodes = mupd g.nodes k f) : NoNewPackage g g' := by
  intro j n hn
  rw [h, mget_mupd] at hn
  split at hn
  · cases hj : mget g.nodes j with
    | none => rw [hj] at hn; cases hn
    | some n' =>
      rw [hj] at hn
      simp only [Option.map_some, Option.some.injEq] at hn
      exact ⟨n', rfl, by rw [← hn, hf]⟩
  · exact ⟨n, hn, rfl⟩

theorem noNew_addEdge (g : Graph) (a b : Str) : NoNewPackage g (g.addEdge a b).1 := by
  have h1 : NoNewPackage g (linkDep g a b) := noNew_mupd g _ a (fun n => { n with deps := sadd n.deps b }) (fun _ => rfl) rfl
  have h2 : NoNewPackage (linkDep g a b) (linkDependent (linkDep g a b) a b) :=
    noNew_mupd _ _ b (fun n => { n with dependents := sadd n.dependents a }) (fun _ => rfl) rfl
  unfold addEdge
  split
  · exact noNew_refl g
  · split
    · exact h1
    · exact noNew_trans h1 h2

theorem noNew_removePackage (g : Graph) (x : Str) : NoNewPackage g (g.removePackage x) := by
  intro k n hn
  cases h0 : mget g.nodes x with
  | none =>
    have e : g.removePackage x = g := by unfold removePackage; rw [h0]
    rw [e] at hn
    exact ⟨n, hn, rfl⟩
  | some n0 =>
    rw [mget_removePackage g x k n0 h0] at hn
    split at hn
    · cases hn
    · cases hj : mget g.nodes k with
      | none => rw [hj] at hn; cases hn
      | some n' =>
        rw [hj] at hn
        simp only [Option.map_some, Option.some.injEq] at hn
        exact ⟨n', rfl, by rw [← hn]⟩

theorem noNew_removeAll (ks : List Str) (g : Graph) : NoNewPackage g (ks.foldl removePackage g) := by
  induction ks generalizing g with
  | nil => exact noNew_refl g
  | cons k ks ih => exact noNew_trans (noNew_removePackage g k) (ih _)

theorem exclusions_removeAll (ks : List Str) (g : Graph) : (ks.foldl removePackage g).exclusions = g.exclusions := by
  induction ks generalizing g with
  | nil => rfl
  | cons k ks ih =>
    rw [List.foldl_cons, ih]
    unfold removePackage; split <;> rfl

/-- C81: after a family is excluded, and until the graph is cleared, no history of operations brings a package of
that family into the graph: those that are there were there, unchanged, before the exclusion; and adding one is an
error that leaves the graph as it was. -/
theorem C81_exclusion_holds (before after : List GraphOp) (name : Str) (h : ∀ op ∈ after, op ≠ .clear) :
    let g := (after.foldl GraphOp.apply ((runOps before).addExclusion name))
    (∀ k n, mget g.nodes k = some n → n.package.name = name →
      ∃ n', mget (runOps before).nodes k = some n' ∧ n'.package = n.package) ∧
    (∀ p, p.name = name → g.addPackage p = (g, false)) := by
  have main : ∀ (ops : List GraphOp) (g : Graph), (∀ op ∈ ops, op ≠ .clear) → name ∈ g.exclusions →
      name ∈ (ops.foldl GraphOp.apply g).exclusions ∧
      ∀ k n, mget (ops.foldl GraphOp.apply g).nodes k = some n → n.package.name = name →
        ∃ n', mget g.nodes k = some n' ∧ n'.package = n.package := by
    intro ops
    induction ops with
    | nil => intro g _ hm; exact ⟨hm, fun k n hn _ => ⟨n, hn, rfl⟩⟩
    | cons op ops ih =>
      intro g hop hm
      have step : name ∈ (op.apply g).exclusions ∧ ∀ k n, mget (op.apply g).nodes k = some n → n.package.name = name →
          ∃ n', mget g.nodes k = some n' ∧ n'.package = n.package := by
        cases op with
        | addPackage p =>
          show name ∈ (g.addPackage p).1.exclusions ∧ ∀ k n, mget (g.addPackage p).1.nodes k = some n → _
          unfold addPackage
          split
          · exact ⟨hm, fun k n hn _ => ⟨n, hn, rfl⟩⟩
          · rename_i hx
            refine ⟨hm, fun k n hn e => ?_⟩
            simp only at hn
            rw [mget_mset] at hn
            split at hn
            · simp only [Option.some.injEq] at hn
              subst hn
              exact absurd (e ▸ hm) hx
            · exact ⟨n, hn, rfl⟩
        | addRequirement r => exact ⟨hm, fun k n hn _ => ⟨n, hn, rfl⟩⟩
        | addConstraint r => exact ⟨hm, fun k n hn _ => ⟨n, hn, rfl⟩⟩
        | addExclusion x => exact ⟨mem_sadd.mpr (.inr hm), fun k n hn _ => ⟨n, hn, rfl⟩⟩
        | addEdge a b =>
          refine ⟨?_, fun k n hn _ => noNew_addEdge g a b k n hn⟩
          show name ∈ (g.addEdge a b).1.exclusions
          unfold addEdge
          split
          · exact hm
          · split <;> exact hm
        | removePackage k =>
          refine ⟨?_, fun j n hn _ => noNew_removePackage g k j n hn⟩
          show name ∈ (g.removePackage k).exclusions
          unfold removePackage; split <;> exact hm
        | applyResolution r =>
          have e1 : (g.applyResolution r).exclusions = g.exclusions := by
            unfold applyResolution
            simp only
            split <;> exact exclusions_removeAll _ _
          have e2 : (g.applyResolution r).nodes = (r.modified.foldl removePackage g).nodes := by
            unfold applyResolution
            simp only
            split <;> rfl
          refine ⟨by show name ∈ (g.applyResolution r).exclusions; rw [e1]; exact hm, fun j n hn _ => ?_⟩
          have hn : mget (g.applyResolution r).nodes j = some n := hn
          rw [e2] at hn
          exact noNew_removeAll _ g j n hn
        | clear => exact absurd rfl (hop _ List.mem_cons_self)
      obtain ⟨h1, h2⟩ := ih (op.apply g) (fun o ho => hop o (List.mem_cons_of_mem _ ho)) step.1
      refine ⟨h1, fun k n hn e => ?_⟩
      obtain ⟨n1, hn1, e1⟩ := h2 k n hn e
      obtain ⟨n2, hn2, e2⟩ := step.2 k n1 hn1 (by rw [e1]; exact e)
      exact ⟨n2, hn2, e2.trans e1⟩
  obtain ⟨h1, h2⟩ := main after ((runOps before).addExclusion name) h (mem_sadd.mpr (.inl rfl))
  refine ⟨fun k n hn e => h2 k n hn e, fun p hp => ?_⟩
  unfold addPackage
  rw [if_pos (by rw [hp]; exact h1)]

/-- An excluded package is refused, also after a later removal of one that was there. -/
example : mkeys (runOps [.addPackage (plainPkg c!"a"), .addPackage (plainPkg c!"b"), .addExclusion c!"a",
    .removePackage c!"a", .addPackage (plainPkg c!"a")]).nodes = [c!"b"] := by decide

end Rez.Props
