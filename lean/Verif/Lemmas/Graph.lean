import Verif.Spec.Graph
import Mathlib.Data.List.Perm.Subperm
import Mathlib.Order.WellFounded
import Mathlib.Data.Fintype.EquivFin
import Mathlib.Order.RelClasses
import Mathlib.Tactic.Push
import Mathlib.Tactic.ByContra
import Mathlib.Data.Set.Finite.Basic
/-!
# Lemmas about dependency graphs: mirroring and the topological sort
-/
namespace Rez
open Rez.Spec Graph

/-! ## Mirroring -/

theorem depsOf_mem {g : Graph} {a b : Str} : b ∈ g.depsOf a ↔ Dep g a b := by
  unfold depsOf Dep
  cases h : mget g.nodes a with
  | none => simp
  | some n => simp

theorem mirrored_new : Mirrored Graph.new := by
  constructor
  · exact List.nodup_nil
  all_goals (intro a n; simp [Graph.new])

theorem mirrored_nodes {g g' : Graph} (h : Mirrored g) (e : g'.nodes = g.nodes) : Mirrored g' := by
  obtain ⟨h1, h2, h3, h4, h5⟩ := h
  constructor <;> rw [e] <;> assumption

theorem mirrored_addPackage {g : Graph} (h : Mirrored g) (p : Package) (hk : p.key ∉ mkeys g.nodes) :
    Mirrored (g.addPackage p).1 := by
  unfold addPackage
  split
  · exact h
  have hn : mget g.nodes p.key = none := (mget_none_iff _ _).mpr hk
  refine ⟨nodup_mset h.keys _ _, ?_, ?_, ?_, ?_⟩
  · intro a n ha
    simp only [mget_mset] at ha
    split at ha
    · simp at ha; subst ha; exact List.nodup_nil
    · exact h.deps a n ha
  · intro a n ha
    simp only [mget_mset] at ha
    split at ha
    · simp at ha; subst ha; exact List.nodup_nil
    · exact h.dependents a n ha
  · intro a n b ha hb
    simp only [mget_mset] at ha ⊢
    split at ha
    · simp at ha; subst ha; cases hb
    · obtain ⟨m, hm, hm2⟩ := h.forth a n b ha hb
      refine ⟨m, ?_, hm2⟩
      rw [if_neg]; exact hm
      rintro rfl; rw [hn] at hm; cases hm
  · intro a n b ha hb
    simp only [mget_mset] at ha ⊢
    split at ha
    · simp at ha; subst ha; cases hb
    · obtain ⟨m, hm, hm2⟩ := h.back a n b ha hb
      refine ⟨m, ?_, hm2⟩
      rw [if_neg]; exact hm
      rintro rfl; rw [hn] at hm; cases hm

theorem mirrored_addEdge {g : Graph} (h : Mirrored g) (a b : Str) (hb : b ∈ mkeys g.nodes) :
    Mirrored (g.addEdge a b).1 := by
  unfold addEdge
  cases ha : mget g.nodes a with
  | none => exact h
  | some na =>
  obtain ⟨nb, hnb⟩ := (mget_isSome_iff _ _).mpr hb
  have e : mget (linkDep g a b).nodes b = some (if b = a then { nb with deps := sadd nb.deps b } else nb) := by
    simp only [linkDep, mget_mupd, hnb]; split <;> simp
  rw [e]
  have key : ∀ k, mget (linkDependent (linkDep g a b) a b).nodes k = (mget g.nodes k).map fun n =>
      ⟨n.package, if k = a then sadd n.deps b else n.deps, if k = b then sadd n.dependents a else n.dependents⟩ := by
    intro k
    simp only [linkDependent, linkDep, mget_mupd]
    by_cases h1 : k = a <;> by_cases h2 : k = b <;> simp [h1, h2] <;> cases mget g.nodes _ <;> simp_all
  refine ⟨?_, ?_, ?_, ?_, ?_⟩
  · simp only [linkDependent, linkDep, mkeys_mupd]; exact h.keys
  · intro k n hk
    rw [key] at hk
    obtain ⟨n0, hn0, rfl⟩ := Option.map_eq_some_iff.mp hk
    simp only
    split
    · exact nodup_sadd (h.deps _ _ hn0) _
    · exact h.deps _ _ hn0
  · intro k n hk
    rw [key] at hk
    obtain ⟨n0, hn0, rfl⟩ := Option.map_eq_some_iff.mp hk
    simp only
    split
    · exact nodup_sadd (h.dependents _ _ hn0) _
    · exact h.dependents _ _ hn0
  · intro k n d hk hd
    rw [key] at hk
    obtain ⟨n0, hn0, rfl⟩ := Option.map_eq_some_iff.mp hk
    simp only at hd
    by_cases hkd : k = a ∧ d = b
    · obtain ⟨rfl, rfl⟩ := hkd
      refine ⟨_, by rw [key, hnb]; rfl, ?_⟩
      simp [mem_sadd]
    · have hd0 : d ∈ n0.deps := by
        split at hd
        · rename_i hka
          rcases mem_sadd.mp hd with hd | hd
          · exact absurd ⟨hka, hd⟩ hkd
          · exact hd
        · exact hd
      obtain ⟨m, hm, hm2⟩ := h.forth _ _ _ hn0 hd0
      refine ⟨_, by rw [key, hm]; rfl, ?_⟩
      simp only
      split
      · exact mem_sadd.mpr (.inr hm2)
      · exact hm2
  · intro k n d hk hd
    rw [key] at hk
    obtain ⟨n0, hn0, rfl⟩ := Option.map_eq_some_iff.mp hk
    simp only at hd
    by_cases hkd : k = b ∧ d = a
    · obtain ⟨rfl, rfl⟩ := hkd
      refine ⟨_, by rw [key, ha]; rfl, ?_⟩
      simp [mem_sadd]
    · have hd0 : d ∈ n0.dependents := by
        split at hd
        · rename_i hka
          rcases mem_sadd.mp hd with hd | hd
          · exact absurd ⟨hka, hd⟩ hkd
          · exact hd
        · exact hd
      obtain ⟨m, hm, hm2⟩ := h.back _ _ _ hn0 hd0
      refine ⟨_, by rw [key, hm]; rfl, ?_⟩
      simp only
      split
      · exact mem_sadd.mpr (.inr hm2)
      · exact hm2

theorem mget_unlinkDependents (key : Str) (ns : List (Str × GraphNode)) (ds : List Str) (k : Str) :
    mget (unlinkDependents key ns ds) k = (mget ns k).map fun n =>
      if k ∈ ds then { n with dependents := sdel n.dependents key } else n := by
  unfold unlinkDependents
  induction ds generalizing ns with
  | nil => simp
  | cons d ds ih =>
    rw [List.foldl_cons, ih, mget_mupd]
    by_cases hk : k = d
    · subst hk
      cases mget ns k with
      | none => simp
      | some n =>
        simp only [if_true, Option.map_some, List.mem_cons, true_or]
        split <;> simp [sdel]
    · simp [hk]

theorem mget_unlinkDeps (key : Str) (ns : List (Str × GraphNode)) (ds : List Str) (k : Str) :
    mget (unlinkDeps key ns ds) k = (mget ns k).map fun n =>
      if k ∈ ds then { n with deps := sdel n.deps key } else n := by
  unfold unlinkDeps
  induction ds generalizing ns with
  | nil => simp
  | cons d ds ih =>
    rw [List.foldl_cons, ih, mget_mupd]
    by_cases hk : k = d
    · subst hk
      cases mget ns k with
      | none => simp
      | some n =>
        simp only [if_true, Option.map_some, List.mem_cons, true_or]
        split <;> simp [sdel]
    · simp [hk]

theorem mkeys_unlinkDependents (key : Str) (ns : List (Str × GraphNode)) (ds : List Str) :
    mkeys (unlinkDependents key ns ds) = mkeys ns := by
  unfold unlinkDependents
  induction ds generalizing ns with
  | nil => rfl
  | cons d ds ih => rw [List.foldl_cons, ih, mkeys_mupd]

theorem mkeys_unlinkDeps (key : Str) (ns : List (Str × GraphNode)) (ds : List Str) :
    mkeys (unlinkDeps key ns ds) = mkeys ns := by
  unfold unlinkDeps
  induction ds generalizing ns with
  | nil => rfl
  | cons d ds ih => rw [List.foldl_cons, ih, mkeys_mupd]

theorem mget_removePackage (g : Graph) (key k : Str) (n0 : GraphNode) (h0 : mget g.nodes key = some n0) :
    mget (g.removePackage key).nodes k = if k = key then none else (mget g.nodes k).map fun n =>
      ⟨n.package, if k ∈ n0.dependents then sdel n.deps key else n.deps,
        if k ∈ n0.deps then sdel n.dependents key else n.dependents⟩ := by
  unfold removePackage
  rw [h0]
  simp only [mget_unlinkDeps, mget_unlinkDependents, mget_mdel]
  by_cases hk : k = key
  · simp [hk]
  · cases mget g.nodes k with
    | none => simp
    | some n =>
      simp only [hk, if_false, Option.map_some]
      by_cases h1 : k ∈ n0.dependents <;> by_cases h2 : k ∈ n0.deps <;> simp [h1, h2]

theorem mirrored_removePackage {g : Graph} (h : Mirrored g) (key : Str) : Mirrored (g.removePackage key) := by
  cases h0 : mget g.nodes key with
  | none => unfold removePackage; rw [h0]; exact h
  | some n0 =>
  have key' := fun k => mget_removePackage g key k n0 h0
  have get : ∀ k n, mget (g.removePackage key).nodes k = some n → k ≠ key ∧ ∃ m, mget g.nodes k = some m ∧
      n = ⟨m.package, if k ∈ n0.dependents then sdel m.deps key else m.deps,
        if k ∈ n0.deps then sdel m.dependents key else m.dependents⟩ := by
    intro k n hk
    rw [key'] at hk
    split at hk
    · cases hk
    · rename_i hne
      obtain ⟨m, hm, rfl⟩ := Option.map_eq_some_iff.mp hk
      exact ⟨hne, m, hm, rfl⟩
  refine ⟨?_, ?_, ?_, ?_, ?_⟩
  · unfold removePackage; rw [h0]
    simp only [mkeys_unlinkDeps, mkeys_unlinkDependents]
    exact nodup_mdel h.keys _
  · intro k n hk
    obtain ⟨_, m, hm, rfl⟩ := get k n hk
    simp only; split
    · exact nodup_sdel (h.deps _ _ hm) _
    · exact h.deps _ _ hm
  · intro k n hk
    obtain ⟨_, m, hm, rfl⟩ := get k n hk
    simp only; split
    · exact nodup_sdel (h.dependents _ _ hm) _
    · exact h.dependents _ _ hm
  · intro k n d hk hd
    obtain ⟨hne, m, hm, rfl⟩ := get k n hk
    simp only at hd
    have hdk : d ≠ key := by
      rintro rfl
      split at hd
      · exact (mem_sdel.mp hd).2 rfl
      · rename_i hnot
        obtain ⟨m', hm', hm2⟩ := h.forth _ _ _ hm hd
        rw [h0] at hm'; simp at hm'; subst hm'
        exact hnot hm2
    have hd0 : d ∈ m.deps := by
      split at hd
      · exact (mem_sdel.mp hd).1
      · exact hd
    obtain ⟨m', hm', hm2⟩ := h.forth _ _ _ hm hd0
    refine ⟨_, by rw [key', if_neg hdk, hm']; rfl, ?_⟩
    simp only; split
    · exact mem_sdel.mpr ⟨hm2, hne⟩
    · exact hm2
  · intro k n d hk hd
    obtain ⟨hne, m, hm, rfl⟩ := get k n hk
    simp only at hd
    have hdk : d ≠ key := by
      rintro rfl
      split at hd
      · exact (mem_sdel.mp hd).2 rfl
      · rename_i hnot
        obtain ⟨m', hm', hm2⟩ := h.back _ _ _ hm hd
        rw [h0] at hm'; simp at hm'; subst hm'
        exact hnot hm2
    have hd0 : d ∈ m.dependents := by
      split at hd
      · exact (mem_sdel.mp hd).1
      · exact hd
    obtain ⟨m', hm', hm2⟩ := h.back _ _ _ hm hd0
    refine ⟨_, by rw [key', if_neg hdk, hm']; rfl, ?_⟩
    simp only; split
    · exact mem_sdel.mpr ⟨hm2, hne⟩
    · exact hm2

theorem mirrored_removeAll (ks : List Str) {g : Graph} (h : Mirrored g) : Mirrored (ks.foldl removePackage g) := by
  induction ks generalizing g with
  | nil => exact h
  | cons k ks ih => exact ih (mirrored_removePackage h k)

theorem applyResolution_nodes (g : Graph) (r : Resolution) :
    (g.applyResolution r).nodes = (r.modified.foldl removePackage g).nodes := by
  unfold applyResolution
  simp only
  split <;> rfl

theorem mirrored_apply {g : Graph} (h : Mirrored g) (op : GraphOp) (hc : op.Clean g) : Mirrored (op.apply g) := by
  cases op with
  | addPackage p => exact mirrored_addPackage h p hc
  | addRequirement r => exact mirrored_nodes h rfl
  | addConstraint r => exact mirrored_nodes h rfl
  | addExclusion n => exact mirrored_nodes h rfl
  | addEdge a b => exact mirrored_addEdge h a b hc
  | removePackage k => exact mirrored_removePackage h k
  | applyResolution r => exact mirrored_nodes (mirrored_removeAll r.modified h) (applyResolution_nodes g r)
  | clear => exact mirrored_new

theorem mirrored_run {g : Graph} (h : Mirrored g) (ops : List GraphOp) (hc : CleanFrom g ops) :
    Mirrored (ops.foldl GraphOp.apply g) := by
  induction ops generalizing g with
  | nil => exact h
  | cons op ops ih => exact ih (mirrored_apply h op hc.1) hc.2

theorem mirrored_same {g g' : Graph} (h : Mirrored g) (hs : SameGraph g g') : Mirrored g' := by
  have hk : (mkeys g'.nodes).Nodup := hs.keys.symm.nodup h.keys
  have get : ∀ k n', mget g'.nodes k = some n' → ∃ n, mget g.nodes k = some n ∧ n'.deps.Perm n.deps ∧
      n'.dependents.Perm n.dependents := by
    intro k n' hn'
    have : k ∈ mkeys g.nodes := hs.keys.mem_iff.mp ((mget_isSome_iff _ _).mp ⟨_, hn'⟩)
    obtain ⟨n, hn⟩ := (mget_isSome_iff _ _).mpr this
    obtain ⟨m, hm, _, h1, h2⟩ := hs.nodes k n hn
    rw [hn'] at hm; simp at hm; subst hm
    exact ⟨n, hn, h1, h2⟩
  refine ⟨hk, ?_, ?_, ?_, ?_⟩
  · intro a n ha
    obtain ⟨m, hm, h1, _⟩ := get a n ha
    exact h1.symm.nodup (h.deps _ _ hm)
  · intro a n ha
    obtain ⟨m, hm, _, h1⟩ := get a n ha
    exact h1.symm.nodup (h.dependents _ _ hm)
  · intro a n b ha hb
    obtain ⟨m, hm, h1, _⟩ := get a n ha
    obtain ⟨m', hm', hm2⟩ := h.forth a m b hm (h1.mem_iff.mp hb)
    obtain ⟨n', hn', _, _, h2⟩ := hs.nodes b m' hm'
    exact ⟨n', hn', h2.symm.mem_iff.mp hm2⟩
  · intro a n b ha hb
    obtain ⟨m, hm, _, h1⟩ := get a n ha
    obtain ⟨m', hm', hm2⟩ := h.back a m b hm (h1.mem_iff.mp hb)
    obtain ⟨n', hn', _, h2, _⟩ := hs.nodes b m' hm'
    exact ⟨n', hn', h2.symm.mem_iff.mp hm2⟩

/-! ### node keys are package keys -/

/-- each node is stored under its package's key -/
def KeysOk (g : Graph) : Prop := ∀ k n, mget g.nodes k = some n → n.package.key = k

theorem keysOk_apply {g : Graph} (h : KeysOk g) (op : GraphOp) : KeysOk (op.apply g) := by
  have hrem : ∀ (g : Graph) (key : Str), KeysOk g → KeysOk (g.removePackage key) := by
    intro g key h k n hk
    cases h0 : mget g.nodes key with
    | none =>
      have : g.removePackage key = g := by unfold removePackage; rw [h0]
      rw [this] at hk; exact h k n hk
    | some n0 =>
      rw [mget_removePackage g key k n0 h0] at hk
      split at hk
      · cases hk
      · obtain ⟨m, hm, rfl⟩ := Option.map_eq_some_iff.mp hk
        exact h k m hm
  cases op with
  | addPackage p =>
    show KeysOk (g.addPackage p).1
    unfold addPackage
    split
    · exact h
    · intro k n hk
      simp only [mget_mset] at hk
      split at hk
      · rename_i e; simp at hk; subst hk; exact e.symm
      · exact h k n hk
  | addRequirement r => exact h
  | addConstraint r => exact h
  | addExclusion n => exact h
  | addEdge a b =>
    have hl : ∀ k n, mget (linkDep g a b).nodes k = some n → n.package.key = k := by
      intro k n hk
      simp only [linkDep, mget_mupd] at hk
      split at hk
      · obtain ⟨m, hm, rfl⟩ := Option.map_eq_some_iff.mp hk
        exact h k m hm
      · exact h k n hk
    show KeysOk (g.addEdge a b).1
    unfold addEdge
    cases hga : mget g.nodes a with
    | none => exact h
    | some na =>
      simp only
      cases mget (linkDep g a b).nodes b with
      | none => exact hl
      | some nb =>
        intro k n hk
        simp only [linkDependent, mget_mupd] at hk
        split at hk
        · obtain ⟨m, hm, rfl⟩ := Option.map_eq_some_iff.mp hk
          exact hl k m hm
        · exact hl k n hk
  | removePackage k => exact hrem g k h
  | applyResolution r =>
    have : ∀ (ks : List Str) (g : Graph), KeysOk g → KeysOk (ks.foldl removePackage g) := by
      intro ks
      induction ks with
      | nil => exact fun g h => h
      | cons k ks ih => exact fun g h => ih _ (hrem g k h)
    intro k n hk
    simp only [GraphOp.apply, applyResolution_nodes] at hk
    exact this r.modified g h k n hk
  | clear => intro k n hk; cases hk

theorem keysOk_run {g : Graph} (h : KeysOk g) (ops : List GraphOp) : KeysOk (ops.foldl GraphOp.apply g) := by
  induction ops generalizing g with
  | nil => exact h
  | cons op ops ih => exact ih (keysOk_apply h op)

/-! ## Topological sort -/

theorem wrapDec_succ {m : Nat} (h : m + 1 < 2 ^ 64) : wrapDec (m + 1) = m := by
  unfold wrapDec; omega

theorem relax_fold (ds : List Str) (hn : ds.Nodup) (deg : List (Str × Nat)) (q : List Str)
    (hp : ∀ d ∈ ds, ∃ m, mget deg d = some (m + 1) ∧ m + 1 < 2 ^ 64) :
    (ds.foldl relaxOne (deg, q)).2 = q ++ ds.filter (fun d => decide (mget deg d = some 1)) ∧
    ∀ j, mget (ds.foldl relaxOne (deg, q)).1 j = if j ∈ ds then (mget deg j).map (· - 1) else mget deg j := by
  induction ds generalizing deg q with
  | nil => simp
  | cons d ds ih =>
    obtain ⟨m, hm, hlt⟩ := hp d (by simp)
    have hstep : relaxOne (deg, q) d = (mset deg d m, if m = 0 then q ++ [d] else q) := by
      simp [relaxOne, hm, wrapDec_succ hlt]
    rw [List.foldl_cons, hstep]
    have hd : d ∉ ds := (List.nodup_cons.mp hn).1
    have hne : ∀ j ∈ ds, j ≠ d := fun j hj e => hd (e ▸ hj)
    obtain ⟨h1, h2⟩ := ih (List.nodup_cons.mp hn).2 (mset deg d m) (if m = 0 then q ++ [d] else q) (by
      intro j hj
      rw [mget_mset, if_neg (hne j hj)]
      exact hp j (by simp [hj]))
    refine ⟨?_, ?_⟩
    · rw [h1]
      have : ds.filter (fun x => decide (mget (mset deg d m) x = some 1)) =
          ds.filter (fun x => decide (mget deg x = some 1)) := by
        apply List.filter_congr
        intro x hx
        rw [mget_mset, if_neg (hne x hx)]
      rw [this]
      by_cases hm0 : m = 0
      · subst hm0
        rw [List.filter_cons_of_pos (by simp [hm])]
        simp
      · rw [List.filter_cons_of_neg (by simp [hm, hm0])]
        simp [hm0]
    · intro j
      rw [h2 j, mget_mset]
      by_cases hj : j = d
      · subst hj; simp [hd, hm]
      · simp [hj]

/-- The invariant of Kahn's algorithm. -/
structure KInv (g : Graph) (deg : List (Str × Nat)) (Q R : List Str) : Prop where
  nodup : (R ++ Q).Nodup
  sub : ∀ k ∈ R ++ Q, k ∈ mkeys g.nodes
  deg : ∀ k n, mget g.nodes k = some n → mget deg k = some (n.dependents.filter (· ∉ R)).length
  ready : ∀ k n, mget g.nodes k = some n → (k ∈ R ++ Q ↔ ∀ d ∈ n.dependents, d ∈ R)
  order : (R ++ Q).Pairwise fun x y => ¬ Dep g y x
  self : ∀ k ∈ R ++ Q, ¬ Dep g k k

theorem filter_notin_append {l R : List Str} {k : Str} (hl : l.Nodup) (hk : k ∈ l) (hR : k ∉ R) :
    (l.filter (· ∉ R ++ [k])).length + 1 = (l.filter (· ∉ R)).length := by
  induction l with
  | nil => cases hk
  | cons x l ih =>
    have hx := List.nodup_cons.mp hl
    by_cases hxk : x = k
    · subst hxk
      rw [List.filter_cons_of_neg (by simp), List.filter_cons_of_pos (by simpa using hR)]
      have : l.filter (· ∉ R ++ [x]) = l.filter (· ∉ R) := by
        apply List.filter_congr
        intro y hy
        have : y ≠ x := fun e => hx.1 (e ▸ hy)
        simp [this]
      rw [this]; simp
    · have hk' : k ∈ l := by
        rcases List.mem_cons.mp hk with h | h
        · exact absurd h.symm hxk
        · exact h
      have ih := ih hx.2 hk'
      by_cases hxR : x ∈ R
      · rw [List.filter_cons_of_neg (by simp [hxR]), List.filter_cons_of_neg (by simp [hxR])]; exact ih
      · rw [List.filter_cons_of_pos (by simp [hxR, hxk]), List.filter_cons_of_pos (by simp [hxR])]
        simp only [List.length_cons]; omega

theorem filter_notin_append_ne {l R : List Str} {k : Str} (hk : k ∉ l) :
    l.filter (· ∉ R ++ [k]) = l.filter (· ∉ R) := by
  apply List.filter_congr
  intro y hy
  have : y ≠ k := fun e => hk (e ▸ hy)
  simp [this]

theorem length_le_keys {g : Graph} (h : Mirrored g) {l : List Str} (hl : l.Nodup) (hs : ∀ k ∈ l, k ∈ mkeys g.nodes) :
    l.length ≤ g.nodes.length := by
  have := (List.subperm_of_subset hl hs).length_le
  simpa [mkeys] using this

theorem kinv_step {g : Graph} (h : Mirrored g) (hlen : g.nodes.length < 2 ^ 64) {deg : List (Str × Nat)} {k : Str}
    {Q R : List Str} (hi : KInv g deg (k :: Q) R) {n : GraphNode} (hn : mget g.nodes k = some n) :
    KInv g (n.deps.foldl relaxOne (deg, Q)).1 (n.deps.foldl relaxOne (deg, Q)).2 (R ++ [k]) := by
  have hnd := hi.nodup
  have hkR : k ∉ R := by
    intro hk
    have := List.nodup_append.mp hnd
    exact this.2.2 k hk k (by simp) rfl
  -- each dependency of k has k among its dependents
  have hdep : ∀ d ∈ n.deps, ∃ m, mget g.nodes d = some m ∧ k ∈ m.dependents := fun d hd => h.forth k n d hn hd
  have hpos : ∀ d ∈ n.deps, ∃ m, mget deg d = some (m + 1) ∧ m + 1 < 2 ^ 64 := by
    intro d hd
    obtain ⟨m, hm, hkm⟩ := hdep d hd
    have e := hi.deg d m hm
    have hf := filter_notin_append (h.dependents d m hm) hkm hkR
    refine ⟨(m.dependents.filter (· ∉ R ++ [k])).length, by rw [e, hf], ?_⟩
    rw [hf]
    refine Nat.lt_of_le_of_lt ?_ hlen
    refine length_le_keys h ((h.dependents d m hm).filter _) ?_
    intro x hx
    obtain ⟨m', hm', _⟩ := h.back d m x hm (List.mem_filter.mp hx).1
    exact (mget_isSome_iff _ _).mp ⟨_, hm'⟩
  obtain ⟨hq, hd'⟩ := relax_fold n.deps (h.deps k n hn) deg Q hpos
  -- the nodes newly put into the queue
  have hnew : ∀ d ∈ n.deps, ∀ m, mget g.nodes d = some m → (mget deg d = some 1 ↔ ∀ x ∈ m.dependents, x ∈ R ++ [k]) := by
    intro d hd m hm
    obtain ⟨m', hm', hkm⟩ := hdep d hd
    rw [hm] at hm'; simp at hm'; subst hm'
    rw [hi.deg d m hm]
    have hf := filter_notin_append (h.dependents d m hm) hkm hkR
    rw [← hf]
    constructor
    · intro e x hx
      simp at e
      by_contra hx'
      exact hx' (by have := e x hx; rw [List.mem_append, List.mem_singleton]; exact Classical.or_iff_not_imp_left.mpr this)
    · intro hall
      have : m.dependents.filter (· ∉ R ++ [k]) = [] := by
        rw [List.filter_eq_nil_iff]
        intro x hx; simpa using List.mem_append.mp (hall x hx) |>.resolve_left
      rw [this]; rfl
  have hnotready : ∀ d ∈ n.deps, d ∉ R ++ k :: Q := by
    intro d hd hmem
    obtain ⟨m, hm, hkm⟩ := hdep d hd
    exact hkR ((hi.ready d m hm).mp hmem k hkm)
  have hnewmem : ∀ d, d ∈ n.deps.filter (fun d => decide (mget deg d = some 1)) ↔ d ∈ n.deps ∧ mget deg d = some 1 := by
    intro d; simp
  have happ : (R ++ [k]) ++ (n.deps.foldl relaxOne (deg, Q)).2 =
      (R ++ k :: Q) ++ n.deps.filter (fun d => decide (mget deg d = some 1)) := by
    rw [hq]; simp
  refine ⟨?_, ?_, ?_, ?_, ?_, ?_⟩
  · rw [happ, List.nodup_append]
    refine ⟨hnd, (h.deps k n hn).filter _, ?_⟩
    intro a ha b hb e
    subst e
    exact hnotready a ((hnewmem a).mp hb).1 ha
  · rw [happ]
    intro x hx
    rcases List.mem_append.mp hx with hx | hx
    · exact hi.sub x hx
    · obtain ⟨m, hm, _⟩ := hdep x ((hnewmem x).mp hx).1
      exact (mget_isSome_iff _ _).mp ⟨_, hm⟩
  · intro j m hm
    rw [hd' j, hi.deg j m hm]
    by_cases hj : j ∈ n.deps
    · obtain ⟨m', hm', hkm⟩ := hdep j hj
      rw [hm] at hm'; simp at hm'; subst hm'
      have hf := filter_notin_append (h.dependents j m hm) hkm hkR
      rw [if_pos hj, ← hf]; simp
    · have : k ∉ m.dependents := by
        intro hk
        obtain ⟨n', hn', hjn⟩ := h.back j m k hm hk
        rw [hn] at hn'; simp at hn'; subst hn'
        exact hj hjn
      rw [if_neg hj, filter_notin_append_ne this]
  · intro j m hm
    rw [happ, List.mem_append, hnewmem, hi.ready j m hm]
    constructor
    · rintro (hall | ⟨hj, h1⟩)
      · intro x hx; exact List.mem_append_left _ (hall x hx)
      · exact (hnew j hj m hm).mp h1
    · intro hall
      by_cases hj : j ∈ n.deps
      · exact .inr ⟨hj, (hnew j hj m hm).mpr hall⟩
      · left
        intro x hx
        rcases List.mem_append.mp (hall x hx) with hx' | hx'
        · exact hx'
        · simp at hx'; subst hx'
          obtain ⟨n', hn', hjn⟩ := h.back j m x hm hx
          rw [hn] at hn'; simp at hn'; subst hn'
          exact absurd hjn hj
  · rw [happ, List.pairwise_append]
    have hnodep : ∀ x ∈ R ++ k :: Q, ∀ y ∈ n.deps.filter (fun d => decide (mget deg d = some 1)), ¬ Dep g y x := by
      rintro x hx y hy ⟨ny, hny, hxy⟩
      obtain ⟨m, hm, hym⟩ := h.forth y ny x hny hxy
      have hyR := (hi.ready x m hm).mp hx y hym
      exact hnotready y ((hnewmem y).mp hy).1 (List.mem_append_left _ hyR)
    refine ⟨hi.order, ?_, hnodep⟩
    apply List.Pairwise.imp_of_mem (R := fun _ _ => True)
    · rintro x y hx hy _ ⟨ny, hny, hxy⟩
      obtain ⟨m, hm, hym⟩ := h.forth y ny x hny hxy
      have h1 := ((hnewmem x).mp hx)
      have hyR := (hnew x h1.1 m hm).mp h1.2 y hym
      apply hnotready y ((hnewmem y).mp hy).1
      rcases List.mem_append.mp hyR with h | h
      · exact List.mem_append_left _ h
      · simp at h; simp [h]
    · exact List.pairwise_iff_forall_sublist.mpr (fun _ => trivial)
  · rw [happ]
    rintro x hx ⟨nx, hnx, hxx⟩
    rcases List.mem_append.mp hx with hx | hx
    · exact hi.self x hx ⟨nx, hnx, hxx⟩
    · obtain ⟨m, hm, hxm⟩ := h.forth x nx x hnx hxx
      have h1 := (hnewmem x).mp hx
      have hyR := (hnew x h1.1 m hm).mp h1.2 x hxm
      apply hnotready x h1.1
      rcases List.mem_append.mp hyR with h | h
      · exact List.mem_append_left _ h
      · simp at h; simp [h]

theorem topoLoop_spec {g : Graph} (h : Mirrored g) (hlen : g.nodes.length < 2 ^ 64) (fuel : Nat)
    (deg : List (Str × Nat)) (Q R : List Str) (hi : KInv g deg Q R) (hf : g.nodes.length < fuel + R.length) :
    ∃ R' deg', topoLoop g fuel deg Q R = some R' ∧ KInv g deg' [] R' := by
  induction fuel generalizing deg Q R with
  | zero =>
    have := length_le_keys h (List.nodup_append.mp hi.nodup).1 (fun k hk => hi.sub k (List.mem_append_left _ hk))
    omega
  | succ fuel ih =>
    cases Q with
    | nil => exact ⟨R, deg, rfl, hi⟩
    | cons k Q =>
      obtain ⟨n, hn⟩ := (mget_isSome_iff _ _).mpr (hi.sub k (by simp))
      have hs := kinv_step h hlen hi hn
      obtain ⟨R', deg', hr, hk⟩ := ih _ _ _ hs (by simp; omega)
      refine ⟨R', deg', ?_, hk⟩
      rw [topoLoop]
      simp only [hn]
      exact hr

theorem inDegrees_get (g : Graph) (k : Str) : mget g.inDegrees k = (mget g.nodes k).map fun n => n.dependents.length := by
  unfold inDegrees
  induction g.nodes with
  | nil => rfl
  | cons p l ih =>
    obtain ⟨a, n⟩ := p
    simp only [List.map_cons, mget, ih]
    split <;> rfl

theorem kinv_init {g : Graph} (order : List Str) (ho : order.Perm (mkeys g.nodes)) (h : Mirrored g) :
    KInv g g.inDegrees (order.filter fun k => mget g.inDegrees k == some 0) [] := by
  have hmem : ∀ k n, mget g.nodes k = some n → ((k ∈ order ∧ mget g.inDegrees k = some 0) ↔ n.dependents = []) := by
    intro k n hn
    rw [inDegrees_get, hn]
    simp only [Option.map_some, Option.some.injEq, List.length_eq_zero_iff]
    have : k ∈ order := ho.mem_iff.mpr ((mget_isSome_iff _ _).mp ⟨_, hn⟩)
    simp [this]
  refine ⟨?_, ?_, ?_, ?_, ?_, ?_⟩
  · rw [List.nil_append]; exact (ho.symm.nodup h.keys).filter _
  · intro k hk
    simp at hk
    exact ho.mem_iff.mp hk.1
  · intro k n hn
    rw [inDegrees_get, hn]; simp
  · intro k n hn
    have := hmem k n hn
    simp only [List.nil_append, List.mem_filter, beq_iff_eq, this, List.not_mem_nil]
    constructor
    · intro e; rw [e]; simp
    · intro hall
      exact List.eq_nil_iff_forall_not_mem.mpr hall
  · rw [List.nil_append]
    apply List.Pairwise.imp_of_mem (R := fun _ _ => True)
    · rintro x y hx hy _ ⟨ny, hny, hxy⟩
      obtain ⟨m, hm, hym⟩ := h.forth y ny x hny hxy
      simp only [List.mem_filter, beq_iff_eq] at hx
      have := (hmem x m hm).mp hx
      rw [this] at hym; cases hym
    · exact List.pairwise_iff_forall_sublist.mpr (fun _ => trivial)
  · rintro x hx ⟨ny, hny, hxy⟩
    obtain ⟨m, hm, hym⟩ := h.forth x ny x hny hxy
    simp only [List.nil_append, List.mem_filter, beq_iff_eq] at hx
    have := (hmem x m hm).mp hx
    rw [this] at hym; cases hym

/-- In a finite set in which every element has a predecessor there is a cycle. -/
theorem finite_cycle {α : Type} (E : α → α → Prop) (S : List α) (hne : S ≠ [])
    (hp : ∀ x ∈ S, ∃ y ∈ S, E y x) : ∃ x, Relation.TransGen E x x := by
  by_contra hno
  let T : {x // x ∈ S} → {x // x ∈ S} → Prop := fun a b => Relation.TransGen E a.1 b.1
  have : IsTrans _ T := ⟨fun a b c h1 h2 => Relation.TransGen.trans h1 h2⟩
  have : Std.Irrefl T := ⟨fun a h => hno ⟨_, h⟩⟩
  have : Finite {x // x ∈ S} := (List.finite_toSet S).to_subtype
  have wf : WellFounded T := Finite.wellFounded_of_trans_of_irrefl T
  obtain ⟨x0, hx0⟩ := List.exists_mem_of_ne_nil S hne
  obtain ⟨m, _, hm⟩ := wf.has_min (fun _ => True) ⟨⟨x0, hx0⟩, trivial⟩
  obtain ⟨y, hy, hE⟩ := hp m.1 m.2
  exact hm ⟨y, hy⟩ trivial (Relation.TransGen.single hE)

theorem before_of_pairwise {g : Graph} {l : List Str} (hp : l.Pairwise fun x y => ¬ Dep g y x) {a b : Str} (ha : a ∈ l)
    (hb : b ∈ l) (hd : Dep g a b) (hne : a ≠ b) : Before l a b := by
  induction l with
  | nil => cases ha
  | cons x l ih =>
    have hp' := List.pairwise_cons.mp hp
    rcases List.mem_cons.mp ha with rfl | ha'
    · rcases List.mem_cons.mp hb with rfl | hb
      · exact absurd rfl hne
      · obtain ⟨l2, l3, rfl⟩ := List.append_of_mem hb
        exact ⟨[], l2, l3, rfl⟩
    · rcases List.mem_cons.mp hb with rfl | hb
      · exact absurd hd (hp'.1 a ha')
      · obtain ⟨l1, l2, l3, rfl⟩ := ih hp'.2 ha' hb
        exact ⟨x :: l1, l2, l3, rfl⟩

theorem before_irrefl {l : List Str} (hl : l.Nodup) (a : Str) : ¬ Before l a a := by
  rintro ⟨l1, l2, l3, rfl⟩
  rw [List.nodup_append] at hl
  have := (List.nodup_cons.mp hl.2.1).1
  simp at this

theorem before_idx {l : List Str} (hl : l.Nodup) {a b : Str} (h : Before l a b) : l.idxOf a < l.idxOf b := by
  obtain ⟨l1, l2, l3, rfl⟩ := h
  have h1 := List.nodup_append.mp hl
  have ha : a ∉ l1 := fun hm => h1.2.2 a hm a (by simp) rfl
  have hb : b ∉ l1 := fun hm => h1.2.2 b hm b (by simp) rfl
  have hab : a ≠ b := by
    rintro rfl
    exact (List.nodup_cons.mp h1.2.1).1 (by simp)
  rw [List.idxOf_append_of_notMem ha, List.idxOf_append_of_notMem hb]
  rw [List.idxOf_cons_self, List.idxOf_cons_ne _ hab]
  omega

instance (g : Graph) (op : GraphOp) : Decidable (op.Clean g) := by
  cases op <;> unfold GraphOp.Clean <;> infer_instance

instance decCleanFrom : (g : Graph) → (ops : List GraphOp) → Decidable (CleanFrom g ops)
  | _, [] => .isTrue trivial
  | g, op :: ops => @instDecidableAnd _ _ _ (decCleanFrom (op.apply g) ops)

/-! ## The sort as a whole -/

theorem topologicalSort_spec {g : Graph} (h : Mirrored g) (hlen : g.nodes.length < 2 ^ 64) (order : List Str)
    (ho : order.Perm (mkeys g.nodes)) :
    (Acyclic g → ∃ l, g.topologicalSort order = some (some l) ∧ l.Perm (mkeys g.nodes) ∧
      ∀ a b, Dep g a b → Before l a b) ∧
    (¬ Acyclic g → g.topologicalSort order = some none) := by
  obtain ⟨R, deg, hR, hi⟩ := topoLoop_spec h hlen (g.nodes.length + 1) _ _ _ (kinv_init order ho h) (by simp)
  have hnd : R.Nodup := by simpa using hi.nodup
  have hsub : ∀ k ∈ R, k ∈ mkeys g.nodes := by simpa using hi.sub
  have hord : R.Pairwise fun x y => ¬ Dep g y x := by simpa using hi.order
  have hready : ∀ k n, mget g.nodes k = some n → (k ∈ R ↔ ∀ d ∈ n.dependents, d ∈ R) := by simpa using hi.ready
  have hself : ∀ a b, a ∈ R → Dep g a b → b ∈ R → a ≠ b := by
    rintro a b ha hab hbR rfl
    exact hi.self a (by simpa using ha) hab
  have hbefore : ∀ a b, a ∈ R → b ∈ R → Dep g a b → Before R a b := fun a b ha hb hd =>
    before_of_pairwise hord ha hb hd (hself a b ha hd hb)
  have hacy : (∀ k ∈ mkeys g.nodes, k ∈ R) → Acyclic g := by
    intro hall k hk
    have hlt : ∀ a b, Relation.TransGen (Dep g) a b → R.idxOf a < R.idxOf b := by
      intro a b hab
      have step : ∀ x y, Dep g x y → R.idxOf x < R.idxOf y := by
        rintro x y ⟨n, hn, hy⟩
        obtain ⟨m, hm, _⟩ := h.forth x n y hn hy
        exact before_idx hnd (hbefore x y (hall x ((mget_isSome_iff _ _).mp ⟨_, hn⟩))
          (hall y ((mget_isSome_iff _ _).mp ⟨_, hm⟩)) ⟨n, hn, hy⟩)
      induction hab with
      | single hd => exact step _ _ hd
      | tail _ hd ih => exact Nat.lt_trans ih (step _ _ hd)
    exact Nat.lt_irrefl _ (hlt k k hk)
  have hlenR : R.length = g.nodes.length ↔ ∀ k ∈ mkeys g.nodes, k ∈ R := by
    constructor
    · intro e
      have hp : R.Perm (mkeys g.nodes) := (List.subperm_of_subset hnd hsub).perm_of_length_le (by simp [mkeys, e])
      exact fun k hk => hp.mem_iff.mpr hk
    · intro hall
      have h1 := (List.subperm_of_subset hnd hsub).length_le
      have h2 := (List.subperm_of_subset h.keys hall).length_le
      simp [mkeys] at h1 h2; omega
  have hall_of : Acyclic g → ∀ k ∈ mkeys g.nodes, k ∈ R := by
    intro ha
    by_contra hno
    push Not at hno
    obtain ⟨k, hk, hkR⟩ := hno
    obtain ⟨x, hx⟩ := finite_cycle (Dep g) ((mkeys g.nodes).filter (· ∉ R))
      (List.ne_nil_of_mem (List.mem_filter.mpr ⟨hk, by simpa using hkR⟩)) (by
        intro x hx
        simp only [List.mem_filter, decide_eq_true_eq] at hx
        obtain ⟨n, hn⟩ := (mget_isSome_iff _ _).mpr hx.1
        have := mt (hready x n hn).mpr hx.2
        push Not at this
        obtain ⟨d, hd, hdR⟩ := this
        obtain ⟨m, hm, hxm⟩ := h.back x n d hn hd
        exact ⟨d, by simp [hdR, (mget_isSome_iff _ _).mp ⟨_, hm⟩], m, hm, hxm⟩)
    exact ha x hx
  unfold topologicalSort
  rw [hR]
  simp only
  constructor
  · intro ha
    have hall := hall_of ha
    rw [if_pos (hlenR.mpr hall)]
    refine ⟨R, rfl, (List.subperm_of_subset hnd hsub).perm_of_length_le (by simp [mkeys, hlenR.mpr hall]), ?_⟩
    rintro a b ⟨n, hn, hb⟩
    obtain ⟨m, hm, _⟩ := h.forth a n b hn hb
    exact hbefore a b (hall a ((mget_isSome_iff _ _).mp ⟨_, hn⟩)) (hall b ((mget_isSome_iff _ _).mp ⟨_, hm⟩)) ⟨n, hn, hb⟩
  · intro hna
    rw [if_neg]
    intro e
    exact hna (hacy (hlenR.mp e))

end Rez
