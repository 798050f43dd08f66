import Verif.Spec.Resources
import Verif.Lemmas.VersionExtra
import Verif.Lemmas.Requirement
import Verif.Lemmas.RangeParse
import Verif.Props.Version
import Verif.Props.FsRepository
/-!
# C230: resources and their handles
-/
namespace Rez.Props
open Rez Rez.Files Rez.FsRepo Rez.Resources Rez.Spec.Resources Rez.Spec

namespace ResourcesLemmas

theorem total_key : Std.Total fun a b : Str × Str => cmpStr a.1 b.1 ≠ .gt := ⟨fun a b => by
  have := cmpStr_swap a.1 b.1
  cases h : cmpStr a.1 b.1 <;> rw [h] at this <;> simp_all [Ordering.swap] <;> rw [← this] <;> simp⟩

theorem trans_key : IsTrans (Str × Str) fun a b => cmpStr a.1 b.1 ≠ .gt := ⟨fun a b c h1 h2 => by
  have := Std.TransCmp.isLE_trans (cmp := cmpStr) (a := a.1) (b := b.1) (c := c.1)
  exact Ordering.isLE_iff_ne_gt.mp (this (Ordering.isLE_iff_ne_gt.mpr h1) (Ordering.isLE_iff_ne_gt.mpr h2))⟩

theorem nodup_of_keys {l : List (Str × Str)} (h : (mkeys l).Nodup) : l.Nodup := by
  unfold mkeys at h
  exact List.Nodup.of_map _ h

theorem perm_of_same {a b : List (Str × Str)} (ha : (mkeys a).Nodup) (hb : (mkeys b).Nodup)
    (h : ∀ k, mget a k = mget b k) : a.Perm b := by
  rw [List.perm_ext_iff_of_nodup (nodup_of_keys ha) (nodup_of_keys hb)]
  rintro ⟨k, v⟩
  constructor
  · intro hm
    have := mget_of_mem ha hm
    rw [h] at this
    exact mget_some_mem this
  · intro hm
    have := mget_of_mem hb hm
    rw [← h] at this
    exact mget_some_mem this

theorem same_of_perm {a b : List (Str × Str)} (ha : (mkeys a).Nodup) (hp : a.Perm b) (k : Str) : mget a k = mget b k := by
  have hb : (mkeys b).Nodup := (hp.map Prod.fst).nodup_iff.mp ha
  cases h : mget a k with
  | some v => exact (mget_of_mem hb (hp.mem_iff.mp (mget_some_mem h))).symm
  | none =>
    cases h' : mget b k with
    | none => rfl
    | some v =>
      have := mget_of_mem ha (hp.mem_iff.mpr (mget_some_mem h'))
      rw [h] at this
      cases this

theorem sorted_eq {a b : List (Str × Str)} (ha : (mkeys a).Nodup) (hp : a.Perm b) :
    a.insertionSort (fun a b => cmpStr a.1 b.1 ≠ .gt) = b.insertionSort fun a b => cmpStr a.1 b.1 ≠ .gt := by
  have := total_key
  have := trans_key
  have hpa : (a.insertionSort fun a b => cmpStr a.1 b.1 ≠ .gt).Perm a := List.perm_insertionSort _ _
  have hpb : (b.insertionSort fun a b => cmpStr a.1 b.1 ≠ .gt).Perm b := List.perm_insertionSort _ _
  refine List.Perm.eq_of_pairwise (le := fun a b : Str × Str => cmpStr a.1 b.1 ≠ .gt) ?_ (List.pairwise_insertionSort _ _)
    (List.pairwise_insertionSort _ _) (hpa.trans (hp.trans hpb.symm))
  intro x y hx hy h1 h2
  have hx' := hpa.mem_iff.mp hx
  have hy' := hp.mem_iff.mpr (hpb.mem_iff.mp hy)
  have hk : x.1 = y.1 := by
    apply (cmpStr_eq_iff _ _).mp
    have hs := cmpStr_swap x.1 y.1
    cases h : cmpStr x.1 y.1 with
    | eq => rfl
    | gt => exact absurd h h1
    | lt =>
      rw [h] at hs
      exact absurd hs.symm h2
  have e1 := mget_of_mem ha (k := x.1) (v := x.2) hx'
  have e2 := mget_of_mem ha (k := y.1) (v := y.2) hy'
  rw [hk, e2] at e1
  exact Prod.ext hk (Option.some.inj e1).symm

theorem flat_inj {a b : List (Str × Str)} (h : (a.flatMap fun x => [x.1, x.2]) = b.flatMap fun x => [x.1, x.2]) : a = b := by
  induction a generalizing b with
  | nil => cases b with
    | nil => rfl
    | cons y b => simp at h
  | cons x a ih => cases b with
    | nil => simp at h
    | cons y b =>
      simp only [List.flatMap_cons, List.cons_append, List.nil_append, List.cons.injEq] at h
      rw [ih h.2.2, Prod.ext h.1 h.2.1]

end ResourcesLemmas
open ResourcesLemmas

/-- C230: handles are equal exactly when the hasher is given the same texts, in whatever order the maps are iterated: equal
handles have equal hashes, and nothing of a handle is left out of its hash. -/
theorem C230_hash (a b : Handle) (ha : IsMap a) (hb : IsMap b) (iter iter' : List (Str × Str) → List (Str × Str))
    (hi : ∀ l, (iter l).Perm l) (hi' : ∀ l, (iter' l).Perm l) : a.same b ↔ a.fed iter = b.fed iter' := by
  unfold Handle.fed
  constructor
  · rintro ⟨h1, h2, h3⟩
    have hp : (iter a.vars).Perm (iter' b.vars) := (hi _).trans ((perm_of_same ha hb h3).trans (hi' _).symm)
    have hn : (mkeys (iter a.vars)).Nodup := ((hi a.vars).map Prod.fst).nodup_iff.mpr ha
    rw [h1, h2, sorted_eq hn hp]
  · intro h
    simp only [List.cons.injEq] at h
    refine ⟨h.1, h.2.1, fun k => ?_⟩
    have hs := flat_inj h.2.2
    have hp : (iter a.vars).Perm (iter' b.vars) := by
      have p1 : ((iter a.vars).insertionSort fun a b => cmpStr a.1 b.1 ≠ .gt).Perm (iter a.vars) := List.perm_insertionSort _ _
      have p2 : ((iter' b.vars).insertionSort fun a b => cmpStr a.1 b.1 ≠ .gt).Perm (iter' b.vars) := List.perm_insertionSort _ _
      exact p1.symm.trans (hs ▸ p2)
    exact same_of_perm ha ((hi _).symm.trans (hp.trans (hi' _))) k

/-- The handles that resources make are maps. -/
theorem C230_maps (f : Family) (p : PkgRes) (v : Variant) (hf : f.handle = none) (hp : p.handle = none) (hv : v.handle = none) :
    IsMap f.getHandle ∧ IsMap p.getHandle ∧ IsMap v.getHandle := by
  unfold IsMap Family.getHandle PkgRes.getHandle Variant.getHandle
  rw [hf, hp, hv]
  have n0 : (mkeys ([] : List (Str × Str))).Nodup := by simp [mkeys]
  refine ⟨nodup_mset n0 _ _, ?_, nodup_mset ?_ _ _⟩
  · cases p.package.version with
    | none => exact nodup_mset n0 _ _
    | some w => exact nodup_mset (nodup_mset n0 _ _) _ _
  · cases v.version with
    | none => exact nodup_mset n0 _ _
    | some w => exact nodup_mset (nodup_mset n0 _ _) _ _

/-- C230: the handle of a resource that was not given one tells its repository, name, version and index, and nothing else. -/
theorem C230_identify :
    (∀ a b : Family, a.handle = none → b.handle = none →
      (a.getHandle.same b.getHandle ↔ a.kind = b.kind ∧ a.location = b.location ∧ a.name = b.name)) ∧
    (∀ a b : PkgRes, a.handle = none → b.handle = none →
      (a.getHandle.same b.getHandle ↔ a.kind = b.kind ∧ a.location = b.location ∧ a.package.name = b.package.name ∧
        a.package.version.map Version.asStr = b.package.version.map Version.asStr)) ∧
    ∀ a b : Variant, a.handle = none → b.handle = none →
      (a.getHandle.same b.getHandle ↔ a.kind = b.kind ∧ a.location = b.location ∧ a.name = b.name ∧ a.version = b.version ∧
        a.index = b.index) := by
  have n1 : ¬ c!"name" = c!"version" := by decide
  have n2 : ¬ c!"name" = c!"index" := by decide
  have n3 : ¬ c!"version" = c!"index" := by decide
  have n4 : ¬ c!"version" = c!"name" := by decide
  have n5 : ¬ c!"index" = c!"name" := by decide
  have n6 : ¬ c!"index" = c!"version" := by decide
  have e : ∀ k : Str, mget ([] : List (Str × Str)) k = none := fun _ => rfl
  refine ⟨?_, ?_, ?_⟩
  · intro a b ha hb
    unfold Handle.same Family.getHandle
    rw [ha, hb]
    simp only [mget_mset, e]
    constructor
    · rintro ⟨h1, h2, h3⟩
      exact ⟨h1, h2, by simpa using h3 c!"name"⟩
    · rintro ⟨h1, h2, h3⟩
      exact ⟨h1, h2, fun k => by rw [h3]⟩
  · intro a b ha hb
    have key : ∀ c : PkgRes, c.handle = none → ∀ k, mget c.getHandle.vars k =
        if k = c!"version" then c.package.version.map Version.asStr else if k = c!"name" then some c.package.name else none := by
      intro c hc k
      unfold PkgRes.getHandle
      rw [hc]
      cases hv : c.package.version with
      | none =>
        simp only [hv, mget_mset, e, Option.map_none]
        by_cases hk : k = c!"version"
        · rw [if_pos hk, hk, if_neg n4]
        · rw [if_neg hk]
      | some v => simp only [hv, mget_mset, e, Option.map_some]
    have hk : ∀ c : PkgRes, c.handle = none → c.getHandle.kind = c.kind ∧ c.getHandle.location = c.location := by
      intro c hc
      unfold PkgRes.getHandle
      rw [hc]
      exact ⟨rfl, rfl⟩
    unfold Handle.same
    rw [(hk a ha).1, (hk a ha).2, (hk b hb).1, (hk b hb).2]
    constructor
    · rintro ⟨h1, h2, h3⟩
      refine ⟨h1, h2, ?_, ?_⟩
      · have := h3 c!"name"
        rw [key a ha, key b hb, if_neg n1, if_pos rfl, if_neg n1, if_pos rfl] at this
        exact Option.some.inj this
      · have := h3 c!"version"
        rwa [key a ha, key b hb, if_pos rfl, if_pos rfl] at this
    · rintro ⟨h1, h2, h3, h4⟩
      exact ⟨h1, h2, fun k => by rw [key a ha, key b hb, h3, h4]⟩
  · intro a b ha hb
    have key : ∀ c : Variant, c.handle = none → ∀ k, mget c.getHandle.vars k =
        if k = c!"index" then some (decimal c.index) else
          if k = c!"version" then c.version else if k = c!"name" then some c.name else none := by
      intro c hc k
      unfold Variant.getHandle
      rw [hc]
      cases hv : c.version with
      | none =>
        simp only [hv, mget_mset, e]
        by_cases hk : k = c!"version"
        · rw [hk, if_neg n3, if_neg n3, if_neg n4, if_pos rfl]
        · rw [if_neg hk]
      | some v => simp only [hv, mget_mset, e]
    have hk : ∀ c : Variant, c.handle = none → c.getHandle.kind = c.kind ∧ c.getHandle.location = c.location := by
      intro c hc
      unfold Variant.getHandle
      rw [hc]
      exact ⟨rfl, rfl⟩
    unfold Handle.same
    rw [(hk a ha).1, (hk a ha).2, (hk b hb).1, (hk b hb).2]
    constructor
    · rintro ⟨h1, h2, h3⟩
      refine ⟨h1, h2, ?_, ?_, ?_⟩
      · have := h3 c!"name"
        rw [key a ha, key b hb, if_neg n2, if_neg n1, if_pos rfl, if_neg n2, if_neg n1, if_pos rfl] at this
        exact Option.some.inj this
      · have := h3 c!"version"
        rwa [key a ha, key b hb, if_neg n3, if_pos rfl, if_neg n3, if_pos rfl] at this
      · have := h3 c!"index"
        rw [key a ha, key b hb, if_pos rfl, if_pos rfl] at this
        exact decimal_inj (Option.some.inj this)
    · rintro ⟨h1, h2, h3, h4, h5⟩
      exact ⟨h1, h2, fun k => by rw [key a ha, key b hb, h3, h4, h5]⟩

/-- C230: the handle of a variant is not that of a package or a family, and that of a package with a version is not that of a
family. -/
theorem C230_kinds (f : Family) (p : PkgRes) (v : Variant) (hf : f.handle = none) (hp : p.handle = none) (hv : v.handle = none) :
    ¬ v.getHandle.same p.getHandle ∧ ¬ v.getHandle.same f.getHandle ∧
      (p.package.version.isSome = true → ¬ p.getHandle.same f.getHandle) := by
  have n3 : ¬ c!"index" = c!"version" := by decide
  have n4 : ¬ c!"version" = c!"name" := by decide
  have n5 : ¬ c!"index" = c!"name" := by decide
  have e : ∀ k : Str, mget ([] : List (Str × Str)) k = none := fun _ => rfl
  have ev : mget v.getHandle.vars c!"index" = some (decimal v.index) := by
    unfold Variant.getHandle
    rw [hv]
    simp only [mget_mset, if_true]
  have ep : mget p.getHandle.vars c!"index" = none := by
    unfold PkgRes.getHandle
    rw [hp]
    cases p.package.version <;> simp only [mget_mset, n3, n5, e, if_false]
  have ef : mget f.getHandle.vars c!"index" = none ∧ mget f.getHandle.vars c!"version" = none := by
    unfold Family.getHandle
    rw [hf]
    simp only [mget_mset, n4, n5, e, if_false, and_self]
  refine ⟨?_, ?_, ?_⟩
  · rintro ⟨-, -, h⟩
    have := h c!"index"
    rw [ev, ep] at this
    cases this
  · rintro ⟨-, -, h⟩
    have := h c!"index"
    rw [ev, ef.1] at this
    cases this
  · rintro hs ⟨-, -, h⟩
    have := h c!"version"
    rw [ef.2] at this
    unfold PkgRes.getHandle at this
    rw [hp] at this
    obtain ⟨w, hw⟩ := Option.isSome_iff_exists.mp hs
    simp only [hw, mget_mset, if_true] at this
    cases this

/-- C230: a handle that was given is the handle. -/
theorem C230_given (h : Handle) (f : Family) (p : PkgRes) (v : Variant) :
    ({ f with handle := some h } : Family).getHandle = h ∧ ({ p with handle := some h } : PkgRes).getHandle = h ∧
      ({ v with handle := some h } : Variant).getHandle = h := ⟨rfl, rfl, rfl⟩

theorem readAll_ok (l : List Str) (h : ∀ s ∈ l, PackageRequirement.parse s ≠ .panic) :
    ∃ rs, readAll l = .ok rs ∧ Readable l rs := by
  induction l with
  | nil => exact ⟨[], rfl, rfl⟩
  | cons s l ih =>
    obtain ⟨rs, h1, h2⟩ := ih fun t ht => h t (List.mem_cons_of_mem _ ht)
    unfold readAll
    unfold Readable at h2 ⊢
    rw [h1, List.map_cons]
    cases hs : PackageRequirement.parse s with
    | panic => exact absurd hs (h s List.mem_cons_self)
    | err => exact ⟨rs, rfl, by rw [List.filter_cons]; exact h2⟩
    | ok r => exact ⟨r :: rs, rfl, by rw [List.filter_cons, List.map_cons, h2]; rfl⟩

/-- C230: there is a variant for each index of the package and no other; it has the name and the version of the package, and
those of the requirements of that index that can be read, in order. -/
theorem C230_variant (p : Package) (i : Nat) (kind loc : Str) :
    (p.variants.length ≤ i → Variant.fromPackage p i kind loc = .ok none) ∧
    ∀ reqs, p.variants[i]? = some reqs → (∀ s ∈ reqs, PackageRequirement.parse s ≠ .panic) →
      ∃ v, Variant.fromPackage p i kind loc = .ok (some v) ∧ v.name = p.name ∧ v.version = p.version.map Version.asStr ∧
        v.index = i ∧ v.kind = kind ∧ v.location = loc ∧ Readable reqs v.requirements ∧ v.handle = none := by
  unfold Variant.fromPackage
  constructor
  · intro h
    rw [List.getElem?_eq_none h]
  · intro reqs hr hp
    obtain ⟨rs, h1, h2⟩ := readAll_ok reqs hp
    rw [hr]
    simp only [h1]
    exact ⟨_, rfl, rfl, rfl, rfl, rfl, rfl, h2, rfl⟩

/-- C230: from a variant back to its package and its family: they have the name and the version of the package that the variant was
made from, if that is in this repository. -/
theorem C230_parents (p : Package) (i : Nat) (loc : Str) (v : Variant)
    (h : Variant.fromPackage p i c!"filesystem" loc = .ok (some v)) (hn : valid p.name = true)
    (hv : ∀ w, p.version = some w → Parsed w) :
    ∃ q f, parentPackage loc v = some q ∧ parentFamily loc q = some f ∧
      q.getHandle.same (PkgRes.new p c!"filesystem" loc).getHandle ∧ f.getHandle.same (Family.new p.name c!"filesystem" loc).getHandle ∧
      q.package.version = p.version := by
  have hcore : v.name = p.name ∧ v.version = p.version.map Version.asStr := by
    unfold Variant.fromPackage at h
    split at h
    · cases h
    · split at h <;> cases h
      exact ⟨rfl, rfl⟩
  have hp : parentPackage loc v = some (.new (bare p.name p.version) c!"filesystem" loc) := by
    unfold parentPackage
    rw [hcore.1, hcore.2, if_pos hn]
    cases hw : p.version with
    | none => rfl
    | some w =>
      obtain ⟨s, hs⟩ := hv w hw
      simp only [Option.map_some, C04_round_trip s w hs]
  refine ⟨_, _, hp, by unfold parentFamily; exact if_pos hn, ?_, ⟨rfl, rfl, fun _ => rfl⟩, rfl⟩
  rw [C230_identify.2.1 _ _ rfl rfl]
  exact ⟨rfl, rfl, rfl, rfl⟩

/-- C230: a package that has a version, and whose directory is there, has one variant in a repository of directories, and the
parent of that variant is the package; any other has none. -/
theorem C230_listed (r : Repo) (loc : Str) (fs : FS) (p : PkgRes) (hp : p.handle = none) (hk : p.kind = c!"filesystem")
    (hl : p.location = loc) (hn : valid p.package.name = true) (hv : ∀ w, p.package.version = some w → Parsed w) :
    (∀ w, p.package.version = some w → mget fs (join (join r.location p.package.name) w.asStr) = some .dir →
      ∃ v q, iterVariants r loc fs p = [v] ∧ v.index = 0 ∧ v.kind = c!"filesystem" ∧ v.location = loc ∧ v.handle = none ∧ parentPackage loc v = some q ∧ q.getHandle.same p.getHandle) ∧
    ((∀ w, p.package.version = some w → mget fs (join (join r.location p.package.name) w.asStr) ≠ some .dir) →
      iterVariants r loc fs p = []) := by
  constructor
  · intro w hw hd
    obtain ⟨s, hs⟩ := hv w hw
    refine ⟨.new p.package.name (some w.asStr) 0 c!"filesystem" loc, .new (bare p.package.name (some w)) c!"filesystem" loc, ?_, rfl, rfl, rfl, rfl, ?_, ?_⟩
    · unfold iterVariants
      rw [hw]
      simp only
      rw [if_pos hd]
    · unfold parentPackage Variant.new
      simp only [hn, if_true, C04_round_trip s w hs]
    · rw [C230_identify.2.1 _ _ rfl hp, hk, hl, hw]
      exact ⟨rfl, rfl, rfl, rfl⟩
  · intro h
    unfold iterVariants
    cases hw : p.package.version with
    | none => rfl
    | some w =>
      simp only
      rw [if_neg (h w hw)]

/-- C230: a variant has a parent package exactly if its name is a valid one and its version, if it has one, can be read; the parent has
that name and version and is in the same repository. -/
theorem C230_parent (loc : Str) (v : Variant) :
    (∃ q, parentPackage loc v = some q) ↔ valid v.name = true ∧ ∀ s, v.version = some s → (Version.parse s).isSome = true := by
  unfold parentPackage
  by_cases hn : valid v.name = true
  · simp only [hn, if_true, true_and]
    cases hv : v.version with
    | none => simp
    | some s =>
      cases hp : Version.parse s with
      | none => simp [hp]
      | some w => simp [hp]
  · simp [hn]

/-- C230: what the parent of a variant is. -/
theorem C230_parent_is (loc : Str) (v : Variant) (q : PkgRes) (h : parentPackage loc v = some q) :
    q.package.name = v.name ∧ q.kind = c!"filesystem" ∧ q.location = loc ∧ q.handle = none ∧
      (v.version = none → q.package.version = none) ∧ ∀ s, v.version = some s → q.package.version = Version.parse s := by
  unfold parentPackage at h
  split at h
  · cases hv : v.version with
    | none =>
      rw [hv] at h
      cases h
      exact ⟨rfl, rfl, rfl, rfl, fun _ => rfl, fun _ h => by cases h⟩
    | some s =>
      rw [hv] at h
      simp only at h
      cases hp : Version.parse s with
      | none => rw [hp] at h; cases h
      | some w =>
        rw [hp] at h
        cases h
        exact ⟨rfl, rfl, rfl, rfl, (fun h => by cases h), (fun t ht => by cases ht; exact hp.symm)⟩
  · cases h

/-- C230: the texts. -/
theorem C230_texts (f : Family) (p : PkgRes) (v : Variant) :
    f.text = f.kind ++ c!"@" ++ f.location ++ c!"/" ++ f.name ∧
    (∀ w, p.package.version = some w → p.text = p.kind ++ c!"@" ++ p.location ++ c!"/" ++ p.package.name ++ c!"-" ++ w.asStr) ∧
    (∀ w, v.version = some w →
      v.text = v.kind ++ c!"@" ++ v.location ++ c!"/" ++ v.name ++ c!"-" ++ w ++ c!"(variant " ++ decimal v.index ++ c!")") ∧
    (p.package.version = none → p.text = p.kind ++ c!"@" ++ p.location ++ c!"/" ++ p.package.name ++ c!"-unknown") ∧
    (v.version = none →
      v.text = v.kind ++ c!"@" ++ v.location ++ c!"/" ++ v.name ++ c!"-unknown(variant " ++ decimal v.index ++ c!")") := by
  refine ⟨rfl, fun w h => ?_, fun w h => ?_, fun h => ?_, fun h => ?_⟩
  · simp [PkgRes.text, h]
  · simp [Variant.text, h]
  · simp [PkgRes.text, h]
  · simp [Variant.text, h]

/-! ## Examples, and what is not so -/

/-- The version of the examples. -/
def resVersion : Version := (Version.parse c!"1.0").getD .empty

/-- A package with two variants. -/
def resPackage : Package := ⟨c!"a", some resVersion, [], [[c!"maya-2024"], [c!"maya-2025", c!"nuke"]], [], none⟩

-- the hypotheses are met
example : (∃ v, Variant.fromPackage resPackage 1 c!"filesystem" c!"/p" = .ok (some v)) ∧ valid c!"a" = true ∧ Parsed resVersion :=
  ⟨⟨_, rfl⟩, by decide, ⟨c!"1.0", rfl⟩⟩

/-- C230 is false of a package without a version: it has the handle of its family.  A directory whose name is no version is such a
package. -/
theorem C230_family_false (n kind loc : Str) :
    (PkgRes.new (bare n none) kind loc).getHandle.same (Family.new n kind loc).getHandle ∧ Version.parse c!"v1.0" = none :=
  ⟨⟨rfl, rfl, fun _ => rfl⟩, by decide⟩

/-- C230 is false of the variants that a repository lists: of the two variants of a package only one is listed, and without its
requirements. -/
theorem C230_variants_false :
    let fs : FS := [([c!"p"], .dir), ([c!"p", c!"a"], .dir), ([c!"p", c!"a", c!"1.0"], .dir)]
    (iterVariants ⟨[c!"p"], false⟩ c!"/p" fs (.new resPackage c!"filesystem" c!"/p")).map
      (fun v => (v.index, v.requirements.length)) = [(0, 0)] ∧ resPackage.variants.length = 2 := by decide +kernel

/-- C230 is false of the texts: the text of a handle leaves the version out, and different packages have one text. -/
theorem C230_text_false :
    (PkgRes.new resPackage c!"filesystem" c!"/p").getHandle.text = (Family.new c!"a" c!"filesystem" c!"/p").getHandle.text ∧
    (PkgRes.new (bare c!"a-b" (Version.parse c!"1")) c!"filesystem" c!"/p").text =
      (PkgRes.new (bare c!"a" (Version.parse c!"b-1")) c!"filesystem" c!"/p").text := by decide +kernel

/-- C230 is false of requirements that cannot be read: they are left out without a word. -/
theorem C230_dropped_false : ∃ v, Variant.fromPackage ⟨c!"a", none, [], [[c!"maya>=1..2", c!"nuke"]], [], none⟩ 0 [] [] = .ok (some v) ∧
    v.requirements.map PackageRequirement.name = [c!"nuke"] := ⟨_, rfl, by decide +kernel⟩

/-- C230 is false of a directory named `epsilon`: the package is found under the empty version, and its variant is in the directory
of the family. -/
theorem C230_epsilon_false :
    let fs : FS := [([c!"p"], .dir), ([c!"p", c!"a"], .dir), ([c!"p", c!"a", c!"epsilon"], .dir)]
    ((iterPackages id ⟨[c!"p"], false⟩ c!"/p" fs (.new c!"a" c!"filesystem" c!"/p")).flatMap
      (iterVariants ⟨[c!"p"], false⟩ c!"/p" fs)).map (fun v => v.version) = [some []] := by decide +kernel

end Rez.Props
