import Verif.Spec.PyRepository
import Verif.Props.PyRelease
import Verif.Lemmas.RangeParse
/-!
# C245: repositories from Python
-/
namespace Rez.Props
open Rez Rez.PyRepository Rez.Repository Rez.PackageOrder Rez.Spec.PyRepository Rez.Spec.Repository Rez.Spec

namespace PyRepositoryLemmas

theorem upToDate {srt : Sorting} (r : Root) : UpToDate srt r State.new := ⟨[], rfl⟩

theorem flat (rs : List Root) (name : Str) : (PyRelease.newRepos rs).flatMap (fun r => ofFamily r.1 name) = family rs name := by
  simp [PyRelease.newRepos, List.flatMap_map, family]

theorem iterCmp_eq {a b : Package} (ha : ∀ v, a.version = some v → Parsed v) (hb : ∀ v, b.version = some v → Parsed v) :
    iterCmp a b = sortedCmp true a b := by
  have key : ∀ p : Package, (∀ v, p.version = some v → Parsed v) → p.version.bind (fun v => Version.parse v.asStr) = p.version := by
    intro p hp
    cases hv : p.version with
    | none => rfl
    | some v =>
      obtain ⟨s, hs⟩ := hp v hv
      exact Props.C04_round_trip s v hs
  unfold iterCmp sortedCmp
  rw [key a ha, key b hb]
  cases a.version <;> cases b.version <;> rfl

theorem mem_keys_scan {r : Root} (h : Sound r) : ∃ s, scan r = (s, true) ∧ ∀ n, n ∈ mkeys s.cache ↔ ofFamily r n ≠ [] := by
  obtain ⟨s, hs, -, hc⟩ := RepositoryLemmas.scan_sound h
  refine ⟨s, hs, fun n => ?_⟩
  rw [← mget_isSome_iff, hc]
  split_ifs with h0
  · simp [h0]
  · simp [h0]

theorem mem_foldl_sadd (ns acc : List Str) (n : Str) : n ∈ ns.foldl sadd acc ↔ n ∈ ns ∨ n ∈ acc := by
  induction ns generalizing acc with
  | nil => simp
  | cons x ns ih => rw [List.foldl_cons, ih, mem_sadd, List.mem_cons]; tauto

theorem nodup_foldl_sadd (ns : List Str) {acc : List Str} (h : acc.Nodup) : (ns.foldl sadd acc).Nodup := by
  induction ns generalizing acc with
  | nil => exact h
  | cons x ns ih => exact ih (nodup_sadd h x)

theorem listEach_sound (rs : List Root) (h : ∀ r ∈ rs, Sound r) (acc : List Str) (ha : acc.Nodup) :
    ∃ l, listEach rs acc = .ok l ∧ l.Nodup ∧ ∀ n, n ∈ l ↔ n ∈ acc ∨ ∃ r ∈ rs, ofFamily r n ≠ [] := by
  induction rs generalizing acc with
  | nil => exact ⟨acc, rfl, ha, fun n => by simp⟩
  | cons r rs ih =>
    obtain ⟨s, hs, hk⟩ := mem_keys_scan (h r List.mem_cons_self)
    have hl : (Repository.list Search.sortStr r State.new).2 = .ok (Search.sortStr (mkeys s.cache)) := by
      unfold Repository.list
      rw [hs]
    obtain ⟨l, h1, h2, h3⟩ := ih (fun x hx => h x (List.mem_cons_of_mem _ hx)) ((Search.sortStr (mkeys s.cache)).foldl sadd acc) (nodup_foldl_sadd _ ha)
    refine ⟨l, ?_, h2, fun n => ?_⟩
    · rw [listEach, hl]
      exact h1
    · rw [h3, mem_foldl_sadd, (SearchLemmas.sortStr_perm _).mem_iff, hk]
      simp only [List.mem_cons, exists_eq_or_imp]
      tauto

theorem ofFamily_ne (r : Root) (n : Str) : ofFamily r n ≠ [] ↔ ∃ p ∈ onDisk r, p.name = n := by
  unfold ofFamily
  rw [ne_eq, List.filter_eq_nil_iff]
  simp

theorem managerGet_none {srt : Sorting} (hs : SortingOk srt) (rs : List Root) (h : ∀ r ∈ rs, Sound r) (name : Str)
    (he : family rs name = []) : (managerGet srt (PyRelease.newRepos rs) name none).2 = .ok none := by
  induction rs with
  | nil => rfl
  | cons r rs ih =>
    have hf : ofFamily r name = [] ∧ family rs name = [] := by simpa [family] using he
    have hg := RepositoryLemmas.get_sound srt (h r List.mem_cons_self) (upToDate (srt := srt) r) name none
    rcases RepositoryLemmas.latest_spec hs (ps := ofFamily r name) (by rw [hf.1]; intro p hp; cases hp) with ⟨_, hl⟩ | ⟨q, _, hq⟩
    · rw [choose, hl] at hg
      show (managerGet srt ((r, State.new) :: PyRelease.newRepos rs) name none).2 = _
      rw [managerGet]
      cases hx : Repository.get srt r State.new name none with
      | mk s' x =>
        rw [hx] at hg
        simp only at hg
        subst hg
        exact ih (fun x hx => h x (List.mem_cons_of_mem _ hx)) hf.2
    · have := hq.1
      rw [hf.1] at this
      cases this

end PyRepositoryLemmas
open PyRepositoryLemmas

/-- C245: which directories are asked: those that are given, an empty list too, and those of the settings only if none are given; paths
where nothing is are passed over. -/
theorem C245_paths (configured : List Str) (home : Str → Str) (disk : Str → Option Root) :
    (∀ l, pathsOf configured home (some l) = l) ∧ pathsOf configured home none = configured.map home ∧
    (∀ l, roots disk l = roots disk (l.filter fun x => (disk x).isSome)) ∧
    ∀ l r, r ∈ roots disk l ↔ ∃ x ∈ l, disk x = some r := by
  refine ⟨fun _ => rfl, rfl, fun l => ?_, fun l r => ?_⟩
  · induction l with
    | nil => rfl
    | cons x l ih =>
      unfold roots at ih ⊢
      cases hx : disk x with
      | none => rw [List.filterMap_cons_none hx, ih, List.filter_cons_of_neg (by simp [hx])]
      | some r => rw [List.filterMap_cons_some hx, ih, List.filter_cons_of_pos (by simp [hx]), List.filterMap_cons_some hx]
  · unfold roots
    rw [List.mem_filterMap]

/-- C245: both `find_packages` and `iter_packages` give all packages of the family in all directories, newest first. -/
theorem C245_find {srt : Sorting} (hs : SortingOk srt) (rs : List Root) (h : ∀ r ∈ rs, Sound r) (name : Str)
    (hc : Comparable (family rs name)) (ht : FromTexts (family rs name)) :
    (∃ l, findPackages srt rs name = .ok l ∧ l.Perm (family rs name) ∧ InDirection true l) ∧
    ∃ l, iterPackages srt rs name = .ok l ∧ l.Perm (family rs name) ∧ InDirection true l := by
  have h' : ∀ r ∈ PyRelease.newRepos rs, Sound r.1 ∧ UpToDate srt r.1 r.2 := by
    intro r hr
    obtain ⟨x, hx, rfl⟩ := List.mem_map.1 hr
    exact ⟨h x hx, upToDate x⟩
  obtain ⟨l, h1, h2, h3⟩ := C67_find hs (PyRelease.newRepos rs) h' name (by rw [flat]; exact hc)
  rw [flat] at h2
  refine ⟨⟨l, h1, h2, h3⟩, ?_⟩
  have hcl : Comparable l := fun p hp q hq r hr => hc p (h2.mem_iff.1 hp) q (h2.mem_iff.1 hq) r (h2.mem_iff.1 hr)
  have htl : FromTexts l := fun p hp => ht p (h2.mem_iff.1 hp)
  have hcons := sortedCmp_consistent true hcl
  have hcons' : Consistent iterCmp l := by
    constructor
    · intro x hx y hy
      rw [iterCmp_eq (htl y hy) (htl x hx), iterCmp_eq (htl x hx) (htl y hy)]
      exact hcons.1 x hx y hy
    · intro x hx y hy z hz
      rw [iterCmp_eq (htl x hx) (htl y hy), iterCmp_eq (htl y hy) (htl z hz), iterCmp_eq (htl x hx) (htl z hz)]
      exact hcons.2 x hx y hy z hz
  obtain ⟨r, hr, hp⟩ := hs.sorted _ _ hcons'
  have hperm := hs.perm _ _ _ hr
  refine ⟨r, ?_, hperm.trans h2, ?_⟩
  · unfold iterPackages findPackages
    rw [h1]
    exact hr
  · unfold InDirection
    refine (List.Pairwise.imp_of_mem ?_ hp)
    intro p q hpm hqm hpq
    have hpl := htl p (hperm.mem_iff.1 hpm)
    have hql := htl q (hperm.mem_iff.1 hqm)
    rw [iterCmp_eq hpl hql] at hpq
    unfold sortedCmp at hpq
    constructor
    · intro hn
      rw [hn] at hpq
      cases hq : q.version with
      | none => rfl
      | some v => rw [hq] at hpq; exact absurd rfl hpq
    · intro u v hu hv
      rw [hu, hv] at hpq
      simp only [if_true] at hpq ⊢
      rw [C01_compare_swap v u]
      cases hvu : v.cmp u <;> simp_all

/-- C245: `get_latest_package` gives the highest version in the first directory that has the family, and nothing exactly if none has
it. -/
theorem C245_latest {srt : Sorting} (hs : SortingOk srt) (rs : List Root) (h : ∀ r ∈ rs, Sound r) (name : Str) :
    (family rs name = [] → latest srt rs name = .ok none) ∧
    ∀ before root after, rs = before ++ root :: after → family before name = [] → ofFamily root name ≠ [] →
      Comparable (ofFamily root name) → ∃ p, latest srt rs name = .ok (some p) ∧ Highest p (ofFamily root name) := by
  refine ⟨managerGet_none hs rs h name, ?_⟩
  rintro before root after rfl hb hne hc
  have hb' : ∀ r ∈ PyRelease.newRepos before, Sound r.1 ∧ UpToDate srt r.1 r.2 ∧ ofFamily r.1 name = [] := by
    intro r hr
    obtain ⟨x, hx, rfl⟩ := List.mem_map.1 hr
    exact ⟨h x (List.mem_append_left _ hx), upToDate x, List.flatMap_eq_nil_iff.1 hb x hx⟩
  have := C67_first hs (PyRelease.newRepos before) (PyRelease.newRepos after) root State.new name hb'
    ⟨h root (by simp), upToDate root⟩ hne hc
  unfold PyRepository.latest
  have he : PyRelease.newRepos (before ++ root :: after) = PyRelease.newRepos before ++ (root, State.new) :: PyRelease.newRepos after := by
    simp [PyRelease.newRepos]
  rw [he]
  exact this

/-- C245: the names of the families: each family with a package in a directory, once, sorted. -/
theorem C245_names (rs : List Root) (h : ∀ r ∈ rs, Sound r) :
    ∃ l, familyNames rs = .ok l ∧ l.Nodup ∧ (l.Pairwise fun a b => cmpStr a b ≠ .gt) ∧
      ∀ n, n ∈ l ↔ ∃ r ∈ rs, ∃ p ∈ onDisk r, p.name = n := by
  obtain ⟨l, h1, h2, h3⟩ := listEach_sound rs h [] List.nodup_nil
  refine ⟨Search.sortStr l, ?_, (SearchLemmas.sortStr_perm l).nodup_iff.2 h2, SearchLemmas.sortStr_sorted l, fun n => ?_⟩
  · unfold familyNames
    rw [h1]
  · rw [(SearchLemmas.sortStr_perm l).mem_iff, h3]
    simp only [List.not_mem_nil, false_or, ofFamily_ne]

/-- **C245.** If a directory, or a family in it, cannot be listed, asking for the names is an error: no shorter list is given. -/
theorem C245_error (rs : List Root) (r : Root) (hr : r ∈ rs)
    (h : r = none ∨ ∃ entries n children, r = some entries ∧ (n, Tree.folder false children) ∈ entries) : familyNames rs = .err := by
  have hroot : ∀ (entries : List (Str × Tree)) (s : State) (n : Str) (children : List (Str × Tree)),
      (n, Tree.folder false children) ∈ entries → (scanRoot entries s).2 = false := by
    intro entries
    induction entries with
    | nil => intro s n ch hm; simp at hm
    | cons e es ih =>
      intro s n ch hm
      obtain ⟨m, t⟩ := e
      rw [scanRoot]
      rcases List.mem_cons.1 hm with hm | hm
      · cases hm
        rw [scanTree]
      · cases hs : scanTree m t s with
        | mk s' b =>
          cases b with
          | true => exact ih s' n ch hm
          | false => rfl
  have hscan : (scan r).2 = false := by
    rcases h with rfl | ⟨entries, n, ch, rfl, hm⟩
    · rfl
    · exact hroot entries _ n ch hm
  have hlist : (Repository.list Search.sortStr r State.new).2 = .err := by
    unfold Repository.list
    cases hs : scan r with
    | mk s' b =>
      rw [hs] at hscan
      simp only at hscan
      subst hscan
      rfl
  have hnp : ∀ x : Root, (Repository.list Search.sortStr x State.new).2 ≠ .panic := by
    intro x
    unfold Repository.list
    cases hs : scan x with
    | mk s' b => cases b <;> simp
  have heach : ∀ (l : List Root) (acc : List Str), r ∈ l → listEach l acc = .err := by
    intro l
    induction l with
    | nil => intro acc hm; simp at hm
    | cons x l ih =>
      intro acc hm
      rw [listEach]
      cases hx : (Repository.list Search.sortStr x State.new).2 with
      | err => rfl
      | panic => exact absurd hx (hnp x)
      | ok ns =>
        rcases List.mem_cons.1 hm with rfl | hm
        · rw [hlist] at hx; cases hx
        · exact ih _ hm
  unfold familyNames
  rw [heach rs [] hr]

/-- C245, false: the latest package is the first of all packages: with version 1 in the first directory and 2 in the second, the
list begins with 2 and the latest is 1. -/
theorem C245_latest_false : ∃ rs : List Root, (∀ r ∈ rs, Sound r) ∧ ∃ p q l,
    iterPackages demoSorting rs c!"a" = .ok (q :: l) ∧ latest demoSorting rs c!"a" = .ok (some p) ∧ p.key = c!"a-1" ∧ q.key = c!"a-2" := by
  refine ⟨[demoRoot c!"a" [c!"1"], demoRoot c!"a" [c!"2"]], ?_, pk c!"a" (some c!"1") none, pk c!"a" (some c!"2") none, [pk c!"a" (some c!"1") none],
    by rfl, by rfl, by decide +kernel, by decide +kernel⟩
  intro r hr
  rcases List.mem_cons.1 hr with rfl | hr
  · exact ⟨_, rfl, by simp [CleanBelow, Clean]⟩
  · rw [List.mem_singleton.1 hr]
    exact ⟨_, rfl, by simp [CleanBelow, Clean]⟩

example : (∀ r ∈ [demoRoot c!"b" [c!"1"], demoRoot c!"a" [c!"2", c!"10"]], Sound r) ∧
    familyNames [demoRoot c!"b" [c!"1"], demoRoot c!"a" [c!"2", c!"10"]] = .ok [c!"a", c!"b"] ∧
    (latest demoSorting [demoRoot c!"b" [c!"1"], demoRoot c!"a" [c!"2", c!"10"]] c!"a" matches .ok (some _)) := by
  refine ⟨?_, by decide +kernel, by decide +kernel⟩
  intro r hr
  rcases List.mem_cons.1 hr with rfl | hr
  · exact ⟨_, rfl, by simp [CleanBelow, Clean]⟩
  · rw [List.mem_singleton.1 hr]
    exact ⟨_, rfl, by simp [CleanBelow, Clean]⟩

end Rez.Props
