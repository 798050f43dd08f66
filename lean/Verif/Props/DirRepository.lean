import Verif.Spec.DirRepository
import Verif.Props.Repository
import Verif.Props.RuleFilter
/-!
# Repositories that scan their directory once: C131 (answers), C132 (searches), C133 (`deduplicate_packages`)
-/
namespace Rez.Props
open Rez Rez.DirRepo Rez.Spec.DirRepo
open Rez.PackageOrder hiding collect
open Rez.Spec (SortingOk Comparable InDirection Consistent)
open Rez.Spec.Repository (Highest)
open Rez.RuleFilter (Engine)
open Rez.Spec.RuleFilter (EngineOk Glob Item ItemsMatch meta_)

namespace DirRepoLemmas

/-- The package of a family under a key. -/
def look (c : Cache) (n k : Str) : Option Package := (mget c n).bind fun m => mget m k

theorem look_add (c : Cache) (p : Package) (n k : Str) :
    look (addPackage c p) n k = if n = p.name ∧ k = key p then some p else look c n k := by
  unfold look addPackage
  rw [mget_mset]
  by_cases hn : n = p.name
  · subst hn
    simp only [if_true, Option.bind_some, mget_mset, true_and]
    by_cases hk : k = key p
    · rw [if_pos hk, if_pos hk]
    · rw [if_neg hk, if_neg hk]
      cases mget c p.name <;> rfl
  · rw [if_neg hn, if_neg fun h => hn h.1]

/-- What the map of packages always satisfies. -/
structure Good (c : Cache) : Prop where
  outer : (mkeys c).Nodup
  inner : ∀ n m, (n, m) ∈ c → (mkeys m).Nodup ∧ m ≠ [] ∧ ∀ k p, (k, p) ∈ m → p.name = n ∧ key p = k

theorem good_nil : Good [] := ⟨List.nodup_nil, fun _ _ h => by cases h⟩

theorem good_add {c : Cache} (h : Good c) (p : Package) : Good (addPackage c p) := by
  unfold addPackage
  refine ⟨nodup_mset h.outer _ _, ?_⟩
  intro n m hm
  rcases List.mem_cons.mp hm with he | hm
  · obtain ⟨rfl, rfl⟩ := Prod.mk.inj he
    have hold : (mkeys ((mget c p.name).getD [])).Nodup ∧ ∀ k q, (k, q) ∈ (mget c p.name).getD [] → q.name = p.name ∧ key q = k := by
      cases hg : mget c p.name with
      | none => exact ⟨List.nodup_nil, fun k q h => by cases h⟩
      | some m => exact ⟨(h.inner _ _ (mget_some_mem hg)).1, (h.inner _ _ (mget_some_mem hg)).2.2⟩
    refine ⟨nodup_mset hold.1 _ _, by simp [mset], ?_⟩
    intro k q hq
    rcases List.mem_cons.mp hq with he | hq
    · obtain ⟨rfl, rfl⟩ := Prod.mk.inj he
      exact ⟨rfl, rfl⟩
    · exact hold.2 k q (List.mem_filter.mp hq).1
  · exact h.inner n m (List.mem_filter.mp hm).1

theorem cache_fold (L : List File) (s : State) :
    (L.foldl addFile s).cache = (L.map File.pkg).foldl addPackage s.cache := by
  induction L generalizing s with
  | nil => rfl
  | cons f L ih => rw [List.foldl_cons, ih, List.map_cons, List.foldl_cons]; rfl

theorem good_fold {c : Cache} (h : Good c) (L : List Package) : Good (L.foldl addPackage c) := by
  induction L generalizing c with
  | nil => exact h
  | cons p L ih => exact ih (good_add h p)

/-- What a package is stored under. -/
def place (p : Package) : Str × Str := (p.name, key p)

theorem look_fold_other (L : List Package) (c : Cache) {n k : Str} (h : (n, k) ∉ L.map place) :
    look (L.foldl addPackage c) n k = look c n k := by
  induction L generalizing c with
  | nil => rfl
  | cons p L ih =>
    rw [List.map_cons, List.mem_cons, not_or] at h
    rw [List.foldl_cons, ih _ h.2, look_add, if_neg]
    rintro ⟨rfl, rfl⟩
    exact h.1 rfl

theorem look_fold {L : List Package} (hn : (L.map place).Nodup) (c : Cache) {p : Package} (hp : p ∈ L) :
    look (L.foldl addPackage c) p.name (key p) = some p := by
  induction L generalizing c with
  | nil => cases hp
  | cons q L ih =>
    rw [List.map_cons, List.nodup_cons] at hn
    rw [List.foldl_cons]
    rcases List.mem_cons.mp hp with rfl | hp
    · rw [look_fold_other L _ hn.1, look_add, if_pos ⟨rfl, rfl⟩]
    · exact ih hn.2 _ hp

theorem look_mem {c : Cache} (h : Good c) {n k : Str} {p : Package} (hl : look c n k = some p) : p.name = n ∧ key p = k := by
  unfold look at hl
  cases hm : mget c n with
  | none => rw [hm] at hl; cases hl
  | some m =>
    rw [hm] at hl
    exact (h.inner n m (mget_some_mem hm)).2.2 k p (mget_some_mem hl)

theorem mem_iff_look {c : Cache} (h : Good c) (p : Package) :
    (∃ m, (p.name, m) ∈ c ∧ ∃ k, (k, p) ∈ m) ↔ look c p.name (key p) = some p := by
  constructor
  · rintro ⟨m, hm, k, hk⟩
    obtain ⟨hn, _, hi⟩ := h.inner _ _ hm
    unfold look
    rw [mget_of_mem h.outer hm]
    have := (hi k p hk).2
    subst this
    exact mget_of_mem hn hk
  · intro hl
    unfold look at hl
    cases hm : mget c p.name with
    | none => rw [hm] at hl; cases hl
    | some m =>
      rw [hm] at hl
      exact ⟨m, mget_some_mem hm, _, mget_some_mem hl⟩

theorem place_of {p q : Package} (hp : ∀ v, p.version = some v → v.asStr ≠ c!"latest")
    (hq : ∀ v, q.version = some v → v.asStr ≠ c!"latest") (h : place p = place q) : ident p = ident q := by
  unfold place key at h
  unfold ident
  obtain ⟨h1, h2⟩ := Prod.mk.inj h
  rw [h1]
  congr 1
  cases hv : p.version with
  | none =>
    cases hw : q.version with
    | none => rfl
    | some w => rw [hv, hw] at h2; exact absurd h2.symm (hq w hw)
  | some v =>
    cases hw : q.version with
    | none => rw [hv, hw] at h2; exact absurd h2 (hp v hv)
    | some w =>
      rw [hv, hw] at h2
      simp only [Option.map_some, Option.getD_some] at h2
      simp [h2]

theorem distinct_place {d : List Family} (h : Distinct d) : ((onDisk d).map place).Nodup := by
  obtain ⟨h1, h2⟩ := h
  unfold List.Nodup at h1 ⊢
  rw [List.pairwise_map] at h1 ⊢
  have := List.Pairwise.and_mem.mp h1
  refine this.imp ?_
  rintro p q ⟨hp, hq, hne⟩ he
  exact hne (place_of (h2 p hp) (h2 q hq) he)

theorem read_files {d : List Family} (h : Separate d) : d.flatMap readFrom = filesIn d := by
  unfold filesIn
  induction d with
  | nil => rfl
  | cons f d ih =>
    rw [List.flatMap_cons, List.flatMap_cons, ih fun g hg => h g (List.mem_cons_of_mem _ hg)]
    congr 1
    have hf := h f List.mem_cons_self
    unfold readFrom filesOf
    cases ho : f.own with
    | none => rfl
    | some o =>
      have hnil : (f.versions.filterMap fun v => v.join) = [] := by
        rw [List.filterMap_eq_nil_iff]
        intro v hv
        simpa using hf (by rw [ho]; rfl) v hv
      rw [hnil]
      cases o <;> rfl

theorem scanned_eq (d : List Family) :
    scanned d = { scan { State.new with cache := [], variants := [], stats := ⟨0, 0, 0, 0⟩ } d with initialized := true } := rfl

theorem scanned_cache {d : List Family} (h : Separate d) : (scanned d).cache = (onDisk d).foldl addPackage [] := by
  rw [scanned_eq]
  unfold scan
  rw [read_files h]
  simp only
  rw [cache_fold]
  rfl

theorem good_scanned {d : List Family} (h : Separate d) : Good (scanned d).cache := by
  rw [scanned_cache h]
  exact good_fold good_nil _

/-- The map of a scanned directory holds exactly its packages. -/
theorem look_scanned {d : List Family} (h : Separate d) (hd : Distinct d) (n k : Str) (p : Package) :
    look (scanned d).cache n k = some p ↔ p ∈ onDisk d ∧ p.name = n ∧ key p = k := by
  rw [scanned_cache h]
  constructor
  · intro hl
    have hg := look_mem (good_fold good_nil (onDisk d)) hl
    refine ⟨?_, hg⟩
    by_cases hm : (n, k) ∈ (onDisk d).map place
    · obtain ⟨q, hq, he⟩ := List.mem_map.mp hm
      have := look_fold (distinct_place hd) [] hq
      obtain ⟨rfl, rfl⟩ := Prod.mk.inj he
      rw [this] at hl
      cases hl
      exact hq
    · rw [look_fold_other _ _ hm] at hl
      cases hl
  · rintro ⟨hp, rfl, rfl⟩
    exact look_fold (distinct_place hd) [] hp

/-- The packages of the map, in the order of iteration, for the names that are taken. -/
def values (h : Hash) (c : Cache) (take : Str → Bool) : List Package :=
  ((h.outer c).filter fun f => take f.1).flatMap fun f => (h.inner f.2).map Prod.snd

theorem values_mem {h : Hash} (hh : HashOk h) {c : Cache} (hg : Good c) (take : Str → Bool) (p : Package) :
    p ∈ values h c take ↔ look c p.name (key p) = some p ∧ take p.name = true := by
  unfold values
  rw [List.mem_flatMap]
  constructor
  · rintro ⟨⟨n, m⟩, hf, hp⟩
    obtain ⟨hf1, hf2⟩ := List.mem_filter.mp hf
    obtain ⟨⟨k, q⟩, hq, rfl⟩ := List.mem_map.mp hp
    have hc := (hh.1 c).mem_iff.mp hf1
    have hm := (hh.2 m).mem_iff.mp hq
    have := (hg.inner n m hc).2.2 k q hm
    obtain ⟨rfl, rfl⟩ := this
    exact ⟨(mem_iff_look hg q).mp ⟨m, hc, _, hm⟩, hf2⟩
  · rintro ⟨hl, ht⟩
    obtain ⟨m, hm, k, hk⟩ := (mem_iff_look hg p).mpr hl
    exact ⟨(p.name, m), List.mem_filter.mpr ⟨(hh.1 c).mem_iff.mpr hm, ht⟩, List.mem_map.mpr ⟨(k, p), (hh.2 m).mem_iff.mpr hk, rfl⟩⟩

theorem inner_nodup {h : Hash} (hh : HashOk h) {m : List (Str × Package)} (hn : (mkeys m).Nodup)
    (hi : ∀ k p, (k, p) ∈ m → key p = k) : ((h.inner m).map Prod.snd).Nodup := by
  have h1 : (mkeys (h.inner m)).Nodup := ((hh.2 m).map Prod.fst).nodup_iff.mpr hn
  have h2 : mkeys (h.inner m) = ((h.inner m).map Prod.snd).map key := by
    unfold mkeys
    rw [List.map_map]
    refine List.map_congr_left ?_
    rintro ⟨k, p⟩ hp
    exact (hi k p ((hh.2 m).mem_iff.mp hp)).symm
  rw [h2] at h1
  exact List.Nodup.of_map _ h1

theorem values_nodup {h : Hash} (hh : HashOk h) {c : Cache} (hg : Good c) (take : Str → Bool) : (values h c take).Nodup := by
  unfold values
  rw [List.nodup_flatMap]
  constructor
  · rintro ⟨n, m⟩ hf
    have hc := (hh.1 c).mem_iff.mp (List.mem_filter.mp hf).1
    obtain ⟨h1, _, h3⟩ := hg.inner n m hc
    exact inner_nodup hh h1 fun k p hp => (h3 k p hp).2
  · have h1 : (mkeys (h.outer c)).Nodup := ((hh.1 c).map Prod.fst).nodup_iff.mpr hg.outer
    unfold mkeys List.Nodup at h1
    rw [List.pairwise_map] at h1
    have h2 := List.Pairwise.and_mem.mp (h1.filter fun f => take f.1)
    refine h2.imp ?_
    rintro ⟨n, m⟩ ⟨n', m'⟩ ⟨ha, hb, hne⟩ p hp hp'
    obtain ⟨⟨k, q⟩, hq, rfl⟩ := List.mem_map.mp hp
    obtain ⟨⟨k', q'⟩, hq', he⟩ := List.mem_map.mp hp'
    simp only at he
    subst he
    have e1 := (hg.inner n m ((hh.1 c).mem_iff.mp (List.mem_filter.mp ha).1)).2.2 k q' ((hh.2 m).mem_iff.mp hq)
    have e2 := (hg.inner n' m' ((hh.1 c).mem_iff.mp (List.mem_filter.mp hb).1)).2.2 k' q' ((hh.2 m').mem_iff.mp hq')
    exact hne (e1.1.symm.trans e2.1)

theorem onDisk_nodup {d : List Family} (h : Distinct d) : (onDisk d).Nodup := List.Nodup.of_map _ h.1

/-- The packages of a family, in the order of iteration. -/
theorem family_perm {h : Hash} (hh : HashOk h) {d : List Family} (hsep : Separate d) (hd : Distinct d) (name : Str) :
    (mget (scanned d).cache name = none ∧ (onDisk d).filter (fun p => p.name = name) = []) ∨
    ∃ m, mget (scanned d).cache name = some m ∧ m ≠ [] ∧
      ((h.inner m).map Prod.snd).Perm ((onDisk d).filter fun p => p.name = name) := by
  have hg := good_scanned hsep
  cases hm : mget (scanned d).cache name with
  | none =>
    left
    refine ⟨rfl, ?_⟩
    rw [List.filter_eq_nil_iff]
    intro p hp hn
    have hn : p.name = name := by simpa using hn
    have := (look_scanned hsep hd name (key p) p).mpr ⟨hp, hn, rfl⟩
    unfold look at this
    rw [hm] at this
    cases this
  | some m =>
    right
    obtain ⟨h1, h2, h3⟩ := hg.inner _ _ (mget_some_mem hm)
    refine ⟨m, rfl, h2, ?_⟩
    refine (List.perm_ext_iff_of_nodup (inner_nodup hh h1 fun k p hp => (h3 k p hp).2) ((onDisk_nodup hd).filter _)).mpr ?_
    intro p
    rw [List.mem_filter, List.mem_map]
    constructor
    · rintro ⟨⟨k, q⟩, hq, rfl⟩
      have hq := (hh.2 m).mem_iff.mp hq
      obtain ⟨hn, hk⟩ := h3 k q hq
      have := (look_scanned hsep hd name k q).mp (by unfold look; rw [hm]; exact mget_of_mem h1 hq)
      exact ⟨this.1, by simpa using this.2.1⟩
    · rintro ⟨hp, hn⟩
      have := (look_scanned hsep hd name (key p) p).mpr ⟨hp, by simpa using hn, rfl⟩
      unfold look at this
      rw [hm] at this
      exact ⟨(key p, p), (hh.2 m).mem_iff.mpr (mget_some_mem this), rfl⟩

end DirRepoLemmas
open DirRepoLemmas

/-! ## C131 -/

/-- C131: a scan forgets everything that was there before: the answers depend only on the directory. -/
theorem C131_fresh (d : List Family) (s : State) : rescan (.dir d) s = (scanned d, .ok ()) := by
  have key : ∀ (L : List File) (s t : State), s.cache = t.cache → s.variants = t.variants → s.stats = t.stats →
      ({ L.foldl addFile s with initialized := true } : State) = { L.foldl addFile t with initialized := true } := by
    intro L
    induction L with
    | nil =>
      intro s t h1 h2 h3
      simp [h1, h2, h3]
    | cons f L ih =>
      intro s t h1 h2 h3
      rw [List.foldl_cons, List.foldl_cons]
      exact ih _ _ (by simp [addFile, h1]) (by simp [addFile, h2]) (by simp [addFile, h3])
  have := key (d.flatMap readFrom) { s with cache := [], variants := [], stats := ⟨0, 0, 0, 0⟩ }
    { State.new with cache := [], variants := [], stats := ⟨0, 0, 0, 0⟩ } rfl rfl rfl
  exact congrArg (fun t => (t, Outcome.ok ())) this

/-- C131: if the directory is gone, a refresh fails and every answer stays as it was. -/
theorem C131_gone (h : Hash) (srt : Sorting) (e : Engine) (s : State) (name : Str) (v : Option Version) (c : Criteria) :
    (rescan .missing s).2 = .err ∧
    DirRepo.get h srt (rescan .missing s).1 name v = DirRepo.get h srt s name v ∧
    DirRepo.versions h srt (rescan .missing s).1 name = DirRepo.versions h srt s name ∧
    DirRepo.variants (rescan .missing s).1 name v = DirRepo.variants s name v ∧
    exists_ (rescan .missing s).1 name v = exists_ s name v ∧
    find h e (rescan .missing s).1 c = find h e s c ∧
    (rescan .missing s).1.stats = s.stats ∧ (rescan .missing s).1.initialized = s.initialized :=
  ⟨rfl, rfl, rfl, rfl, rfl, rfl, rfl, rfl⟩

/-- C131: a package with a version is found exactly if there is a file for it. -/
theorem C131_get_partial (h : Hash) (srt : Sorting) (d : List Family) (hsep : Separate d) (hd : Distinct d) (name : Str)
    (v : Version) (hv : v.asStr ≠ c!"latest") (p : Package) :
    (DirRepo.get h srt (scanned d) name (some v) = .ok (some p) ↔
      p ∈ onDisk d ∧ p.name = name ∧ p.version.map Version.asStr = some v.asStr) ∧
    (exists_ (scanned d) name (some v) = true ↔ ∃ p ∈ onDisk d, p.name = name ∧ p.version.map Version.asStr = some v.asStr) := by
  have hkey : ∀ p, key p = v.asStr ↔ p.version.map Version.asStr = some v.asStr := by
    intro p
    unfold key
    cases p.version with
    | none => simp [hv.symm]
    | some w => simp
  have hget : DirRepo.get h srt (scanned d) name (some v) = .ok (look (scanned d).cache name v.asStr) := by
    unfold DirRepo.get look
    cases mget (scanned d).cache name <;> rfl
  have hex : exists_ (scanned d) name (some v) = (look (scanned d).cache name v.asStr).isSome := by
    unfold exists_ look
    cases mget (scanned d).cache name <;> rfl
  rw [hget, hex]
  constructor
  · rw [Outcome.ok.injEq, look_scanned hsep hd, hkey]
  · rw [Option.isSome_iff_exists]
    refine exists_congr fun q => ?_
    rw [look_scanned hsep hd, hkey]

/-- C131: without a version the highest is found, and a package without version only if there is no other. -/
theorem C131_latest_partial (h : Hash) (hh : HashOk h) (srt : Sorting) (hs : SortingOk srt) (d : List Family) (hsep : Separate d)
    (hd : Distinct d) (name : Str) (hc : Comparable ((onDisk d).filter fun p => p.name = name)) :
    ((onDisk d).filter (fun p => p.name = name) = [] ∧ DirRepo.get h srt (scanned d) name none = .ok none ∧
      exists_ (scanned d) name none = false) ∨
    ∃ p, DirRepo.get h srt (scanned d) name none = .ok (some p) ∧ Highest p ((onDisk d).filter fun p => p.name = name) ∧
      exists_ (scanned d) name none = true := by
  rcases family_perm hh hsep hd name with ⟨hm, hnil⟩ | ⟨m, hm, hne, hp⟩
  · left
    exact ⟨hnil, by unfold DirRepo.get; rw [hm], by unfold exists_; rw [hm]⟩
  · right
    have hex : exists_ (scanned d) name none = true := by
      unfold exists_
      rw [hm]
      cases m with
      | nil => exact absurd rfl hne
      | cons x m => rfl
    have hget : DirRepo.get h srt (scanned d) name none = Repository.latest srt ((h.inner m).map Prod.snd) := by
      unfold DirRepo.get; rw [hm]
    have hc' : Comparable ((h.inner m).map Prod.snd) := fun p hp' q hq r hr =>
      hc p (hp.mem_iff.mp hp') q (hp.mem_iff.mp hq) r (hp.mem_iff.mp hr)
    rcases RepositoryLemmas.latest_spec hs hc' with ⟨hnil, _⟩ | ⟨p, hl, hhi⟩
    · exfalso
      have : h.inner m = [] := List.map_eq_nil_iff.mp hnil
      have hlen := (hh.2 m).length_eq
      rw [this] at hlen
      exact hne (List.length_eq_zero_iff.mp hlen.symm)
    · rw [hget, hl]
      exact ⟨p, rfl, ⟨hp.mem_iff.mp hhi.1, fun q hq => hhi.2 q (hp.mem_iff.mpr hq)⟩, hex⟩

/-- C131: the versions of a package are those of its files, highest first. -/
theorem C131_versions_partial (h : Hash) (hh : HashOk h) (srt : Sorting) (hs : SortingOk srt) (d : List Family) (hsep : Separate d)
    (hd : Distinct d) (name : Str) (hc : Comparable ((onDisk d).filter fun p => p.name = name)) :
    ∃ l, DirRepo.versions h srt (scanned d) name = .ok l ∧
      l.Perm (((onDisk d).filter fun p => p.name = name).filterMap Package.version) ∧ l.Pairwise fun u v => u.cmp v ≠ .lt := by
  unfold DirRepo.versions
  rcases family_perm hh hsep hd name with ⟨hm, hnil⟩ | ⟨m, hm, hne, hp⟩
  · rw [hm, hnil]
    exact ⟨[], rfl, List.Perm.refl _, List.Pairwise.nil⟩
  · rw [hm]
    simp only
    have hfm : ∀ l : List Package, (l.filter fun p => p.version.isSome).filterMap Package.version = l.filterMap Package.version := by
      intro l
      induction l with
      | nil => rfl
      | cons p l ih =>
        cases hv : p.version with
        | none => rw [List.filter_cons_of_neg (by simp [hv]), ih, List.filterMap_cons_none hv]
        | some v => rw [List.filter_cons_of_pos (by simp [hv]), List.filterMap_cons_some hv, List.filterMap_cons_some hv, ih]
    have hc' : Comparable (((h.inner m).map Prod.snd).filter fun p => p.version.isSome) := fun p hp' q hq r hr =>
      hc p (hp.mem_iff.mp (List.mem_filter.mp hp').1) q (hp.mem_iff.mp (List.mem_filter.mp hq).1) r
        (hp.mem_iff.mp (List.mem_filter.mp hr).1)
    obtain ⟨l, hl, hlp, hdir⟩ := C54_sorted_partial hs true none _ hc'
    have hsort : srt.sort (sortedCmp true) (((h.inner m).map Prod.snd).filter fun p => p.version.isSome) = .ok l := by
      rw [reorder] at hl
      revert hl
      cases srt.sort (sortedCmp true) (((h.inner m).map Prod.snd).filter fun p => p.version.isSome) with
      | ok r => intro hl; simp only [wrap] at hl; cases hl; rfl
      | err => intro hl; cases hl
      | panic => intro hl; cases hl
    rw [hsort]
    refine ⟨_, rfl, ?_, ?_⟩
    · refine (hlp.filterMap _).trans ?_
      rw [hfm]
      exact hp.filterMap _
    · unfold InDirection at hdir
      refine List.Pairwise.filterMap _ ?_ hdir
      intro p q hpq u hu v hv
      simpa using hpq.2 u v hu hv

/-- C131: the names are those of the packages on disk, each once and in order. -/
theorem C131_names (h : Hash) (hh : HashOk h) (sort : List Str → List Str) (le : Str → Str → Prop)
    (hsort : ∀ l, (sort l).Perm l ∧ (sort l).Pairwise le) (d : List Family) (hsep : Separate d) :
    (∀ n, n ∈ DirRepo.names sort h (scanned d) ↔ ∃ p ∈ onDisk d, p.name = n) ∧
    (DirRepo.names sort h (scanned d)).Nodup ∧ (DirRepo.names sort h (scanned d)).Pairwise le := by
  unfold DirRepo.names
  have hperm : (sort (mkeys (h.outer (scanned d).cache))).Perm (mkeys (scanned d).cache) :=
    (hsort _).1.trans ((hh.1 _).map Prod.fst)
  refine ⟨fun n => ?_, hperm.nodup_iff.mpr (good_scanned hsep).outer, (hsort _).2⟩
  rw [hperm.mem_iff, scanned_cache hsep]
  have : ∀ (L : List Package) (c : Cache), n ∈ mkeys (L.foldl addPackage c) ↔ (∃ p ∈ L, p.name = n) ∨ n ∈ mkeys c := by
    intro L
    induction L with
    | nil => intro c; simp
    | cons p L ih =>
      intro c
      rw [List.foldl_cons, ih]
      unfold addPackage
      rw [mem_mkeys_mset]
      constructor
      · rintro (⟨q, hq, he⟩ | rfl | h)
        · exact Or.inl ⟨q, List.mem_cons_of_mem _ hq, he⟩
        · exact Or.inl ⟨p, List.mem_cons_self, rfl⟩
        · exact Or.inr h
      · rintro (⟨q, hq, he⟩ | h)
        · rcases List.mem_cons.mp hq with rfl | hq
          · exact Or.inr (Or.inl he.symm)
          · exact Or.inl ⟨q, hq, he⟩
        · exact Or.inr (Or.inr h)
  rw [this]
  simp [mkeys]

/-- C131: the statistics count files: all of them, twice, their variants and their bytes. -/
theorem C131_stats (d : List Family) (hsep : Separate d) :
    (scanned d).stats.packages = (filesIn d).length ∧ (scanned d).stats.versions = (filesIn d).length ∧
    (scanned d).stats.variants = ((filesIn d).map fun f => f.pkg.variants.length).sum ∧
    (scanned d).stats.bytes = ((filesIn d).map File.size).sum := by
  rw [scanned_eq]
  unfold scan
  rw [read_files hsep]
  simp only
  have : ∀ (L : List File) (s : State),
      (L.foldl addFile s).stats.packages = s.stats.packages + L.length ∧
      (L.foldl addFile s).stats.versions = s.stats.versions + L.length ∧
      (L.foldl addFile s).stats.variants = s.stats.variants + (L.map fun f => f.pkg.variants.length).sum ∧
      (L.foldl addFile s).stats.bytes = s.stats.bytes + (L.map File.size).sum := by
    intro L
    induction L with
    | nil => intro s; simp
    | cons f L ih =>
      intro s
      rw [List.foldl_cons]
      obtain ⟨h1, h2, h3, h4⟩ := ih (addFile s f)
      refine ⟨h1.trans ?_, h2.trans ?_, h3.trans ?_, h4.trans ?_⟩ <;> simp [addFile] <;> omega
  obtain ⟨h1, h2, h3, h4⟩ := this (filesIn d) { State.new with cache := [], variants := [], stats := ⟨0, 0, 0, 0⟩ }
  exact ⟨h1.trans (by simp), h2.trans (by simp), h3.trans (by simp), h4.trans (by simp)⟩

/-- A file of 10 bytes for a version of a package. -/
def fileFor (name : Str) (v : Option Str) (variants : List (List Str)) : Option (Option File) :=
  some (some ⟨⟨name, v.bind Version.parse, [], variants, [], none⟩, 10⟩)

/-- Two versions of one package. -/
def mayas : List Family := [⟨none, [fileFor c!"maya" (some c!"1.0") [], fileFor c!"maya" (some c!"2.0") [[c!"linux"]]]⟩]

/-- C131 is false when two files are for the same version: the answer depends on the order in which the system lists them. -/
theorem C131_duplicate_false :
    ∃ (h : Hash) (srt : Sorting) (f g : Family) (v : Version), HashOk h ∧ Separate [f, g] ∧ Separate [g, f] ∧
      (match DirRepo.get h srt (scanned [f, g]) c!"maya" (some v) with | .ok (some p) => p.variants | _ => []) = [[c!"linux"]] ∧
      (match DirRepo.get h srt (scanned [g, f]) c!"maya" (some v) with | .ok (some p) => p.variants | _ => []) = [] := by
  refine ⟨⟨id, id⟩, ⟨fun _ l => .ok l, id⟩, ⟨none, [fileFor c!"maya" (some c!"1.0") []]⟩,
    ⟨none, [fileFor c!"maya" (some c!"1.0") [[c!"linux"]]]⟩, ⟨[c!"1", c!"0"], [c!"."], c!"1.0"⟩,
    ⟨fun l => List.Perm.refl l, fun l => List.Perm.refl l⟩, ?_, ?_, by decide, by decide⟩ <;>
  · intro f hf
    simp only [List.mem_cons, List.not_mem_nil, or_false] at hf
    rcases hf with rfl | rfl <;> intro h <;> cases h

/-- C131 is false when a directory has a package file of its own: the versions below it are not there, even if that file
cannot be loaded. -/
theorem C131_own_false :
    ∃ (d : List Family) (p : Package), p ∈ onDisk d ∧ exists_ (scanned d) p.name none = false := by
  refine ⟨[⟨some none, [fileFor c!"maya" (some c!"1.0") []]⟩], _, List.mem_singleton.mpr rfl, by decide⟩

/-- C131 is false for packages without version and the version `latest`: one is found for the other. -/
theorem C131_called_latest_false :
    ∃ (d : List Family) (v : Version), Version.parse c!"latest" = some v ∧ Separate d ∧ (onDisk d).map ident = [(c!"maya", none)] ∧
      exists_ (scanned d) c!"maya" (some v) = true := by
  refine ⟨[⟨none, [fileFor c!"maya" none []]⟩], _, rfl, ?_, by decide, by decide⟩
  intro f hf
  rw [List.mem_singleton.mp hf]
  intro h
  cases h

/-- C131 is false for versions that are equal and written differently. -/
theorem C131_spelling_false :
    ∃ (d : List Family) (v w : Version), Separate d ∧ Distinct d ∧ (∃ p ∈ onDisk d, p.name = c!"maya" ∧ p.version = some v) ∧
      Version.parse c!"1-0" = some w ∧ v.cmp w = .eq ∧ exists_ (scanned d) c!"maya" (some w) = false := by
  refine ⟨[⟨none, [fileFor c!"maya" (some c!"1.0") []]⟩], ⟨[c!"1", c!"0"], [c!"."], c!"1.0"⟩, ⟨[c!"1", c!"0"], [c!"-"], c!"1-0"⟩,
    ?_, ⟨by decide, ?_⟩, ⟨_, List.mem_singleton.mpr rfl, rfl, by rfl⟩, by rfl, by decide, by decide⟩
  · intro f hf
    rw [List.mem_singleton.mp hf]
    intro h
    cases h
  · intro p hp v hv
    rw [List.mem_singleton.mp hp] at hv
    have : v = ⟨[c!"1", c!"0"], [c!"."], c!"1.0"⟩ := by
      have := Option.some.inj hv
      exact this.symm
    rw [this]
    decide

/-- C131 is false after a refresh that fails because the directory cannot be read: all packages are gone, and the repository
still counts as initialized. -/
theorem C131_refresh_false :
    ∃ s : State, s = scanned mayas ∧ exists_ s c!"maya" none = true ∧ (rescan .unreadable s).2 = .err ∧
      (rescan .unreadable s).1.initialized = true ∧ exists_ (rescan .unreadable s).1 c!"maya" none = false := by
  exact ⟨_, rfl, by decide, rfl, by rfl, by rfl⟩

/-- C131 is false for the statistics: the number of packages is the number of files. -/
theorem C131_stats_false : (scanned mayas).stats.packages = 2 ∧ DirRepo.names id ⟨id, id⟩ (scanned mayas) = [c!"maya"] := by decide

/-- C131 is false for variants: without a version none are found, not even those of a package without version; and those of
one package are found under the name of another. -/
theorem C131_variants_false :
    ∃ (d d' : List Family) (v : Version), (onDisk d).map ident = [(c!"maya", none)] ∧
      (onDisk d).all (fun p => p.variants.length == 1) = true ∧ DirRepo.variants (scanned d) c!"maya" none = [] ∧
      (onDisk d').map ident = [(c!"a-b", some c!"1")] ∧ Version.parse c!"b-1" = some v ∧
      DirRepo.variants (scanned d') c!"a" (some v) = [c!"variant_0"] := by
  refine ⟨[⟨none, [fileFor c!"maya" none [[c!"linux"]]]⟩], [⟨none, [fileFor c!"a-b" (some c!"1") [[c!"linux"]]]⟩],
    ⟨[c!"b", c!"1"], [c!"-"], c!"b-1"⟩, by decide, by decide, by decide, by decide, by rfl, by decide⟩

theorem mayas_separate : Separate mayas := by
  intro f hf
  rw [List.mem_singleton.mp hf]
  intro h
  cases h

example : ((onDisk mayas).map ident) = [(c!"maya", some c!"1.0"), (c!"maya", some c!"2.0")] ∧
    ((onDisk mayas).map ident).Nodup := by decide

/-! ## C132 -/

namespace DirRepoLemmas

/-- The tests on a package of a taken name. -/
def takes (c : Criteria) (p : Package) : Bool := c.takesVersion p && c.takesPrerelease p && c.satisfied p

theorem collect_all {c : Criteria} (hl : c.limit = none) (ps res : List Package) : collect c ps res = res ++ ps.filter (takes c) := by
  induction ps generalizing res with
  | nil => simp [collect]
  | cons p ps ih =>
    rw [collect]
    simp only [hl, full, Bool.false_eq_true, if_false]
    have ht : takes c p = (c.takesVersion p && c.takesPrerelease p && c.satisfied p) := rfl
    rw [List.filter_cons, ht]
    cases h1 : c.takesVersion p <;> cases h2 : c.takesPrerelease p <;> cases h3 : c.satisfied p <;> simp [ih]

theorem collect_limit {c : Criteria} {l : Nat} (hl : c.limit = some l) (ps res : List Package) (hr : res.length < l) :
    collect c ps res = (res ++ ps.filter (takes c)).take l := by
  induction ps generalizing res with
  | nil => rw [collect, List.filter_nil, List.append_nil, List.take_of_length_le hr.le]
  | cons p ps ih =>
    rw [collect]
    simp only [hl, full]
    by_cases ht : takes c p = true
    · have h3 : c.takesVersion p = true ∧ c.takesPrerelease p = true ∧ c.satisfied p = true := by
        simpa [takes, and_assoc] using ht
      rw [List.filter_cons_of_pos ht]
      simp only [h3.1, h3.2.1, h3.2.2, Bool.not_true, Bool.or_self, Bool.false_eq_true, if_false, if_true]
      by_cases hf : l ≤ (res ++ [p]).length
      · rw [if_pos (by simpa using hf)]
        have hlen : (res ++ [p]).length = l := by simp at hf ⊢; omega
        rw [show res ++ p :: ps.filter (takes c) = (res ++ [p]) ++ ps.filter (takes c) by simp, List.take_append_of_le_length hlen.ge,
          List.take_of_length_le hlen.le]
      · rw [if_neg (by simpa using hf), ih _ (by omega)]
        simp
    · rw [List.filter_cons_of_neg ht]
      by_cases hv : (!c.takesVersion p || !c.takesPrerelease p) = true
      · rw [if_pos hv, ih _ hr]
      · rw [if_neg hv]
        have h3 : c.satisfied p = false := by
          cases h1 : c.takesVersion p <;> cases h2 : c.takesPrerelease p <;> cases h3 : c.satisfied p <;>
            simp [takes, h1, h2, h3] at ht hv ⊢
        simp only [h3, Bool.false_eq_true, if_false]
        rw [if_neg (by simp; omega), ih _ hr]

theorem takes_iff (c : Criteria) (p : Package) (fits : Str → Prop) :
    Wanted c fits p ↔ fits p.name ∧ takes c p = true := by
  have h1 : c.takesVersion p = true ↔ ∀ r, c.version = some r → r ≠ [] → ∀ v, p.version = some v → v.asStr = r := by
    unfold Criteria.takesVersion
    cases c.version with
    | none => simp
    | some r =>
      cases p.version with
      | none => simp
      | some v =>
        simp only [Bool.or_eq_true, List.isEmpty_iff, beq_iff_eq, Option.some.injEq]
        constructor
        · rintro (h | h) r' rfl hr v' rfl
          · exact absurd h hr
          · exact h
        · intro h
          by_cases hr : r = []
          · exact Or.inl hr
          · exact Or.inr (h r rfl hr v rfl)
  have h2 : c.takesPrerelease p = true ↔ (c.prerelease = false → ∀ v, p.version = some v → v.isPrerelease = false) := by
    unfold Criteria.takesPrerelease
    cases c.prerelease <;> cases p.version <;> simp
  have h3 : c.satisfied p = true ↔ ∀ r ∈ c.requirements, r.name = p.name → ∀ v, p.version = some v → r.satisfiedBy v = true := by
    unfold Criteria.satisfied
    rw [List.all_eq_true]
    refine forall_congr' fun r => forall_congr' fun _ => ?_
    by_cases hn : r.name = p.name <;> cases p.version <;> simp [hn]
  unfold takes
  rw [Bool.and_eq_true, Bool.and_eq_true, h1, h2, h3]
  exact ⟨fun h => ⟨h.1, ⟨h.2, h.3⟩, h.4⟩, fun h => ⟨h.1, h.2.1.1, h.2.1.2, h.2.2⟩⟩

theorem pattern_text {pat : Str} (h : ∀ c ∈ pat, c ∈ meta_ → c = '*' ∨ c = '?') :
    RexShell.replaceChar '?' c!"." (RexShell.replaceChar '*' c!".*" pat) = (pat.map RuleFilterLemmas.itemOf).flatMap Item.text := by
  unfold RexShell.replaceChar
  induction pat with
  | nil => rfl
  | cons c pat ih =>
    have ih := ih fun x hx => h x (List.mem_cons_of_mem _ hx)
    rw [List.flatMap_cons, List.flatMap_append, ih, List.map_cons, List.flatMap_cons]
    congr 1
    unfold RuleFilterLemmas.itemOf
    by_cases h1 : c = '*'
    · subst h1; rfl
    · by_cases h2 : c = '?'
      · subst h2; rfl
      · rw [if_neg h1, if_neg h2, if_neg h1]
        have : c ∉ meta_ := fun hm => by
          rcases h c List.mem_cons_self hm with h | h
          · exact h1 h
          · exact h2 h
        simp [Item.text, this, h2]

theorem glob_star (s : Str) : Glob c!"*" s := by
  have := Glob.star (ps := []) s [] .done
  simpa using this

theorem matches_iff {e : Engine} (he : EngineOk e) {name pat : Str} (hp : ∀ c ∈ pat, c ∈ meta_ → c = '*' ∨ c = '?')
    (hn : '\n' ∉ name) : matchesPattern e name pat = true ↔ Glob pat name := by
  unfold matchesPattern
  by_cases hs : pat = c!"*"
  · rw [if_pos hs, hs]
    exact ⟨fun _ => glob_star name, fun _ => rfl⟩
  · rw [if_neg hs, pattern_text hp]
    obtain ⟨f, hf, hm⟩ := he (pat.map RuleFilterLemmas.itemOf)
    rw [hf]
    simp only
    rw [hm]
    exact ⟨RuleFilterLemmas.items_glob, fun h => RuleFilterLemmas.glob_items h hn⟩

end DirRepoLemmas

/-- C132: without limit a search finds each package on disk that is wanted, once, and no others. -/
theorem C132_find_partial (h : Hash) (hh : HashOk h) (e : Engine) (he : EngineOk e) (d : List Family) (hsep : Separate d)
    (hd : Distinct d) (hn : ∀ p ∈ onDisk d, '\n' ∉ p.name) (c : Criteria) (hl : c.limit = none)
    (hp : ∀ pat, c.pattern = some pat → ∀ x ∈ pat, x ∈ meta_ → x = '*' ∨ x = '?') :
    (find h e (scanned d) c).Nodup ∧
    ∀ p, p ∈ find h e (scanned d) c ↔ p ∈ onDisk d ∧ Wanted c (fun n => ∀ pat, c.pattern = some pat → Glob pat n) p := by
  have hfind : find h e (scanned d) c = (values h (scanned d).cache (c.takesName e)).filter (takes c) := by
    unfold find
    rw [collect_all hl]
    rfl
  have hg := good_scanned hsep
  rw [hfind]
  refine ⟨(values_nodup hh hg _).filter _, fun p => ?_⟩
  rw [List.mem_filter, values_mem hh hg, look_scanned hsep hd, takes_iff]
  constructor
  · rintro ⟨⟨⟨hm, _⟩, ht⟩, hk⟩
    refine ⟨hm, ?_, hk⟩
    intro pat hpat
    unfold Criteria.takesName at ht
    rw [hpat] at ht
    exact (matches_iff he (hp pat hpat) (hn p hm)).mp ht
  · rintro ⟨hm, hf, hk⟩
    refine ⟨⟨⟨hm, rfl, rfl⟩, ?_⟩, hk⟩
    unfold Criteria.takesName
    cases hpat : c.pattern with
    | none => rfl
    | some pat => exact (matches_iff he (hp pat hpat) (hn p hm)).mpr (hf pat hpat)

/-- C132: a limit of at least one gives the first so many of the results. -/
theorem C132_limit_partial (h : Hash) (e : Engine) (s : State) (c : Criteria) (l : Nat) (hl : c.limit = some l) (h1 : 1 ≤ l) :
    find h e s c = (find h e s { c with limit := none }).take l := by
  unfold find
  rw [collect_limit hl _ [] h1, collect_all rfl]
  rfl

/-- C132 is false for a limit of zero. -/
theorem C132_zero_false :
    ∃ (h : Hash) (e : Engine) (c : Criteria), HashOk h ∧ c.limit = some 0 ∧ (find h e (scanned mayas) c).length = 1 := by
  refine ⟨⟨id, id⟩, fun _ => none, ⟨none, none, [], some 0, false⟩, ⟨fun l => List.Perm.refl l, fun l => List.Perm.refl l⟩, rfl, by decide⟩

/-- C132 is false for patterns with a point: it stands for any character. -/
theorem C132_pattern_false (h : Hash) (hh : HashOk h) (e : Engine) (he : EngineOk e) :
    ∃ (d : List Family) (p : Package), Separate d ∧ p.name = c!"axb" ∧
      p ∈ find h e (scanned d) ⟨some c!"a.b", none, [], none, false⟩ := by
  refine ⟨[⟨none, [fileFor c!"axb" (some c!"1.0") []]⟩], ⟨c!"axb", (some c!"1.0").bind Version.parse, [], [], [], none⟩, ?_, rfl, ?_⟩
  · intro f hf
    rw [List.mem_singleton.mp hf]
    intro h
    cases h
  · obtain ⟨f, hf, hm⟩ := he [.char 'a', .dot, .char 'b']
    have hsep : Separate [⟨none, [fileFor c!"axb" (some c!"1.0") []]⟩] := by
      intro f hf
      rw [List.mem_singleton.mp hf]
      intro h
      cases h
    have hg := good_scanned hsep
    unfold find
    rw [collect_all rfl]
    refine List.mem_append_right _ (List.mem_filter.mpr ⟨(values_mem hh hg _ _).mpr ⟨by rfl, ?_⟩, by decide⟩)
    show matchesPattern e c!"axb" c!"a.b" = true
    unfold matchesPattern
    rw [if_neg (by decide)]
    have : e (c!"^" ++ RexShell.replaceChar '?' c!"." (RexShell.replaceChar '*' c!".*" c!"a.b") ++ c!"$") = some f := hf
    rw [this]
    exact (hm _).mpr (.char (.dot (by decide) (.char .done)))

/-- C132 is false for version ranges: the text of the version must be the text of the requirement. -/
theorem C132_range_false :
    ∃ (h : Hash) (e : Engine) (c : Criteria) (r : PackageRequirement) (v : Version), HashOk h ∧
      c = ⟨none, some c!"1+", [], none, false⟩ ∧ r.satisfiedBy v = true ∧ r.spec = some c!"1+" ∧
      (∃ p ∈ onDisk mayas, p.version = some v) ∧ find h e (scanned mayas) c = [] := by
  refine ⟨⟨id, id⟩, fun _ => none, _, ⟨c!"maya", some c!"1+", false, false⟩, ⟨[c!"2", c!"0"], [c!"."], c!"2.0"⟩,
    ⟨fun l => List.Perm.refl l, fun l => List.Perm.refl l⟩, rfl, by decide, rfl, ?_, by rfl⟩
  exact ⟨_, List.mem_cons_of_mem _ (List.mem_singleton.mpr rfl), by rfl⟩

/-! ## C133 -/

namespace DirRepoLemmas

theorem dedupCmp_consistent {ps : List Package} (h : Comparable ps) : Consistent dedupCmp ps := by
  have hc := sortedCmp_consistent true h
  constructor
  · intro x hx y hy
    unfold dedupCmp
    rw [← cmpStr_swap x.name y.name]
    cases cmpStr x.name y.name
    · rfl
    · exact hc.1 x hx y hy
    · rfl
  · intro x hx y hy z hz
    unfold dedupCmp
    cases h1 : cmpStr x.name y.name <;> cases h2 : cmpStr y.name z.name <;> simp
    · have := Std.TransCmp.lt_trans h1 h2
      simp [this]
    · rw [cmpStr_eq_iff] at h2
      simp [← h2, h1]
    · rw [cmpStr_eq_iff] at h1
      simp [h1, h2]
    · rw [cmpStr_eq_iff] at h1 h2
      simp only [h1, h2, cmpStr_refl]
      exact hc.2 x hx y hy z hz

theorem firsts_sub (seen : List Str) (l : List Package) : (firsts seen l).Sublist l := by
  induction l generalizing seen with
  | nil => exact List.Sublist.refl _
  | cons p l ih =>
    rw [firsts]
    split
    · exact (ih _).cons _
    · exact (ih _).cons_cons _

theorem firsts_keys (seen : List Str) (l : List Package) :
    ((firsts seen l).map dedupKey).Nodup ∧ (∀ p ∈ firsts seen l, dedupKey p ∉ seen) ∧
    ∀ p ∈ l, dedupKey p ∈ seen ∨ ∃ q ∈ firsts seen l, dedupKey q = dedupKey p := by
  induction l generalizing seen with
  | nil => exact ⟨List.nodup_nil, fun _ h => (by cases h), fun _ h => (by cases h)⟩
  | cons p l ih =>
    rw [firsts]
    by_cases hp : dedupKey p ∈ seen
    · rw [if_pos hp]
      obtain ⟨h1, h2, h3⟩ := ih seen
      refine ⟨h1, h2, fun q hq => ?_⟩
      rcases List.mem_cons.mp hq with rfl | hq
      · exact Or.inl hp
      · exact h3 q hq
    · rw [if_neg hp]
      obtain ⟨h1, h2, h3⟩ := ih (dedupKey p :: seen)
      refine ⟨?_, ?_, ?_⟩
      · rw [List.map_cons, List.nodup_cons]
        refine ⟨fun hm => ?_, h1⟩
        obtain ⟨q, hq, he⟩ := List.mem_map.mp hm
        exact h2 q hq (he ▸ List.mem_cons_self)
      · intro q hq
        rcases List.mem_cons.mp hq with rfl | hq
        · exact hp
        · exact fun hm => h2 q hq (List.mem_cons_of_mem _ hm)
      · intro q hq
        rcases List.mem_cons.mp hq with rfl | hq
        · exact Or.inr ⟨q, List.mem_cons_self, rfl⟩
        · rcases h3 q hq with hm | ⟨r, hr, he⟩
          · rcases List.mem_cons.mp hm with he | hm
            · exact Or.inr ⟨p, List.mem_cons_self, he.symm⟩
            · exact Or.inl hm
          · exact Or.inr ⟨r, List.mem_cons_of_mem _ hr, he⟩

theorem dash_split {a b x y : Str} (ha : '-' ∉ a) (hb : '-' ∉ b) (h : a ++ '-' :: x = b ++ '-' :: y) : a = b ∧ x = y := by
  induction a generalizing b with
  | nil =>
    cases b with
    | nil => exact ⟨rfl, (List.cons.inj h).2⟩
    | cons c b => exact absurd ((List.cons.inj h).1 ▸ List.mem_cons_self) hb
  | cons c a ih =>
    cases b with
    | nil => exact absurd ((List.cons.inj h).1 ▸ List.mem_cons_self) ha
    | cons c' b =>
      obtain ⟨h1, h2⟩ := List.cons.inj h
      obtain ⟨h3, h4⟩ := ih (fun hm => ha (List.mem_cons_of_mem _ hm)) (fun hm => hb (List.mem_cons_of_mem _ hm)) h2
      exact ⟨by rw [h1, h3], h4⟩

theorem dedupKey_iff {p q : Package} (hp : '-' ∉ p.name) (hq : '-' ∉ q.name) : dedupKey p = dedupKey q ↔ ident p = ident q := by
  unfold dedupKey ident
  cases hv : p.version with
  | none =>
    cases hw : q.version with
    | none => simp
    | some w =>
      constructor
      · intro h
        simp only at h
        exact absurd (by rw [h]; simp) hp
      · intro h
        simp at h
  | some v =>
    cases hw : q.version with
    | none =>
      constructor
      · intro h
        simp only at h
        exact absurd (by rw [← h]; simp) hq
      · intro h
        simp at h
    | some w =>
      constructor
      · intro h
        have : p.name ++ '-' :: v.asStr = q.name ++ '-' :: w.asStr := by simpa using h
        obtain ⟨h1, h2⟩ := dash_split hp hq this
        simp [h1, h2]
      · intro h
        simp at h
        simp [h.1, h.2]

end DirRepoLemmas

/-- C131: with a version, the variants found are as many as the package file defines, numbered from zero. -/
theorem C131_variants_partial (d : List Family) (hsep : Separate d) (hd : Distinct d) (hn : ∀ p ∈ onDisk d, '-' ∉ p.name)
    (p : Package) (hp : p ∈ onDisk d) (v : Version) (hv : p.version = some v) :
    DirRepo.variants (scanned d) p.name (some v) = (List.range p.variants.length).map fun i => c!"variant_" ++ decimal i := by
  have hcache : (scanned d).variants = (onDisk d).foldl addVariants [] := by
    rw [scanned_eq]
    unfold scan
    rw [read_files hsep]
    simp only
    have : ∀ (L : List File) (s : State), (L.foldl addFile s).variants = (L.map File.pkg).foldl addVariants s.variants := by
      intro L
      induction L with
      | nil => intro s; rfl
      | cons f L ih => intro s; rw [List.foldl_cons, ih, List.map_cons, List.foldl_cons]; rfl
    rw [this]
    rfl
  have hkey : key p = v.asStr := by unfold key; rw [hv]; rfl
  have hother : ∀ (L : List Package) (c : List (Str × List Str)), (∀ q ∈ L, place q ≠ place p ∧ '-' ∉ q.name) →
      mget (L.foldl addVariants c) (p.name ++ c!"-" ++ key p) = mget c (p.name ++ c!"-" ++ key p) := by
    intro L
    induction L with
    | nil => intro c _; rfl
    | cons q L ih =>
      intro c hq
      rw [List.foldl_cons, ih _ fun r hr => hq r (List.mem_cons_of_mem _ hr)]
      unfold addVariants
      split
      · rfl
      · rw [mget_mset, if_neg]
        intro he
        obtain ⟨hne, hdash⟩ := hq q List.mem_cons_self
        have he' : p.name ++ '-' :: key p = q.name ++ '-' :: key q := by simpa using he
        obtain ⟨h1, h2⟩ := dash_split (hn p hp) hdash he'
        exact hne (by unfold place; rw [h1, h2])
  have hmain : ∀ (L : List Package) (c : List (Str × List Str)), (L.map place).Nodup → (∀ q ∈ L, '-' ∉ q.name) → p ∈ L →
      mget c (p.name ++ c!"-" ++ key p) = none →
      (mget (L.foldl addVariants c) (p.name ++ c!"-" ++ key p)).getD [] =
        (List.range p.variants.length).map fun i => c!"variant_" ++ decimal i := by
    intro L
    induction L with
    | nil => intro c _ _ h; cases h
    | cons q L ih =>
      intro c hnd hdash hm hc
      rw [List.map_cons, List.nodup_cons] at hnd
      rw [List.foldl_cons]
      by_cases hq : place q = place p
      · have hqp : q = p := by
          rcases List.mem_cons.mp hm with h | h
          · exact h.symm
          · exact absurd (List.mem_map.mpr ⟨p, h, hq.symm⟩) hnd.1
        subst hqp
        rw [hother L _ fun r hr => ⟨fun he => hnd.1 (List.mem_map.mpr ⟨r, hr, he⟩), hdash r (List.mem_cons_of_mem _ hr)⟩]
        unfold addVariants
        by_cases hemp : q.variants.isEmpty = true
        · rw [if_pos hemp, hc]
          rw [List.isEmpty_iff] at hemp
          rw [hemp]
          rfl
        · rw [if_neg hemp, mget_mset, if_pos rfl]
          rfl
      · refine ih _ hnd.2 (fun r hr => hdash r (List.mem_cons_of_mem _ hr)) ?_ ?_
        · rcases List.mem_cons.mp hm with h | h
          · exact absurd (by rw [h]) hq
          · exact h
        · have := hother [q] c (by
            intro r hr
            rw [List.mem_singleton.mp hr]
            exact ⟨hq, hdash q List.mem_cons_self⟩)
          rw [List.foldl_cons, List.foldl_nil] at this
          rw [this, hc]
  unfold DirRepo.variants
  rw [hcache]
  simp only
  rw [← hkey]
  exact hmain _ _ (distinct_place hd) hn hp rfl

/-- C133: of the packages of a list with the same name and version text one remains, and of those only; names are in order,
the versions of a name in descending order, and packages without version come last. -/
theorem C133_partial (srt : Sorting) (hs : SortingOk srt) (ps : List Package) (hc : Comparable ps) (hn : ∀ p ∈ ps, '-' ∉ p.name) :
    ∃ l, dedup srt ps = .ok l ∧ (∀ p ∈ l, p ∈ ps) ∧ (l.map ident).Nodup ∧ (∀ p ∈ ps, ident p ∈ l.map ident) ∧
      l.Pairwise (fun p q => cmpStr p.name q.name = .lt ∨ p.name = q.name ∧ (p.version = none → q.version = none) ∧
        ∀ u v, p.version = some u → q.version = some v → u.cmp v ≠ .lt) := by
  obtain ⟨r, hr, hsorted⟩ := hs.sorted dedupCmp ps (dedupCmp_consistent hc)
  have hperm := hs.perm _ _ _ hr
  have hsub := firsts_sub [] r
  obtain ⟨h1, _, h3⟩ := firsts_keys [] r
  have hmem : ∀ p ∈ firsts [] r, p ∈ ps := fun p hp => hperm.mem_iff.mp (hsub.subset hp)
  refine ⟨firsts [] r, by unfold dedup; rw [hr], hmem, ?_, ?_, ?_⟩
  · unfold List.Nodup at h1 ⊢
    rw [List.pairwise_map] at h1 ⊢
    refine (List.Pairwise.and_mem.mp h1).imp ?_
    rintro p q ⟨hp, hq, hne⟩ he
    exact hne ((dedupKey_iff (hn p (hmem p hp)) (hn q (hmem q hq))).mpr he)
  · intro p hp
    rcases h3 p (hperm.mem_iff.mpr hp) with h | ⟨q, hq, he⟩
    · cases h
    · exact List.mem_map.mpr ⟨q, hq, (dedupKey_iff (hn q (hmem q hq)) (hn p hp)).mp he⟩
  · refine (hsorted.sublist hsub).imp ?_
    intro p q hpq
    unfold dedupCmp at hpq
    cases hcmp : cmpStr p.name q.name with
    | lt => exact Or.inl rfl
    | gt => rw [hcmp] at hpq; exact absurd rfl hpq
    | eq =>
      right
      rw [hcmp] at hpq
      refine ⟨(cmpStr_eq_iff _ _).mp hcmp, ?_, ?_⟩
      · intro hpv
        cases hqv : q.version with
        | none => rfl
        | some w => simp [sortedCmp, hpv, hqv] at hpq
      · intro u v hu hv hlt
        have : v.cmp u = .gt := by
          rw [C01_compare_swap u v, hlt]; rfl
        simp [sortedCmp, hu, hv, this] at hpq

/-- C133 is false for names with a dash: a package without version is dropped for a version of another package. -/
theorem C133_dash_false :
    ∃ (srt : Sorting) (p q : Package), ident p = (c!"a", some c!"1") ∧ ident q = (c!"a-1", none) ∧ Comparable [p, q] ∧
      dedupCmp p q = .lt ∧ srt.sort dedupCmp [p, q] = .ok [p, q] ∧ dedup srt [p, q] = .ok [p] := by
  refine ⟨⟨fun _ l => .ok l, id⟩, ⟨c!"a", some ⟨[c!"1"], [], c!"1"⟩, [], [], [], none⟩, ⟨c!"a-1", none, [], [], [], none⟩, by decide, by decide, ?_, by decide,
    rfl, by rfl⟩
  intro x hx y hy z hz u v w hu hv hw
  have : ∀ x ∈ [(⟨c!"a", some ⟨[c!"1"], [], c!"1"⟩, [], [], [], none⟩ : Package), ⟨c!"a-1", none, [], [], [], none⟩], ∀ u, x.version = some u →
      u = ⟨[c!"1"], [], c!"1"⟩ := by
    intro x hx u hu
    simp only [List.mem_cons, List.not_mem_nil, or_false] at hx
    rcases hx with rfl | rfl
    · exact (Option.some.inj hu).symm
    · cases hu
  rw [this x hx u hu, this y hy v hv, this z hz w hw]
  decide

/-- C133 is false for equal versions that are written differently: both remain. -/
theorem C133_spelling_false :
    ∃ (srt : Sorting) (p q : Package) (u v : Version), p.name = q.name ∧ p.version = some u ∧ q.version = some v ∧ u.cmp v = .eq ∧
      srt.sort dedupCmp [p, q] = .ok [p, q] ∧ dedup srt [p, q] = .ok [p, q] := by
  exact ⟨⟨fun _ l => .ok l, id⟩, ⟨c!"a", some ⟨[c!"1", c!"0"], [c!"."], c!"1.0"⟩, [], [], [], none⟩,
    ⟨c!"a", some ⟨[c!"1", c!"0"], [c!"-"], c!"1-0"⟩, [], [], [], none⟩, _, _, rfl, rfl, rfl, by decide, rfl, by rfl⟩

example : ∀ p ∈ onDisk mayas, '-' ∉ p.name ∧ '\n' ∉ p.name := by decide

end Rez.Props
