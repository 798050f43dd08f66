import Verif.Spec.PackageQuery
import Verif.Props.Repository
import Verif.Props.Search
import Verif.Props.Diff
import Verif.Props.Rex
import Verif.Lemmas.RequirementParse
/-!
# C206–C210: packages by name, text and URI
-/
namespace Rez.Props
open Rez Rez.PackageQuery Rez.PackageOrder Rez.Repository Rez.Spec Rez.Spec.Repository Rez.Spec.PackageQuery Rez.Spec.Search

namespace PackageQueryLemmas
open RepositoryLemmas SearchLemmas

theorem expandHome_eq (w : World) (p : Str) : expandHome w p = atHome w.home p := by
  unfold expandHome atHome
  cases w.home with
  | none => simp
  | some h =>
    match p with
    | [] => rfl
    | [a] =>
      by_cases ha : a = '~'
      · subst ha; simp
      · have : (c!"~/").isPrefixOf [a] = false := by simp [List.isPrefixOf]
        rw [this]
        simp [ha]
    | a :: b :: rest =>
      by_cases ha : a = '~'
      · subst ha
        by_cases hb : b = '/'
        · subst hb; simp [List.isPrefixOf]
        · have : (c!"~/").isPrefixOf ('~' :: b :: rest) = false := by
            simp [List.isPrefixOf, Ne.symm hb]
          rw [this]
          simp [hb]
      · have : (c!"~/").isPrefixOf (a :: b :: rest) = false := by
          simp [List.isPrefixOf, Ne.symm ha]
        rw [this]
        simp [ha]

theorem repoPaths_eq (w : World) (paths : Option (List Str)) : repoPaths w paths = searched w paths := by
  cases paths with
  | some l => rfl
  | none =>
    show w.packagesPath.map (expandHome w) = w.packagesPath.map (atHome w.home)
    exact List.map_congr_left fun p _ => expandHome_eq w p

/-- Repositories that can be read and have seen nothing else. -/
def Good (repos : List Repo) : Prop := ∀ r ∈ repos, Sound r.1 ∧ (r.2 = State.new ∨ r.2 = (scan r.1).1)

theorem Good.upToDate {repos : List Repo} (h : Good repos) (srt : Sorting) :
    ∀ r ∈ repos, Sound r.1 ∧ UpToDate srt r.1 r.2 := by
  intro r hr
  refine ⟨(h r hr).1, ?_⟩
  rcases (h r hr).2 with hs | hs
  · exact ⟨[], hs⟩
  · exact ⟨[.scan], hs⟩

/-- The packages of a family in repositories. -/
def offered (roots : List Root) (name : Str) : List Package := roots.flatMap fun r => ofFamily r name

theorem offered_repos (repos : List Repo) (name : Str) :
    (repos.flatMap fun r => ofFamily r.1 name) = offered (repos.map Prod.fst) name := by
  unfold offered
  rw [List.flatMap_map]

theorem manager_good {w : World} {paths : Option (List Str)} (h : Readable w paths) : Good (manager w paths) := by
  intro r hr
  unfold manager at hr
  rw [repoPaths_eq] at hr
  obtain ⟨d, hd, he⟩ := List.mem_filterMap.mp hr
  cases hw : w.dir d with
  | none => rw [hw] at he; cases he
  | some root =>
    rw [hw] at he
    cases he
    exact ⟨h d hd root hw, Or.inl rfl⟩

theorem manager_offered (w : World) (paths : Option (List Str)) (name : Str) :
    offered ((manager w paths).map Prod.fst) name = available w paths name := by
  unfold manager available offered
  rw [repoPaths_eq]
  induction searched w paths with
  | nil => rfl
  | cons d ds ih =>
    rw [List.filterMap_cons, List.flatMap_cons, ← ih]
    cases w.dir d with
    | none => simp
    | some root => simp

theorem findEach_good {repos : List Repo} (h : Good repos) (name : Str) :
    ∃ repos', findEach repos name = (repos', .ok (offered (repos.map Prod.fst) name)) ∧
      repos'.map Prod.fst = repos.map Prod.fst ∧ Good repos' := by
  induction repos with
  | nil => exact ⟨[], rfl, rfl, h⟩
  | cons r rest ih =>
    obtain ⟨root, s⟩ := r
    have hr := h (root, s) List.mem_cons_self
    obtain ⟨rest', he, hm, hg⟩ := ih fun r hr => h r (List.mem_cons_of_mem _ hr)
    have hf := find_sound hr.1 hr.2 name
    have hst : (find root s name).1 = State.new ∨ (find root s name).1 = (scan root).1 := by
      rcases find_state root s name with hx | hx
      · rw [hx]; exact hr.2
      · exact Or.inr hx
    rw [findEach]
    cases hx : find root s name with
    | mk s' x =>
      rw [hx] at hf hst
      simp only at hf hst
      subst hf
      simp only [he]
      refine ⟨(root, s') :: rest', rfl, by simp [hm], ?_⟩
      intro r hr'
      rcases List.mem_cons.mp hr' with rfl | hr'
      · exact ⟨hr.1, hst⟩
      · exact hg r hr'

theorem managerFind_good {srt : Sorting} (hs : SortingOk srt) {repos : List Repo} (h : Good repos) (name : Str)
    (hc : Comparable (offered (repos.map Prod.fst) name)) :
    ∃ repos' l, managerFind srt repos name = (repos', .ok l) ∧ l.Perm (offered (repos.map Prod.fst) name) ∧
      InDirection true l ∧ repos'.map Prod.fst = repos.map Prod.fst ∧ Good repos' := by
  rw [← offered_repos] at hc ⊢
  obtain ⟨l, hl, hp, hd⟩ := C67_find hs repos (h.upToDate srt) name hc
  obtain ⟨repos', he, hm, hg⟩ := findEach_good h name
  refine ⟨repos', l, ?_, hp, hd, hm, hg⟩
  unfold managerFind at hl ⊢
  rw [he] at hl ⊢
  simp only at hl ⊢
  rw [hl]

theorem familyOf_ok {w : World} (hs : SortingOk w.srt) {paths : Option (List Str)} (hr : Readable w paths) (name : Str)
    (hc : Comparable (available w paths name)) :
    ∃ l, familyOf w paths name = .ok l ∧ l.Perm (available w paths name) ∧ InDirection true l := by
  rw [← manager_offered] at hc ⊢
  obtain ⟨_, l, hl, hp, hd, _⟩ := managerFind_good hs (manager_good hr) name hc
  exact ⟨l, by unfold familyOf; rw [hl], hp, hd⟩

theorem inRange_iff (range : Option Str) (p : Package) : inRange range p = true ↔ Within range p := by
  unfold inRange Within
  cases range with
  | none => simp
  | some t =>
    cases hv : p.version with
    | none => simp
    | some v =>
      constructor
      · intro h t' v' r' h1 h2 h3
        cases h1; cases h2
        simp only [h3] at h
        exact h
      · intro h
        simp only
        cases hp : VersionRange.parse t with
        | none => rfl
        | some r => exact h t v r rfl rfl hp

/-- What is in order for `find_packages` is in order for the functions that sort again. -/
theorem down_of_direction {l : List Package} (h : InDirection true l) :
    l.Pairwise fun x y => downCmp x y ≠ .gt ∧ downCmp y x ≠ .lt := by
  refine h.imp ?_
  rintro a b ⟨_, h2⟩
  unfold downCmp
  cases ha : a.version with
  | none => simp
  | some u =>
    cases hb : b.version with
    | none => simp
    | some v =>
      have := h2 u v ha hb
      simp only [if_true] at this
      have hsw := Version.cmp_swap u v
      refine ⟨?_, this⟩
      simp only
      intro hgt
      rw [hgt] at hsw
      cases hc : u.cmp v <;> rw [hc] at hsw this <;> simp_all [Ordering.swap]

theorem top_of_head {l ps : List Package} (hp : l.Perm ps) (hd : InDirection true l) (ok : Package → Prop) (P : Package → Bool)
    (hP : ∀ p, P p = true ↔ ok p) :
    (∀ p, (l.filter P).head? = some p → Top p ps ok) ∧ ((l.filter P).head? = none ↔ ∀ q ∈ ps, ¬ ok q) := by
  constructor
  · intro p h
    cases hf : l.filter P with
    | nil => rw [hf] at h; cases h
    | cons a rest =>
      rw [hf] at h
      cases h
      have hda : InDirection true (p :: rest) := by
        rw [← hf]
        exact List.Pairwise.sublist List.filter_sublist hd
      have hh := inDirection_head hda
      have hmem : p ∈ l.filter P := by rw [hf]; exact List.mem_cons_self
      obtain ⟨h1, h2⟩ := List.mem_filter.mp hmem
      refine ⟨⟨hp.mem_iff.mp h1, (hP p).mp h2⟩, fun q hq hok => ?_⟩
      have : q ∈ p :: rest := by
        rw [← hf]
        exact List.mem_filter.mpr ⟨hp.mem_iff.mpr hq, (hP q).mpr hok⟩
      exact hh.2 q this
  · rw [List.head?_eq_none_iff, List.filter_eq_nil_iff]
    constructor
    · intro h q hq hok
      exact h q (hp.mem_iff.mpr hq) ((hP q).mpr hok)
    · intro h q hq hPq
      exact h q (hp.mem_iff.mp hq) ((hP q).mp hPq)

end PackageQueryLemmas

open PackageQueryLemmas

/-! ## C206: one package -/

/-- C206: `get_latest_package` gives a package of the family within the range, in any of the paths, that none other is above. -/
theorem C206_latest {w : World} (hs : SortingOk w.srt) (hk : Keeps w.srt) (name : Str) (range : Option Str)
    (paths : Option (List Str)) (hr : Readable w paths) (hc : Comparable (available w paths name)) :
    ∃ r, getLatest w name range paths = .ok r ∧ (∀ p, r = some p → Top p (available w paths name) (Within range)) ∧
      (r = none ↔ ∀ q ∈ available w paths name, ¬ Within range q) := by
  obtain ⟨l, hl, hp, hd⟩ := familyOf_ok hs hr name hc
  have hsort := hk downCmp (l.filter (inRange range)) (List.Pairwise.sublist List.filter_sublist (down_of_direction hd))
  refine ⟨(l.filter (inRange range)).head?, ?_, top_of_head hp hd _ _ (inRange_iff range)⟩
  unfold getLatest
  rw [hl]
  simp only [hsort]

/-- C206: `get_package` without a version gives a package that none is above; with a version, one whose version is written so, if
there is any. -/
theorem C206_get {w : World} (hs : SortingOk w.srt) (name : Str) (paths : Option (List Str)) (hr : Readable w paths)
    (hc : Comparable (available w paths name)) :
    (∃ r, getPackage w name none paths = .ok r ∧ (∀ p, r = some p → Top p (available w paths name) fun _ => True) ∧
      (r = none ↔ available w paths name = [])) ∧
    ∀ text, ∃ r, getPackage w name (some text) paths = .ok r ∧
      (∀ p, r = some p → p ∈ available w paths name ∧ Written p text) ∧
      (r = none ↔ ∀ q ∈ available w paths name, ¬ Written q text) := by
  obtain ⟨l, hl, hp, hd⟩ := familyOf_ok hs hr name hc
  constructor
  · refine ⟨l.head?, ?_, ?_, ?_⟩
    · unfold getPackage
      rw [hl]
      cases l with
      | nil => rfl
      | cons a l => simp
    · intro p h
      have := (top_of_head hp hd (fun _ => True) (fun _ => true) (by simp)).1 p
      rw [List.filter_true] at this
      exact this h
    · rw [List.head?_eq_none_iff]
      constructor
      · intro h; rw [h] at hp; exact hp.symm.eq_nil
      · intro h; rw [h] at hp; exact hp.eq_nil
  · intro text
    have hw : ∀ p : Package, (match p.version with | some v => v.asStr == text | none => false) = true ↔ Written p text := by
      intro p
      unfold Written
      cases p.version with
      | none => simp
      | some v => simp [Version.asStr]
    refine ⟨l.find? fun p => match p.version with | some v => v.asStr == text | none => false, ?_, ?_, ?_⟩
    · unfold getPackage
      rw [hl]
      rfl
    · intro p h
      exact ⟨hp.mem_iff.mp (List.mem_of_find?_eq_some h), (hw p).mp (List.find?_some (p := fun p : Package =>
        match p.version with | some v => v.asStr == text | none => false) h)⟩
    · rw [List.find?_eq_none]
      constructor
      · intro h q hq hqw
        exact h q (hp.mem_iff.mpr hq) ((hw q).mpr hqw)
      · intro h q hq hqw
        exact h q (hp.mem_iff.mp hq) ((hw q).mp hqw)

/-- C206 is false of ranges that cannot be read: they are passed over. -/
theorem C206_range_false (w : World) (name text : Str) (paths : Option (List Str)) (h : VersionRange.parse text = none) :
    getLatest w name (some text) paths = getLatest w name none paths := by
  have : inRange (some text) = inRange none := by
    funext p
    unfold inRange
    cases p.version with
    | none => rfl
    | some v => simp [h]
  unfold getLatest
  rw [this]

namespace PackageQueryLemmas

theorem demoKeeps : Keeps demoSorting := by
  intro c l h
  show Outcome.ok (sortBy c l) = .ok l
  congr 1
  induction l with
  | nil => rfl
  | cons x l ih =>
    obtain ⟨h1, h2⟩ := List.pairwise_cons.mp h
    show insertBy c x (sortBy c l) = x :: l
    rw [ih h2]
    cases l with
    | nil => rfl
    | cons y l => rw [insertBy, if_neg (h1 y List.mem_cons_self).1]

theorem comparable_of {ps : List Package} (h : (ps.all fun p => ps.all fun q => ps.all fun r =>
    match p.version, q.version, r.version with
    | some u, some v, some w => decide (u.cmp v ≠ .gt → v.cmp w ≠ .gt → u.cmp w ≠ .gt)
    | _, _, _ => true) = true) : Comparable ps := by
  intro p hp q hq r hr u v w hu hv hw
  have := List.all_eq_true.mp (List.all_eq_true.mp (List.all_eq_true.mp h p hp) q hq) r hr
  rw [hu, hv, hw] at this
  exact of_decide_eq_true this

end PackageQueryLemmas

/-- A machine with directories of packages. -/
def queryWorld (dirs : List (Str × Root)) : World where
  srt := demoSorting
  packagesPath := [c!"~/packages", c!"/site"]
  home := some c!"/home/me"
  dir := mget dirs
  isFile := fun _ => false
  isDir := fun _ => false
  exists_ := fun _ => false
  load := fun _ => none
  listing := fun _ => none
  lower := fun s => s.map lowerChar

/-- Two repositories of the configuration, one of them in the home directory, with versions of a package in both. -/
def twoSites : World := queryWorld [(c!"/home/me/packages", demoRoot c!"a" [c!"10", c!"9"]), (c!"/site", demoRoot c!"a" [c!"1.0", c!"11"])]

example : SortingOk twoSites.srt ∧ Keeps twoSites.srt := ⟨demoSorting_ok, demoKeeps⟩

theorem twoSites_readable : Readable twoSites none := by
  intro d hd root hroot
  have : d = c!"/home/me/packages" ∨ d = c!"/site" := by simpa [searched, twoSites, queryWorld, atHome] using hd
  rcases this with rfl | rfl
  · cases hroot; exact ⟨_, rfl, by simp [CleanBelow, Clean]⟩
  · cases hroot; exact ⟨_, rfl, by simp [CleanBelow, Clean]⟩

example : Comparable (available twoSites none c!"a") ∧ (available twoSites none c!"a").length = 4 :=
  ⟨comparable_of (by decide +kernel), by decide +kernel⟩

example : getLatest twoSites c!"a" none none = .ok (some (pk c!"a" (some c!"11") none)) ∧
    getLatest twoSites c!"a" (some c!"<11") none = .ok (some (pk c!"a" (some c!"10") none)) ∧
    getPackage twoSites c!"a" (some c!"1.0") none = .ok (some (pk c!"a" (some c!"1.0") none)) := by decide +kernel

/-- C206 is false of ranges and packages without a version: such a package is within every range. -/
theorem C206_versionless_false :
    let w := queryWorld [(c!"/site", some [(c!"a", .package (.ok ⟨c!"a", none, [], [], [], none⟩))])]
    getLatest w c!"a" (some c!">=5") none = .ok (some ⟨c!"a", none, [], [], [], none⟩) := by
  intro w
  decide +kernel

/-- C206 is false of equal versions: 1.0 is there, `1-0` is the same version, and is not found. -/
theorem C206_equal_false : (∃ u v, Version.parse c!"1.0" = some u ∧ Version.parse c!"1-0" = some v ∧ u.cmp v = .eq) ∧
    getPackage twoSites c!"a" (some c!"1-0") none = .ok none := by
  refine ⟨⟨_, _, rfl, rfl, by decide +kernel⟩, by decide +kernel⟩

/-! ## C207: families -/

namespace PackageQueryLemmas
open RepositoryLemmas SearchLemmas

theorem upCmp_eq {a b : Package} (ha : a.version ≠ none) (hb : b.version ≠ none) : upCmp a b = sortedCmp false a b := by
  unfold upCmp sortedCmp
  cases h1 : a.version with
  | none => exact absurd h1 ha
  | some u =>
    cases h2 : b.version with
    | none => exact absurd h2 hb
    | some v => rfl

theorem listEach_good {repos : List Repo} (h : Good repos) :
    ∃ repos' ns, listEach repos = (repos', .ok ns) ∧ (∀ n, n ∈ ns ↔ offered (repos.map Prod.fst) n ≠ []) ∧
      repos'.map Prod.fst = repos.map Prod.fst ∧ Good repos' := by
  induction repos with
  | nil => exact ⟨[], [], rfl, fun n => by simp [offered], rfl, h⟩
  | cons r rest ih =>
    obtain ⟨root, s⟩ := r
    have hr := h (root, s) List.mem_cons_self
    obtain ⟨rest', ns, he, hn, hm, hg⟩ := ih fun r hr => h r (List.mem_cons_of_mem _ hr)
    obtain ⟨t, ht, _, hc⟩ := scan_sound hr.1
    have hl : list Search.sortStr root s = (t, .ok (Search.sortStr (mkeys t.cache))) := by
      unfold Repository.list
      rw [ht]
    refine ⟨(root, t) :: rest', Search.sortStr (mkeys t.cache) ++ ns, ?_, ?_, by simp [hm], ?_⟩
    · rw [listEach, hl]
      simp only [he]
    · intro n
      rw [List.mem_append, (sortStr_perm _).mem_iff, hn, ← mget_isSome_iff, hc n]
      show _ ↔ ofFamily root n ++ offered (rest.map Prod.fst) n ≠ []
      by_cases ho : ofFamily root n = []
      · simp [ho]
      · simp [ho]
    · intro r hr'
      rcases List.mem_cons.mp hr' with rfl | hr'
      · refine ⟨hr.1, Or.inr ?_⟩
        rw [ht]
      · exact hg r hr'

theorem managerList_good {repos : List Repo} (h : Good repos) :
    ∃ repos' ns, managerList repos = (repos', .ok ns) ∧ Ascending ns ∧ (∀ n, n ∈ ns ↔ offered (repos.map Prod.fst) n ≠ []) ∧
      repos'.map Prod.fst = repos.map Prod.fst ∧ Good repos' := by
  obtain ⟨repos', ns, he, hn, hm, hg⟩ := listEach_good h
  obtain ⟨h1, h2⟩ := dedup_spec (Search.sortStr ns) (sortStr_sorted ns)
  refine ⟨repos', _, by unfold managerList; rw [he], h1, fun n => ?_, hm, hg⟩
  rw [h2, (sortStr_perm ns).mem_iff, hn]

theorem findAll_good {srt : Sorting} (hs : SortingOk srt) (ns : List Str) {repos : List Repo} (h : Good repos)
    (hc : ∀ n, Comparable (offered (repos.map Prod.fst) n)) :
    ∃ l, findAll srt repos ns = .ok l ∧ l.map Prod.fst = ns ∧
      ∀ f ∈ l, f.2.Perm (offered (repos.map Prod.fst) f.1) ∧ InDirection true f.2 := by
  induction ns generalizing repos with
  | nil => exact ⟨[], rfl, rfl, by simp⟩
  | cons n ns ih =>
    obtain ⟨repos', ps, hf, hp, hd, hm, hg⟩ := managerFind_good hs h n (hc n)
    obtain ⟨l, hl, hk, hi⟩ := ih hg (by rw [hm]; exact hc)
    refine ⟨(n, ps) :: l, ?_, by simp [hk], ?_⟩
    · rw [findAll, hf]
      simp only [hl]
    · intro f hf'
      rcases List.mem_cons.mp hf' with rfl | hf'
      · exact ⟨hp, hd⟩
      · rw [← hm]; exact hi f hf'

end PackageQueryLemmas

/-- C207: `iter_packages` gives the packages within the range, each as often as it is there, lowest version first. -/
theorem C207_iter {w : World} (hs : SortingOk w.srt) (name : Str) (range : Option Str) (paths : Option (List Str))
    (hr : Readable w paths) (hc : Comparable (available w paths name))
    (hv : ∀ p ∈ available w paths name, p.version ≠ none) (P : Package → Bool) (hP : ∀ p, P p = true ↔ Within range p) :
    ∃ l, iterPackages w name range paths = .ok l ∧ l.Perm ((available w paths name).filter P) ∧ InDirection false l := by
  obtain ⟨l, hl, hp, hd⟩ := familyOf_ok hs hr name hc
  have hPe : P = inRange range := by
    funext p
    have := (hP p).trans (inRange_iff range p).symm
    cases h1 : P p <;> cases h2 : inRange range p <;> simp_all
  subst hPe
  have hsub : ∀ q ∈ l.filter (inRange range), q ∈ available w paths name := fun q hq =>
    hp.mem_iff.mp (List.mem_filter.mp hq).1
  have hcon := sortedCmp_consistent false (comparable_sub hc hsub)
  have hcon' : Consistent upCmp (l.filter (inRange range)) := by
    refine ⟨fun x hx y hy => ?_, fun x hx y hy z hz => ?_⟩
    · rw [upCmp_eq (hv x (hsub x hx)) (hv y (hsub y hy)), upCmp_eq (hv y (hsub y hy)) (hv x (hsub x hx))]
      exact hcon.1 x hx y hy
    · rw [upCmp_eq (hv x (hsub x hx)) (hv y (hsub y hy)), upCmp_eq (hv y (hsub y hy)) (hv z (hsub z hz)),
        upCmp_eq (hv x (hsub x hx)) (hv z (hsub z hz))]
      exact hcon.2 x hx y hy z hz
  obtain ⟨r, hr', hsorted⟩ := hs.sorted _ _ hcon'
  have hperm := hs.perm _ _ _ hr'
  refine ⟨r, ?_, hperm.trans (hp.filter _), ?_⟩
  · unfold iterPackages
    rw [hl]
    exact hr'
  · have hmem : ∀ q ∈ r, q.version ≠ none := fun q hq => hv q (hsub q (hperm.mem_iff.mp hq))
    refine (List.Pairwise.imp_of_mem ?_ hsorted)
    intro a b ha hb hab
    refine ⟨fun h => absurd h (hmem a ha), fun u v hu hv' => ?_⟩
    unfold upCmp at hab
    rw [hu, hv'] at hab
    simpa using hab

/-- C207: `get_package_family_names` gives the names of all families that have a package, each once, in order. -/
theorem C207_names (w : World) (paths : Option (List Str)) (hr : Readable w paths) :
    ∃ l, familyNames w paths = .ok l ∧ Ascending l ∧ ∀ n, n ∈ l ↔ available w paths n ≠ [] := by
  obtain ⟨_, ns, he, ha, hn, _⟩ := managerList_good (manager_good hr)
  refine ⟨ns, by unfold familyNames; rw [he], ha, fun n => ?_⟩
  rw [hn, manager_offered]

/-- C207: `iter_package_families` gives the same families, in order, each with all its packages, highest version first. -/
theorem C207_families {w : World} (hs : SortingOk w.srt) (paths : Option (List Str)) (hr : Readable w paths)
    (hc : ∀ n, Comparable (available w paths n)) :
    ∃ l, allFamilies w paths = .ok l ∧ familyNames w paths = .ok (l.map Prod.fst) ∧
      ∀ f ∈ l, f.2.Perm (available w paths f.1) ∧ InDirection true f.2 := by
  obtain ⟨repos', ns, he, ha, hn, hm, hg⟩ := managerList_good (manager_good hr)
  obtain ⟨l, hl, hk, hi⟩ := findAll_good hs ns hg (by rw [hm]; intro n; rw [manager_offered]; exact hc n)
  refine ⟨l, ?_, ?_, ?_⟩
  · unfold allFamilies
    rw [he]
    exact hl
  · unfold familyNames
    rw [he, hk]
  · intro f hf
    have := hi f hf
    rw [hm, manager_offered] at this
    exact this

/-- C207: `walk_packages` gives the same families, in order, each with the versions of all its packages, as texts and in the order of
texts; a package without version counts as `unknown`. -/
theorem C207_walk {w : World} (hs : SortingOk w.srt) (paths : Option (List Str)) (hr : Readable w paths)
    (hc : ∀ n, Comparable (available w paths n)) :
    ∃ l, walk w paths = .ok l ∧ familyNames w paths = .ok (l.map Prod.fst) ∧
      ∀ f ∈ l, f.2.Perm ((available w paths f.1).map fun p => (p.version.map Version.repr).getD c!"unknown") ∧
        f.2.Pairwise fun a b => cmpStr a b ≠ .gt := by
  obtain ⟨l, hl, hn, hi⟩ := C207_families hs paths hr hc
  refine ⟨l.map fun f => (f.1, Search.sortStr (f.2.map versionShown)), ?_, ?_, ?_⟩
  · unfold walk
    rw [hl]
  · rw [hn, List.map_map]; rfl
  · intro f hf
    obtain ⟨g, hg, rfl⟩ := List.mem_map.mp hf
    refine ⟨(SearchLemmas.sortStr_perm _).trans ?_, SearchLemmas.sortStr_sorted _⟩
    have : versionShown = fun p : Package => (p.version.map Version.repr).getD c!"unknown" := by
      funext p
      unfold versionShown
      cases p.version <;> rfl
    rw [this]
    exact (hi g hg).1.map _

example : ∀ p ∈ available twoSites none c!"a", p.version ≠ none := by decide +kernel

example : iterPackages twoSites c!"a" (some c!"<11") none =
    .ok [pk c!"a" (some c!"1.0") none, pk c!"a" (some c!"9") none, pk c!"a" (some c!"10") none] := by decide +kernel

/-- C207 is false of the order of versions in `walk_packages`: 9 comes last. -/
theorem C207_order_false : walk twoSites none = .ok [(c!"a", [c!"1.0", c!"10", c!"11", c!"9"])] := by decide +kernel

/-- C207 is false of broken packages: the family is listed and walked without the broken one, and asking for it fails. -/
theorem C207_broken_false :
    let w := queryWorld [(c!"/site", some [(c!"a", .folder true [(c!"1", .package (.ok (pk c!"a" (some c!"1") none))),
      (c!"2", .package (.error c!"syntax"))])])]
    familyNames w none = .ok [c!"a"] ∧ walk w none = .ok [(c!"a", [c!"1"])] ∧ getLatest w c!"a" none none = .err ∧
    getPackage w c!"a" (some c!"1") none = .err ∧ iterPackages w c!"a" none none = .err := by
  intro w
  decide +kernel

/-- C207: when a directory that is searched cannot be read, all that lists the families fails. -/
theorem C207_unreadable (w : World) (paths : Option (List Str)) (d pre : Str) (hd : d ∈ searched w paths) (h : w.dir d = some none) :
    familyNames w paths = .err ∧ allFamilies w paths = .err ∧ walk w paths = .err ∧ completions w pre paths = .err := by
  have hm : ∃ s, (none, s) ∈ manager w paths := by
    refine ⟨State.new, List.mem_filterMap.mpr ⟨d, by rw [repoPaths_eq]; exact hd, by rw [h]; rfl⟩⟩
  have hlist : ∀ repos : List Repo, (∃ s, (none, s) ∈ repos) → (listEach repos).2 = .err := by
    intro repos
    induction repos with
    | nil => rintro ⟨s, hs⟩; cases hs
    | cons r rest ih =>
      obtain ⟨root, s⟩ := r
      rintro ⟨s', hs'⟩
      rcases List.mem_cons.mp hs' with he | hin
      · cases he; rfl
      · have hrest := ih ⟨s', hin⟩
        rcases hl : listEach rest with ⟨rest', o⟩
        rw [hl] at hrest
        simp only at hrest
        subst hrest
        unfold listEach list
        rcases scan root with ⟨t, b⟩
        cases b <;> simp [hl]
  have hman : (managerList (manager w paths)).2 = .err := by
    have := hlist _ hm
    rcases hl : listEach (manager w paths) with ⟨rest', o⟩
    rw [hl] at this
    simp only at this
    subst this
    simp [managerList, hl]
  have hall : allFamilies w paths = .err := by
    unfold allFamilies
    rcases hl : managerList (manager w paths) with ⟨rest', o⟩
    rw [hl] at hman
    simp only at hman
    subst hman
    rfl
  refine ⟨hman, hall, by simp [walk, hall], ?_⟩
  have : familyNames w paths = .err := hman
  simp [completions, this]

/-- C207: when asking for any package of a family fails, so do asking for the latest, for all, and for the time of the last release. -/
theorem C207_fails (w : World) (name : Str) (range : Option Str) (paths : Option (List Str)) (h : getPackage w name none paths = .err) :
    getLatest w name range paths = .err ∧ iterPackages w name range paths = .err ∧ lastRelease w name paths = .err := by
  have hf : familyOf w paths name = .err := by
    unfold getPackage at h
    cases hf : familyOf w paths name <;> simp_all
  unfold getLatest iterPackages lastRelease
  rw [hf]
  exact ⟨rfl, rfl, rfl⟩

/-- Such a family, and such a directory. -/
example :
    let w := queryWorld [(c!"/site", some [(c!"a", .folder true [(c!"1", .package (.ok (pk c!"a" (some c!"1") none))),
      (c!"2", .package (.error c!"syntax"))])]), (c!"/home/me/packages", none)]
    getPackage w c!"a" none (some [c!"/site"]) = .err ∧ c!"/home/me/packages" ∈ searched w none ∧
      w.dir c!"/home/me/packages" = some none := by
  intro w
  exact ⟨by decide +kernel, by decide +kernel, rfl⟩

/-! ## C208: packages as texts -/

/-- C208: a name and a version written with a hyphen between them are read back, whatever is in the name, when there is no hyphen in the
version; a text without hyphen is a name. -/
theorem C208_text (name text : Str) (h : '-' ∉ text) :
    fromString (name ++ '-' :: text) = (name, Version.parse text) ∧ fromString text = (text, none) := by
  unfold fromString
  rw [rsplitOnce_append name h, rsplitOnce_absent h]
  exact ⟨rfl, rfl⟩

/-- C208: a request is the latest package of the name within the text after the last hyphen; without hyphen, or with nothing after it,
the latest of all. -/
theorem C208_request (w : World) (name text : Str) (paths : Option (List Str)) (h : '-' ∉ text) :
    (text ≠ [] → latestFromString w (name ++ '-' :: text) paths = getLatest w name (some text) paths) ∧
    latestFromString w (name ++ c!"-") paths = getLatest w name none paths ∧
    latestFromString w text paths = getLatest w text none paths := by
  unfold latestFromString
  rw [rsplitOnce_append name h, rsplitOnce_absent h, show c!"-" = '-' :: [] from rfl, rsplitOnce_append name (by simp)]
  refine ⟨fun hne => ?_, rfl, rfl⟩
  cases text with
  | nil => exact absurd rfl hne
  | cons a t => rfl

/-- C208: `get_completions` gives the names of the families that begin with the text, but for case, each once, in order. -/
theorem C208_completions (w : World) (pre : Str) (paths : Option (List Str)) (hr : Readable w paths) :
    ∃ l, completions w pre paths = .ok l ∧ Ascending l ∧
      ∀ n, n ∈ l ↔ available w paths n ≠ [] ∧ ∃ rest, w.lower n = w.lower pre ++ rest := by
  obtain ⟨l, hl, ha, hn⟩ := C207_names w paths hr
  refine ⟨Search.sortStr (l.filter fun n => (w.lower pre).isPrefixOf (w.lower n)), by unfold completions; rw [hl], ?_, ?_⟩
  · refine SearchLemmas.ascending_of (SearchLemmas.sortStr_sorted _) ?_
    rw [(SearchLemmas.sortStr_perm _).nodup_iff]
    refine List.Nodup.filter _ ?_
    refine ha.imp ?_
    intro a b hab he
    subst he
    rw [(cmpStr_eq_iff a a).mpr rfl] at hab
    cases hab
  · intro n
    rw [(SearchLemmas.sortStr_perm _).mem_iff, List.mem_filter, hn, List.isPrefixOf_iff_prefix]
    constructor
    · rintro ⟨h1, rest, h2⟩
      exact ⟨h1, rest, h2.symm⟩
    · rintro ⟨h1, rest, h2⟩
      exact ⟨h1, rest, h2.symm⟩

namespace PackageQueryLemmas

theorem maxOf_spec (ts : List Int) : (∀ m, maxOf ts = some m → m ∈ ts ∧ ∀ t ∈ ts, t ≤ m) ∧ (maxOf ts = none ↔ ts = []) := by
  induction ts with
  | nil => exact ⟨fun m h => (nomatch h), by simp [maxOf]⟩
  | cons t ts ih =>
    rw [maxOf]
    cases hm : maxOf ts with
    | none =>
      have := ih.2.mp hm
      subst this
      refine ⟨?_, by simp⟩
      intro m h
      cases h
      simp
    | some k =>
      refine ⟨?_, by simp⟩
      intro m h
      obtain ⟨h1, h2⟩ := ih.1 k hm
      simp only [Option.some.injEq] at h
      by_cases hgt : t > k
      · rw [if_pos hgt] at h
        subst h
        refine ⟨List.mem_cons_self, fun x hx => ?_⟩
        rcases List.mem_cons.mp hx with rfl | hx
        · exact le_refl _
        · exact le_of_lt (lt_of_le_of_lt (h2 x hx) hgt)
      · rw [if_neg hgt] at h
        subst h
        refine ⟨List.mem_cons_of_mem _ h1, fun x hx => ?_⟩
        rcases List.mem_cons.mp hx with rfl | hx
        · exact not_lt.mp hgt
        · exact h2 x hx

end PackageQueryLemmas

/-- C208: `get_last_release_time` gives the time of the newest package of the family that has a time. -/
theorem C208_released {w : World} (hs : SortingOk w.srt) (name : Str) (paths : Option (List Str)) (hr : Readable w paths)
    (hc : Comparable (available w paths name)) :
    ∃ r, lastRelease w name paths = .ok r ∧
      (∀ t, r = some t → (∃ p ∈ available w paths name, p.timestamp = some t) ∧
        ∀ q ∈ available w paths name, ∀ u, q.timestamp = some u → u ≤ t) ∧
      (r = none ↔ ∀ q ∈ available w paths name, q.timestamp = none) := by
  obtain ⟨l, hl, hp, _⟩ := familyOf_ok hs hr name hc
  obtain ⟨h1, h2⟩ := maxOf_spec (l.filterMap Package.timestamp)
  refine ⟨_, by unfold lastRelease; rw [hl], ?_, ?_⟩
  · intro t ht
    obtain ⟨h3, h4⟩ := h1 t ht
    obtain ⟨p, hpm, hpt⟩ := List.mem_filterMap.mp h3
    exact ⟨⟨p, hp.mem_iff.mp hpm, hpt⟩, fun q hq u hu => h4 u (List.mem_filterMap.mpr ⟨q, hp.mem_iff.mpr hq, hu⟩)⟩
  · rw [h2, List.filterMap_eq_nil_iff]
    exact ⟨fun h q hq => h q (hp.mem_iff.mpr hq), fun h q hq => h q (hp.mem_iff.mp hq)⟩

/-- C208: `get_developer_package` gives what `package.py` of the directory holds and nothing without directory or file. -/
theorem C208_developer (w : World) (path : Str) (p : Package) (h : path ≠ [] ∧ path.getLast? ≠ some '/') :
    developer w path = some p ↔
      w.isDir path = true ∧ w.exists_ (path ++ c!"/package.py") = true ∧ w.load (path ++ c!"/package.py") = some p := by
  have hj : join path c!"package.py" = path ++ c!"/package.py" := by
    unfold join
    cases path with
    | nil => exact absurd rfl h.1
    | cons a l =>
      rw [if_neg (by decide), if_neg]
      simpa using h.2
  unfold developer
  rw [hj]
  cases hd : w.isDir path <;> cases he : w.exists_ (path ++ c!"/package.py") <;> simp

example : fromString c!"my-tool-1.2" = (c!"my-tool", Version.parse c!"1.2") ∧ (Version.parse c!"1.2").isSome = true := by decide +kernel

/-- C208 is false of names with a hyphen that stand alone: the last part of the name is taken for the version; and a version that cannot
be read is dropped. -/
theorem C208_hyphen_false : (∃ v, fromString c!"my-tool" = (c!"my", some v) ∧ v.repr = c!"tool") ∧
    fromString c!"a-1..2" = (c!"a", none) := by
  exact ⟨⟨_, rfl, by decide +kernel⟩, by decide +kernel⟩

/-- C208 is false of requests in the sense of rez: 3.9 is only the version 3.9, not the versions that begin so. -/
theorem C208_request_false :
    let w := queryWorld [(c!"/site", demoRoot c!"python" [c!"3.9.1", c!"3.10"])]
    latestFromString w c!"python-3.9" none = .ok none := by
  intro w
  decide +kernel

example : completions twoSites c!"A" none = .ok [c!"a"] ∧ completions twoSites c!"b" none = .ok [] := by decide +kernel

/-! ## C209: copying and moving -/

/-- C209: a version that is given is taken as it is; otherwise the version of a package that none is above, or an error when there is
no package or none with a version. -/
theorem C209_version {w : World} (hs : SortingOk w.srt) (hk : Keeps w.srt) (name : Str) (paths : Option (List Str))
    (hr : Readable w paths) (hc : Comparable (available w paths name)) :
    (∀ text, chosen w name (some text) paths = .ok (searchPaths w paths, text)) ∧
    (∀ dirs text, chosen w name none paths = .ok (dirs, text) → dirs = searchPaths w paths ∧
      ∃ p, Top p (available w paths name) (fun _ => True) ∧ Written p text) ∧
    (chosen w name none paths = .err ↔ ∀ q ∈ available w paths name, q.version = none) ∧
    chosen w name none paths ≠ .panic := by
  obtain ⟨l, hl, hp, hd⟩ := familyOf_ok hs hr name hc
  have hsort := hk downCmp l (down_of_direction hd)
  have htop := top_of_head hp hd (fun _ => True) (fun _ => true) (by simp)
  rw [List.filter_true] at htop
  have hv : latestVersion w name paths = match l.head?.bind Package.version with | some v => .ok v.repr | none => .err := by
    unfold latestVersion
    rw [hl]
    cases l with
    | nil => rfl
    | cons a l =>
      simp only [hsort, List.isEmpty_cons, Bool.false_eq_true, if_false]
      rfl
  refine ⟨fun _ => rfl, ?_, ?_, ?_⟩
  · intro dirs text h
    unfold chosen at h
    rw [hv] at h
    cases hb : l.head?.bind Package.version with
    | none => rw [hb] at h; cases h
    | some v =>
      rw [hb] at h
      cases h
      obtain ⟨p, h1, h2⟩ := Option.bind_eq_some_iff.mp hb
      exact ⟨rfl, p, htop.1 p h1, v, h2, rfl⟩
  · unfold chosen
    rw [hv]
    cases hb : l.head?.bind Package.version with
    | none =>
      simp only [true_iff]
      intro q hq
      cases hh : l.head? with
      | none => exact absurd trivial (htop.2.mp hh q hq)
      | some p =>
        rw [hh] at hb
        exact ((htop.1 p hh).2 q hq trivial).1 hb
    | some v =>
      obtain ⟨p, h1, h2⟩ := Option.bind_eq_some_iff.mp hb
      simp only [reduceCtorEq, false_iff]
      intro h
      have := h p (htop.1 p h1).1.1
      rw [this] at h2
      cases h2
  · unfold chosen
    rw [hv]
    cases l.head?.bind Package.version <;> simp

/-- C209: the package is then looked for in the paths that are given, or, without any, in those of the configuration, all with the home
directory in place of a tilde. -/
theorem C209_paths (w : World) (given : List Str) :
    (given ≠ [] → searchPaths w (some given) = given.map (atHome w.home)) ∧
    searchPaths w (some []) = w.packagesPath.map (atHome w.home) ∧
    searchPaths w none = w.packagesPath.map (atHome w.home) := by
  have he : expandHome w = atHome w.home := funext (expandHome_eq w)
  refine ⟨fun h => ?_, ?_, ?_⟩
  · cases given with
    | nil => exact absurd rfl h
    | cons p ps => rw [searchPaths, he]
  · rw [searchPaths, he]; simp
  · rw [searchPaths, he]; simp

example : chosen twoSites c!"a" none none = .ok ([c!"/home/me/packages", c!"/site"], c!"11") ∧
    chosen twoSites c!"a" (some c!"9") (some [c!"~/packages"]) = .ok ([c!"/home/me/packages"], c!"9") := by decide +kernel

/-- C209 is false of a tilde or of no paths at all when the version is left open: the package is there, and it is said that it is not. -/
theorem C209_paths_false : chosen twoSites c!"a" none (some [c!"~/packages"]) = .err ∧ chosen twoSites c!"a" none (some []) = .err ∧
    searchPaths twoSites (some [c!"~/packages"]) = [c!"/home/me/packages"] ∧
    searchPaths twoSites (some []) = [c!"/home/me/packages", c!"/site"] := by decide +kernel

/-! ## C210: packages by URI -/

namespace PackageQueryLemmas
open RexLemmas

theorem splitChar_last (a b c : Str) (hb : '/' ∉ b) (hc : '/' ∉ c) :
    (splitChar '/' (a ++ '/' :: (b ++ '/' :: c))).reverse = c :: b :: (splitChar '/' a).reverse := by
  rw [splitChar_two, splitChar_two, splitChar_noSep hb, splitChar_noSep hc]
  simp

theorem dropSlashes (base tail : Str) (ht : tail.head? ≠ some '/') :
    (base ++ '/' :: tail).dropWhile (· == '/') = tail ∨
    ∃ x, (base ++ '/' :: tail).dropWhile (· == '/') = x ++ '/' :: tail := by
  rw [List.dropWhile_append]
  split
  · left
    rw [List.dropWhile_cons]
    simp only [beq_self_eq_true, if_true]
    cases tail with
    | nil => rfl
    | cons c t =>
      rw [List.dropWhile_cons, if_neg]
      simpa using ht
  · exact Or.inr ⟨_, rfl⟩

theorem parts_two (base name last : Str) (hn : name ≠ [] ∧ '/' ∉ name) (hl : '/' ∉ last) :
    ∃ more, parts (base ++ '/' :: (name ++ '/' :: last)) = last :: name :: more := by
  unfold parts
  have hh : (name ++ '/' :: last).head? ≠ some '/' := by
    cases name with
    | nil => exact absurd rfl hn.1
    | cons c t =>
      have := hn.2
      simp only [List.mem_cons, not_or] at this
      simpa using fun h => this.1 h.symm
  rcases dropSlashes base _ hh with h | ⟨x, h⟩
  · rw [h, splitChar_two, splitChar_noSep hn.2, splitChar_noSep hl]
    exact ⟨[], rfl⟩
  · rw [h, splitChar_last x name last hn.2 hl]
    exact ⟨_, rfl⟩

theorem parts_three (base name version last : Str) (hn : name ≠ [] ∧ '/' ∉ name) (hv : '/' ∉ version) (hl : '/' ∉ last) :
    ∃ more, parts (base ++ '/' :: (name ++ '/' :: (version ++ '/' :: last))) = last :: version :: name :: more := by
  unfold parts
  have hh : (name ++ '/' :: (version ++ '/' :: last)).head? ≠ some '/' := by
    cases name with
    | nil => exact absurd rfl hn.1
    | cons c t =>
      have := hn.2
      simp only [List.mem_cons, not_or] at this
      simpa using fun h => this.1 h.symm
  rcases dropSlashes base _ hh with h | ⟨x, h⟩
  · rw [h, splitChar_last name version last hv hl, splitChar_noSep hn.2]
    exact ⟨[], rfl⟩
  · rw [h, splitChar_two, splitChar_two, splitChar_two, splitChar_noSep hn.2, splitChar_noSep hv, splitChar_noSep hl]
    exact ⟨(splitChar '/' x).reverse, by simp⟩

theorem byNameVersion_good {w : World} (hs : SortingOk w.srt) {paths : Option (List Str)} (hr : Readable w paths)
    (name version : Str) (hc : Comparable (available w paths name)) :
    ∃ repos r, byNameVersion w (manager w paths) name version = (repos, .ok r) ∧ Good repos ∧
      repos.map Prod.fst = (manager w paths).map Prod.fst ∧
      (∀ p, r = some p → p ∈ available w paths name ∧ Written p version) ∧
      (r = none ↔ ∀ q ∈ available w paths name, ¬ Written q version) := by
  rw [← manager_offered] at hc
  obtain ⟨repos, l, hl, hp, _, hm, hg⟩ := managerFind_good hs (manager_good hr) name hc
  rw [manager_offered] at hp
  have hw : ∀ p : Package, (match p.version with | some v => v.asStr == version | none => false) = true ↔ Written p version := by
    intro p
    unfold Written
    cases p.version with
    | none => simp
    | some v => simp [Version.asStr]
  refine ⟨repos, l.find? fun p => match p.version with | some v => v.asStr == version | none => false, ?_, hg, hm, ?_, ?_⟩
  · unfold byNameVersion
    rw [hl]
    rfl
  · intro p h
    exact ⟨hp.mem_iff.mp (List.mem_of_find?_eq_some h), (hw p).mp (List.find?_some (p := fun p : Package =>
      match p.version with | some v => v.asStr == version | none => false) h)⟩
  · rw [List.find?_eq_none]
    constructor
    · intro h q hq hqw
      exact h q (hp.mem_iff.mpr hq) ((hw q).mpr hqw)
    · intro h q hq hqw
      exact h q (hp.mem_iff.mp hq) ((hw q).mp hqw)

theorem latestByName_good {w : World} (hs : SortingOk w.srt) {paths : Option (List Str)} {repos : List Repo} (hg : Good repos)
    (hm : repos.map Prod.fst = (manager w paths).map Prod.fst) (name : Str) (hc : Comparable (available w paths name)) :
    ∃ r, latestByName w repos name = .ok r ∧ (∀ p, r = some p → Highest p (available w paths name)) ∧
      (r = none ↔ available w paths name = []) := by
  obtain ⟨repos', l, hl, hp, _⟩ := managerFind_good hs hg name (by rw [hm, manager_offered]; exact hc)
  rw [hm, manager_offered] at hp
  have heq : latestByName w repos name = latest w.srt l := by
    unfold latestByName latest
    rw [hl]
    simp only
    cases w.srt.sort (sortedCmp true) l <;> rfl
  rw [heq]
  rcases RepositoryLemmas.latest_spec hs (comparable_sub hc fun q hq => hp.mem_iff.mp hq) with ⟨rfl, h⟩ | ⟨p, h, hh⟩
  · exact ⟨none, h, by simp, by simp [hp.symm.eq_nil]⟩
  · refine ⟨some p, h, ?_, ?_⟩
    · intro q he
      cases he
      exact ⟨hp.mem_iff.mp hh.1, fun q hq => hh.2 q (hp.mem_iff.mpr hq)⟩
    · simp only [reduceCtorEq, false_iff]
      intro he
      have := hp.mem_iff.mp hh.1
      rw [he] at this
      cases this

theorem asFile_none {w : World} {uri : Str} (h : w.load uri = none) : asFile w uri = none := by
  unfold asFile
  rw [h]
  exact ite_self _

end PackageQueryLemmas

/-- C210: a URI that is the path of a file that can be loaded is that package, whatever is in the repositories. -/
theorem C210_file (w : World) (uri stem : Str) (paths : Option (List Str)) (p : Package) (hp : w.load uri = some p)
    (h : w.isFile uri = true ∨ uri = stem ++ c!".py" ∨ uri = stem ++ c!".yaml" ∨ uri = stem ++ c!".json") :
    fromUri w uri paths = .ok (some p) := by
  have : asFile w uri = some p := by
    unfold asFile
    rw [if_pos, hp]
    have hsuf : ∀ a : Str, a.isSuffixOf (stem ++ a) = true := fun a => List.isSuffixOf_iff_suffix.mpr ⟨stem, rfl⟩
    rcases h with h | rfl | rfl | rfl
    · rw [h]; simp
    · rw [hsuf]; simp
    · rw [hsuf]; simp
    · rw [hsuf]; simp
  unfold fromUri
  rw [this]

/-- C210: otherwise `.../name/version/file` is a package of that name with the version written so, if there is one. -/
theorem C210_version {w : World} (hs : SortingOk w.srt) (base name version last : Str) (paths : Option (List Str))
    (hr : Readable w paths) (hn : name ≠ [] ∧ '/' ∉ name) (hv : '/' ∉ version) (hl : '/' ∉ last)
    (hload : w.load (base ++ '/' :: (name ++ '/' :: (version ++ '/' :: last))) = none)
    (hc : Comparable (available w paths name)) (hex : ∃ q ∈ available w paths name, Written q version) :
    ∃ p, fromUri w (base ++ '/' :: (name ++ '/' :: (version ++ '/' :: last))) paths = .ok (some p) ∧
      p ∈ available w paths name ∧ Written p version := by
  obtain ⟨more, hparts⟩ := parts_three base name version last hn hv hl
  obtain ⟨repos, r, hb, _, _, h1, h2⟩ := byNameVersion_good hs hr name version hc
  cases r with
  | none =>
    obtain ⟨q, hq, hw⟩ := hex
    exact absurd hw (h2.mp rfl q hq)
  | some p =>
    refine ⟨p, ?_, h1 p rfl⟩
    unfold fromUri
    rw [asFile_none hload]
    simp only [hparts, byVersion, hb, orTry]

/-- C210: otherwise `.../name/file` is a package of that name that none is above, unless the name is also the version of a
package. -/
theorem C210_latest {w : World} (hs : SortingOk w.srt) (base name last : Str) (paths : Option (List Str))
    (hr : Readable w paths) (hn : name ≠ [] ∧ '/' ∉ name) (hl : '/' ∉ last)
    (hload : w.load (base ++ '/' :: (name ++ '/' :: last)) = none)
    (hc : ∀ n, Comparable (available w paths n)) (hno : ∀ n, ∀ q ∈ available w paths n, ¬ Written q name)
    (hex : available w paths name ≠ []) :
    ∃ p, fromUri w (base ++ '/' :: (name ++ '/' :: last)) paths = .ok (some p) ∧ Highest p (available w paths name) := by
  obtain ⟨more, hparts⟩ := parts_two base name last hn hl
  have hfirst : ∃ repos, byVersion w (manager w paths) (last :: name :: more) = (repos, .ok none) ∧ Good repos ∧
      repos.map Prod.fst = (manager w paths).map Prod.fst := by
    cases more with
    | nil => exact ⟨_, rfl, manager_good hr, rfl⟩
    | cons x rest =>
      obtain ⟨repos, r, hb, hg, hm, _, h2⟩ := byNameVersion_good hs hr x name (hc x)
      have := h2.mpr (hno x)
      subst this
      exact ⟨repos, hb, hg, hm⟩
  obtain ⟨repos, hf, hg, hm⟩ := hfirst
  obtain ⟨r, hlat, h1, h2⟩ := latestByName_good hs hg hm name (hc name)
  cases r with
  | none => exact absurd (h2.mp rfl) hex
  | some p =>
    refine ⟨p, ?_, h1 p rfl⟩
    unfold fromUri
    rw [asFile_none hload]
    simp only [hparts, hf, orTry, byFamily, hlat]

/-- C210: when there is neither, and paths were given, there is nothing. -/
theorem C210_none {w : World} (hs : SortingOk w.srt) (base name version last : Str) (given : List Str)
    (hr : Readable w (some given)) (hn : name ≠ [] ∧ '/' ∉ name) (hv : '/' ∉ version) (hl : '/' ∉ last)
    (hload : w.load (base ++ '/' :: (name ++ '/' :: (version ++ '/' :: last))) = none)
    (hc : Comparable (available w (some given) name)) (hno : ∀ q ∈ available w (some given) name, ¬ Written q version)
    (hno' : available w (some given) version = []) :
    fromUri w (base ++ '/' :: (name ++ '/' :: (version ++ '/' :: last))) (some given) = .ok none := by
  obtain ⟨more, hparts⟩ := parts_three base name version last hn hv hl
  obtain ⟨repos, r, hb, hg, hm, _, h2⟩ := byNameVersion_good hs hr name version hc
  obtain ⟨r', hlat, _, h4⟩ := latestByName_good hs hg hm version (by rw [hno']; intro p hp; cases hp)
  have e1 := h2.mpr hno
  have e2 := h4.mpr hno'
  subst e1 e2
  unfold fromUri
  rw [asFile_none hload]
  simp only [hparts, byVersion, byFamily, hb, orTry, hlat]
  rfl

namespace PackageQueryLemmas

/-- A part of a path. -/
def Segment (s : Str) : Prop := s ≠ [] ∧ '/' ∉ s

theorem joinWith_snoc (l : List Str) (x : Str) (h : l ≠ []) : joinWith c!"/" (l ++ [x]) = joinWith c!"/" l ++ '/' :: x := by
  induction l with
  | nil => exact absurd rfl h
  | cons a l ih =>
    cases l with
    | nil => simp [joinWith]
    | cons b l =>
      have := ih (by simp)
      simp only [List.cons_append, joinWith] at this ⊢
      rw [this]
      simp

theorem joinWith_end {l : List Str} (h : ∀ s ∈ l, Segment s) (hne : l ≠ []) :
    joinWith c!"/" l ≠ [] ∧ (joinWith c!"/" l).getLast? ≠ some '/' := by
  rcases List.eq_nil_or_concat l with rfl | ⟨l', x, rfl⟩
  · exact absurd rfl hne
  · rw [List.concat_eq_append] at h ⊢
    obtain ⟨hx1, hx2⟩ := h x (by simp)
    have hlast : x.getLast? ≠ some '/' := fun he => hx2 (List.mem_of_getLast? he)
    by_cases hl : l' = []
    · subst hl
      exact ⟨by simpa [joinWith] using hx1, by simpa [joinWith] using hlast⟩
    · rw [joinWith_snoc l' x hl]
      refine ⟨by simp, ?_⟩
      rw [List.getLast?_append]
      cases x with
      | nil => exact absurd rfl hx1
      | cons a t =>
        rw [List.getLast?_cons_cons, Option.or_of_isSome (by simp)]
        exact hlast

theorem join_snoc {l : List Str} (h : ∀ s ∈ l, Segment s) {x : Str} (hx : Segment x) :
    join (joinWith c!"/" l) x = joinWith c!"/" (l ++ [x]) := by
  have hhead : x.head? ≠ some '/' := by
    intro he
    cases x with
    | nil => cases he
    | cons a t => cases he; exact hx.2 List.mem_cons_self
  unfold join
  rw [if_neg hhead]
  by_cases hl : l = []
  · subst hl
    simp [joinWith]
  · obtain ⟨h1, h2⟩ := joinWith_end h hl
    rw [if_neg, joinWith_snoc l x hl]
    simp [h1, h2]

theorem fold_join (l m : List Str) (hl : ∀ s ∈ l, Segment s) (hm : ∀ s ∈ m, Segment s) :
    m.foldl join (joinWith c!"/" l) = joinWith c!"/" (l ++ m) := by
  induction m generalizing l with
  | nil => simp
  | cons x m ih =>
    rw [List.foldl_cons, join_snoc hl (hm x List.mem_cons_self), ih (l ++ [x]) ?_ fun s hs => hm s (List.mem_cons_of_mem _ hs)]
    · simp
    · intro s hs
      rcases List.mem_append.mp hs with hs | hs
      · exact hl s hs
      · rw [List.mem_singleton.mp hs]; exact hm x List.mem_cons_self

theorem parts_join (front : Str) (segs : List Str) (hf : ∀ c ∈ front, c = '/') (h : ∀ s ∈ segs, Segment s) (hne : segs ≠ []) :
    parts (front ++ joinWith c!"/" segs) = segs.reverse := by
  unfold parts
  congr 1
  rw [List.dropWhile_append_of_pos (by intro c hc; simp [hf c hc])]
  have hdrop : (joinWith c!"/" segs).dropWhile (· == '/') = joinWith c!"/" segs := by
    match segs, h, hne with
    | [a], h, _ =>
      obtain ⟨h1, h2⟩ := h a List.mem_cons_self
      cases a with
      | nil => exact absurd rfl h1
      | cons c t =>
        rw [joinWith, List.dropWhile_cons, if_neg]
        simp only [List.mem_cons, not_or] at h2
        simpa using fun he => h2.1 he.symm
    | a :: b :: rest, h, _ =>
      obtain ⟨h1, h2⟩ := h a List.mem_cons_self
      cases a with
      | nil => exact absurd rfl h1
      | cons c t =>
        rw [joinWith, List.cons_append, List.cons_append, List.dropWhile_cons, if_neg]
        simp only [List.mem_cons, not_or] at h2
        simpa using fun he => h2.1 he.symm
  rw [hdrop]
  exact splitChar_join hne fun p hp => (h p hp).2

end PackageQueryLemmas

/-- C210: when there is neither and no paths were given, a URI that stands for a directory is the package in it, looked for without the
slashes in front. -/
theorem C210_place {w : World} (hs : SortingOk w.srt) (front : Str) (segs : List Str) (hf : ∀ c ∈ front, c = '/')
    (hseg : ∀ s ∈ segs, s ≠ [] ∧ '/' ∉ s) (hlen : 2 ≤ segs.length) (hr : Readable w none)
    (hno : ∀ n, available w none n = []) (hload : w.load (front ++ joinWith c!"/" segs) = none)
    (p : Package)
    (hp : w.load (joinWith c!"/" segs ++ c!"/package.py") = some p)
    (hex : w.exists_ (joinWith c!"/" segs ++ c!"/package.py") = true) :
    fromUri w (front ++ joinWith c!"/" segs) none = .ok (some p) := by
  have hparts := parts_join front segs hf hseg (by rintro rfl; simp at hlen)
  have hcomp : ∀ n, Comparable (available w none n) := fun n => by rw [hno n]; intro p hp; cases hp
  have hin : loadIn w (joinWith c!"/" segs) = some p := by
    have hj := join_snoc (l := segs) hseg (x := c!"package.py") ⟨by simp, by decide⟩
    rw [joinWith_snoc segs _ (by rintro rfl; simp at hlen)] at hj
    unfold loadIn
    rw [List.findSome?_cons, hj, if_pos hex, hp]
  have hplace : inPlace w (front ++ joinWith c!"/" segs) = some p := by
    have hcases : ∃ c b rest, segs.reverse = c :: b :: rest := by
      cases hrev : segs.reverse with
      | nil => rw [List.reverse_eq_nil_iff] at hrev; subst hrev; simp at hlen
      | cons c l =>
        cases l with
        | nil =>
          have := congrArg List.length hrev
          rw [List.length_reverse] at this
          simp at this
          omega
        | cons b rest => exact ⟨c, b, rest, rfl⟩
    obtain ⟨c, b, rest, hrev⟩ := hcases
    have hsegs : segs = rest.reverse ++ [b, c] := by
      have := congrArg List.reverse hrev
      simpa using this
    unfold inPlace
    rw [hparts, hrev]
    cases rest with
    | nil =>
      simp only [Option.none_or]
      have hfold := fold_join [] [b, c] (by simp) (by intro s hs; exact hseg s (by rw [hsegs]; simpa using hs))
      simp only [List.reverse_nil, findIn]
      rw [hfold, List.nil_append, show [b, c] = segs by rw [hsegs]; rfl, hin]
      rfl
    | cons a rest =>
      have hfold := fold_join rest.reverse [a, b, c]
        (by intro s hs; exact hseg s (by rw [hsegs]; simp at hs ⊢; tauto))
        (by intro s hs; exact hseg s (by rw [hsegs]; simp at hs ⊢; tauto))
      have hfold2 := fold_join (a :: rest).reverse [b, c]
        (by intro s hs; exact hseg s (by rw [hsegs]; simp at hs ⊢; tauto))
        (by intro s hs; exact hseg s (by rw [hsegs]; simp at hs ⊢; tauto))
      simp only [findIn]
      rw [hfold, hfold2, show rest.reverse ++ [a, b, c] = segs by rw [hsegs]; simp, ← hsegs, hin]
      split <;> rfl
  have hfirst : ∃ repos, byVersion w (manager w none) segs.reverse = (repos, .ok none) ∧ Good repos ∧
      repos.map Prod.fst = (manager w none).map Prod.fst := by
    match segs.reverse with
    | [] => exact ⟨_, rfl, manager_good hr, rfl⟩
    | [_] => exact ⟨_, rfl, manager_good hr, rfl⟩
    | [_, _] => exact ⟨_, rfl, manager_good hr, rfl⟩
    | _ :: v :: x :: _ =>
      obtain ⟨repos, r, hb, hg, hm, _, h2⟩ := byNameVersion_good hs hr x v (hcomp x)
      have := h2.mpr (by rw [hno x]; intro q hq; cases hq)
      subst this
      exact ⟨repos, hb, hg, hm⟩
  obtain ⟨repos, hfst, hg, hm⟩ := hfirst
  have hsecond : byFamily w repos segs.reverse = .ok none := by
    match segs.reverse with
    | [] => rfl
    | [_] => rfl
    | _ :: n :: _ =>
      obtain ⟨r, hlat, _, h4⟩ := latestByName_good hs hg hm n (hcomp n)
      have := h4.mpr (hno n)
      subst this
      exact hlat
  unfold fromUri
  rw [asFile_none hload]
  simp only [hparts, hfst, orTry, hsecond, hplace]
  rfl

/-- C210: a handle that names a package file that is there and loads is that package; one that names a directory, the package in it. -/
theorem C210_handle (w : World) (dir file : Str) (paths : Option (List Str)) (p : Package)
    (hf : file = c!"package.py" ∨ file = c!"package.json") (hd : dir ≠ [] ∧ dir.getLast? ≠ some '/')
    (hex : w.exists_ (dir ++ '/' :: file) = true) (hp : w.load (dir ++ '/' :: file) = some p) :
    fromHandle w (dir ++ '/' :: file) paths = some p ∧
    (w.isDir dir = true → w.exists_ dir = false ∨ w.load dir = none →
      (file = c!"package.json" → w.exists_ (dir ++ c!"/package.py") = false) → fromHandle w dir paths = some p) := by
  have hj : ∀ f : Str, f.head? ≠ some '/' → join dir f = dir ++ '/' :: f := by
    intro f hfh
    unfold join
    rw [if_neg hfh, if_neg]
    simp [hd.1, hd.2]
  constructor
  · have : loadFile w (dir ++ '/' :: file) = some p := by
      unfold loadFile
      rw [hex, hp, if_pos]
      have hsuf : ∀ a : Str, endsWith (dir ++ '/' :: a) a = true := fun a => by
        unfold endsWith
        rw [List.isSuffixOf_iff_suffix.mpr ⟨dir, rfl⟩]
        simp
      rcases hf with rfl | rfl <;> rw [hsuf] <;> simp
    unfold fromHandle
    rw [this]
    rfl
  · intro hdir hnot hpy
    have h1 : loadFile w dir = none := by
      unfold loadFile
      rcases hnot with h | h <;> rw [h] <;> simp
    have h2 : loadIn w dir = some p := by
      unfold loadIn
      rw [List.findSome?_cons, List.findSome?_cons, hj c!"package.py" (by decide), hj c!"package.json" (by decide)]
      rcases hf with rfl | rfl
      · rw [if_pos hex, hp]
      · rw [if_neg (by rw [show '/' :: c!"package.py" = c!"/package.py" from rfl, hpy rfl]; simp)]
        simp only
        rw [if_pos hex, hp]
    unfold fromHandle
    rw [h1, hdir, h2]
    rfl

namespace PackageQueryLemmas

theorem join_plain {a b : Str} (ha : PlainPath a) (hb : b.head? ≠ some '/') : join a b = a ++ '/' :: b := by
  unfold join
  rw [if_neg hb, if_neg]
  simp [ha.1, ha.2]

theorem plain_append {a b : Str} (hb : PlainPath b) : PlainPath (a ++ '/' :: b) := by
  refine ⟨by simp, ?_⟩
  obtain ⟨h1, h2⟩ := hb
  cases b with
  | nil => exact absurd rfl h1
  | cons c t => rw [List.getLast?_append, List.getLast?_cons_cons, Option.or_of_isSome (by simp)]; exact h2

theorem loadIn_iff (w : World) {dir : Str} (hd : PlainPath dir) (p : Package) : loadIn w dir = some p ↔ HoldsIn w dir p := by
  unfold loadIn HoldsIn
  rw [List.findSome?_cons, join_plain hd (by decide), List.findSome?_cons, join_plain hd (by decide), List.findSome?_nil]
  cases w.exists_ (dir ++ '/' :: c!"package.py") <;> cases w.load (dir ++ '/' :: c!"package.py") <;>
    cases w.exists_ (dir ++ '/' :: c!"package.json") <;> cases w.load (dir ++ '/' :: c!"package.json") <;> simp

theorem loadIn_none (w : World) {dir : Str} (hd : PlainPath dir) : loadIn w dir = none ↔ ∀ p, ¬ HoldsIn w dir p := by
  rw [Option.eq_none_iff_forall_not_mem]
  exact forall_congr' fun p => not_congr (loadIn_iff w hd p)

theorem at_iff (w : World) {path : Str} (hd : PlainPath path) (p : Package) :
    ((if w.exists_ path then w.load path else none).or (if w.isDir path then loadIn w path else none)) = some p ↔ HoldsAt w path p := by
  unfold HoldsAt
  rw [← loadIn_iff w hd]
  cases w.exists_ path <;> cases w.load path <;> cases w.isDir path <;> simp

end PackageQueryLemmas

/-- C210: a handle that is not there itself is looked for below the paths that are given: the first that has it counts, and without
paths there is nothing. -/
theorem C210_below (w : World) (path : Str) (given : List Str) (p : Package) (hp : PlainPath path) (hrel : path.head? ≠ some '/')
    (hex : w.exists_ path = false) (hdir : w.isDir path = false) (hg : ∀ s ∈ given, PlainPath s) :
    (fromHandle w path (some given) = some p ↔ ∃ before s after, given = before ++ s :: after ∧ HoldsAt w (s ++ '/' :: path) p ∧
      ∀ t ∈ before, ∀ q, ¬ HoldsAt w (t ++ '/' :: path) q) ∧
    fromHandle w path none = none := by
  have h0 : loadFile w path = none := by simp [loadFile, hex]
  unfold fromHandle
  rw [h0, hdir]
  refine ⟨?_, rfl⟩
  simp only [Option.none_or, Bool.false_eq_true, if_false, Option.getD_some, List.findSome?_eq_some_iff]
  constructor
  · rintro ⟨l1, a, l2, rfl, ha, hl⟩
    refine ⟨l1, a, l2, rfl, ?_, ?_⟩
    · rw [join_plain (hg a (by simp)) hrel] at ha
      exact (at_iff w (plain_append hp) p).mp ha
    · intro t ht q hq
      have := hl t ht
      rw [join_plain (hg t (by simp [ht])) hrel, (at_iff w (plain_append hp) q).mpr hq] at this
      cases this
  · rintro ⟨l1, a, l2, rfl, ha, hl⟩
    refine ⟨l1, a, l2, rfl, ?_, ?_⟩
    · rw [join_plain (hg a (by simp)) hrel]
      exact (at_iff w (plain_append hp) p).mpr ha
    · intro t ht
      rw [join_plain (hg t (by simp [ht])) hrel, Option.eq_none_iff_forall_not_mem]
      exact fun q hq => hl t ht q ((at_iff w (plain_append hp) q).mp hq)

/-- C210: from a repository comes the package in its own directory, or else that of the first directory in it that has one. -/
theorem C210_repository (w : World) (uri repo : Str) (names : List Str) (p : Package) (hrepo : PlainPath repo)
    (hl : w.listing repo = some names) (hn : ∀ n ∈ names, n ≠ [] ∧ '/' ∉ n) (hload : ∀ d, w.isDir d = true → w.load d = none) :
    fromRepository w uri repo = some p ↔ w.exists_ repo = true ∧ (HoldsIn w repo p ∨ (∀ q, ¬ HoldsIn w repo q) ∧
      ∃ before n after, names = before ++ n :: after ∧ w.isDir (repo ++ '/' :: n) = true ∧ HoldsIn w (repo ++ '/' :: n) p ∧
        ∀ m ∈ before, w.isDir (repo ++ '/' :: m) = true → ∀ q, ¬ HoldsIn w (repo ++ '/' :: m) q) := by
  have hseg : ∀ n ∈ names, n.head? ≠ some '/' ∧ PlainPath n := by
    intro n hnn
    obtain ⟨h1, h2⟩ := hn n hnn
    refine ⟨fun h => h2 (List.mem_of_mem_head? h), h1, fun h => h2 (List.mem_of_getLast? h)⟩
  have hone : ∀ n ∈ names, ∀ q, (if w.isDir (join repo n) then findIn w (join repo n) [] else none) = some q ↔
      w.isDir (repo ++ '/' :: n) = true ∧ HoldsIn w (repo ++ '/' :: n) q := by
    intro n hnn q
    obtain ⟨h1, h2⟩ := hseg n hnn
    rw [join_plain hrepo h1]
    cases hd : w.isDir (repo ++ '/' :: n) with
    | false => simp
    | true =>
      have hf : loadFile w (repo ++ '/' :: n) = none := by
        unfold loadFile
        rw [hload _ hd]
        simp
      simp only [if_true, findIn, List.foldl_nil, hf, Option.or_none, true_and]
      exact loadIn_iff w (plain_append h2) q
  unfold fromRepository
  rw [hl]
  cases w.exists_ repo with
  | false => simp
  | true =>
    simp only [Bool.not_true, Bool.false_eq_true, if_false, true_and, Option.getD_some, Option.or_eq_some_iff, loadIn_iff w hrepo,
      loadIn_none w hrepo, List.findSome?_eq_some_iff]
    refine or_congr Iff.rfl (and_congr Iff.rfl ?_)
    constructor
    · rintro ⟨l1, a, l2, he, ha, hb⟩
      obtain ⟨h1, h2⟩ := (hone a (by rw [he]; simp) p).mp ha
      refine ⟨l1, a, l2, he, h1, h2, fun m hm hd q hq => ?_⟩
      have := hb m hm
      rw [(hone m (by rw [he]; simp [hm]) q).mpr ⟨hd, hq⟩] at this
      cases this
    · rintro ⟨l1, a, l2, he, h1, h2, hb⟩
      refine ⟨l1, a, l2, he, (hone a (by rw [he]; simp) p).mpr ⟨h1, h2⟩, fun m hm => ?_⟩
      rw [Option.eq_none_iff_forall_not_mem]
      intro q hq
      obtain ⟨h3, h4⟩ := (hone m (by rw [he]; simp [hm]) q).mp hq
      exact hb m hm h3 q h4

/-- A repository without a package of its own, with a directory that has none and one that has one. -/
example :
    let w : World := { queryWorld [] with
      exists_ := fun x => [c!"/r", c!"/r/b/package.json", c!"/r/x/package.py"].contains x
      isDir := fun x => [c!"/r/a", c!"/r/b"].contains x
      load := fun x => if x == c!"/r/b/package.json" then some (pk c!"b" none none) else none
      listing := fun x => if x == c!"/r" then some [c!"a", c!"x", c!"b"] else none }
    (fromRepository w [] c!"/r" = some (pk c!"b" none none) ∧ ∀ d, w.isDir d = true → w.load d = none) ∧
    fromHandle w c!"b" (some [c!"/q", c!"/r"]) = some (pk c!"b" none none) := by
  intro w
  refine ⟨⟨by decide +kernel, ?_⟩, by decide +kernel⟩
  intro d hd
  have : d = c!"/r/a" ∨ d = c!"/r/b" := by simpa [w] using hd
  rcases this with rfl | rfl <;> decide +kernel

/-- C210: a repository that fails is no reason to fail: the next way of reading the URI is tried. -/
theorem C210_total (w : World) (uri : Str) (paths : Option (List Str)) : fromUri w uri paths ≠ .err := by
  have h : ∀ o next : Outcome (Option Package), next ≠ .err → orTry o next ≠ .err := by
    intro o next hn
    unfold orTry
    split <;> simp_all
  unfold fromUri
  split
  · simp
  · refine h _ _ (h _ _ ?_)
    split <;> simp

/-- C210: the versions of a family in a repository are the names of the directories in its directory. -/
theorem C210_family (w : World) (name repo : Str) (hn : Segment name) (hr : repo ≠ [] ∧ repo.getLast? ≠ some '/') :
    (w.exists_ (repo ++ '/' :: name) = false → familyIn w name repo = none) ∧
    (w.exists_ (repo ++ '/' :: name) = true → w.listing (repo ++ '/' :: name) = none → familyIn w name repo = some (name, none)) ∧
    ∀ l, w.exists_ (repo ++ '/' :: name) = true → w.listing (repo ++ '/' :: name) = some l →
      ∃ vs, familyIn w name repo = some (name, some vs) ∧ vs.Sublist l ∧
        ∀ v ∈ l, '/' ∉ v → (v ∈ vs ↔ w.isDir (repo ++ '/' :: (name ++ '/' :: v)) = true) := by
  have hj : join repo name = repo ++ '/' :: name := by
    unfold join
    rw [if_neg, if_neg]
    · simp [hr.1, hr.2]
    · intro he
      cases name with
      | nil => cases he
      | cons a t => cases he; exact hn.2 List.mem_cons_self
  have hlast : (repo ++ '/' :: name).getLast? ≠ some '/' := by
    rw [List.getLast?_append]
    cases hname : name with
    | nil => exact absurd hname hn.1
    | cons a t =>
      rw [List.getLast?_cons_cons, Option.or_of_isSome (by simp)]
      intro he
      exact hn.2 (by rw [hname]; exact List.mem_of_getLast? he)
  unfold familyIn
  rw [hj]
  refine ⟨fun h => by rw [h]; rfl, fun h h2 => by rw [h, h2]; rfl, fun l h h2 => ?_⟩
  rw [h, h2]
  refine ⟨_, rfl, List.filter_sublist, fun v hv hs => ?_⟩
  rw [List.mem_filter]
  have : join (repo ++ '/' :: name) v = repo ++ '/' :: (name ++ '/' :: v) := by
    unfold join
    rw [if_neg, if_neg]
    · simp
    · rw [Bool.or_eq_true, decide_eq_true_eq]
      rintro (h | h)
      · simp at h
      · exact hlast h
    · intro he
      cases v with
      | nil => cases he
      | cons a t => cases he; exact hs List.mem_cons_self
  rw [this]
  exact ⟨fun h => h.2, fun h => ⟨hv, h⟩⟩

example : fromUri twoSites c!"/anywhere/a/9/package.py" none = .ok (some (pk c!"a" (some c!"9") none)) ∧
    fromUri twoSites c!"/anywhere/a/package.py" none = .ok (some (pk c!"a" (some c!"11") none)) ∧
    fromUri twoSites c!"/anywhere/b/9/package.py" (some []) = .ok none := by decide +kernel

/-- C210 is false of the directory of a version and of one version in a file of several: it is the latest. -/
theorem C210_directory_false : fromUri twoSites c!"/site/a/1.0" none = .ok (some (pk c!"a" (some c!"11") none)) ∧
    fromUri twoSites c!"/site/a/package.py<1.0>" none = .ok (some (pk c!"a" (some c!"11") none)) := by decide +kernel

/-- C210 is false of absolute URIs outside of the repositories: the package is there and is not found; below the working directory it
would be. -/
theorem C210_absolute_false :
    let at_ := fun f => { queryWorld [] with exists_ := (· == f), load := fun x => if x == f then some (pk c!"a" (some c!"1") none) else none }
    fromUri (at_ c!"/opt/a/1/package.py") c!"/opt/a/1" none = .ok none ∧
    fromUri (at_ c!"opt/a/1/package.py") c!"/opt/a/1" none = .ok (some (pk c!"a" (some c!"1") none)) := by
  intro at_
  decide +kernel

/-- C210 is false of `get_package_from_repository`: it does not look at the URI. -/
theorem C210_repository_false (w : World) (uri uri' repo : Str) : fromRepository w uri repo = fromRepository w uri' repo := rfl

end Rez.Props
