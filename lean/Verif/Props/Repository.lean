import Verif.Spec.Repository
import Verif.Props.PackageOrder
/-!
# C67, C68, C111: repositories
-/
namespace Rez.Props
open Rez Rez.Repository Rez.PackageOrder Rez.Spec Rez.Spec.Repository

namespace RepositoryLemmas

mutual
theorem scanTree_clean (family : Str) (t : Tree) (h : Clean t) (s : State) :
    scanTree family t s = ((found t).foldl push s, true) := by
  match t, h with
  | .package (.ok p), _ => rw [scanTree, found]; rfl
  | .package (.error e), h => exact absurd h (by rw [Clean]; exact id)
  | .folder readable children, h =>
    rw [Clean] at h
    obtain ⟨rfl, h⟩ := h
    rw [scanTree, found]
    exact scanBelow_clean family children h s
theorem scanBelow_clean (family : Str) (l : List (Str × Tree)) (h : CleanBelow l) (s : State) :
    scanBelow family l s = ((foundBelow l).foldl push s, true) := by
  match l, h with
  | [], _ => rw [scanBelow, foundBelow]; rfl
  | (n, t) :: rest, h =>
    rw [CleanBelow] at h
    rw [scanBelow, scanTree_clean family t h.1, foundBelow, List.foldl_append]
    exact scanBelow_clean family rest h.2 _
end

theorem scanRoot_clean (l : List (Str × Tree)) (h : CleanBelow l) (s : State) :
    scanRoot l s = ((foundBelow l).foldl push s, true) := by
  induction l generalizing s with
  | nil => rw [scanRoot, foundBelow]; rfl
  | cons e rest ih =>
    obtain ⟨n, t⟩ := e
    rw [CleanBelow] at h
    rw [scanRoot, scanTree_clean n t h.1, foundBelow, List.foldl_append]
    exact ih h.2 _

theorem foldl_push (ps : List Package) (s : State) :
    (ps.foldl push s).errors = s.errors ∧
    ∀ name, mget (ps.foldl push s).cache name =
      if (ps.filter fun p => p.name == name) = [] then mget s.cache name
      else some ((mget s.cache name).getD [] ++ ps.filter fun p => p.name == name) := by
  induction ps generalizing s with
  | nil => exact ⟨rfl, fun name => by simp⟩
  | cons p ps ih =>
    rw [List.foldl_cons]
    obtain ⟨h1, h2⟩ := ih (push s p)
    refine ⟨by rw [h1]; rfl, fun name => ?_⟩
    rw [h2 name]
    simp only [push, mget_mset]
    by_cases hn : name = p.name
    · subst hn
      simp only [if_pos, List.filter_cons, beq_self_eq_true]
      split <;> simp_all
    · have : ¬ p.name = name := fun h => hn h.symm
      simp only [if_neg hn, List.filter_cons, this, beq_iff_eq, if_false]

theorem scan_sound {root : Root} (h : Sound root) :
    ∃ s, scan root = (s, true) ∧ s.errors = [] ∧
      ∀ name, mget s.cache name = if ofFamily root name = [] then none else some (ofFamily root name) := by
  obtain ⟨entries, rfl, hc⟩ := h
  refine ⟨_, scanRoot_clean entries hc State.new, (foldl_push _ _).1, fun name => ?_⟩
  rw [(foldl_push _ _).2 name]
  unfold ofFamily onDisk
  simp only [Option.getD_some]
  split
  · rfl
  · simp [State.new, mget]

theorem find_state (root : Root) (s : State) (name : Str) :
    (find root s name).1 = s ∨ (find root s name).1 = (scan root).1 := by
  unfold find
  split
  · exact Or.inl rfl
  · split
    · exact Or.inl rfl
    · cases h : scan root with
      | mk s' b =>
        cases b with
        | false => exact Or.inr rfl
        | true =>
          simp only
          split <;> exact Or.inr rfl

theorem get_state (srt : Sorting) (root : Root) (s : State) (name : Str) (v : Option Str) :
    (Repository.get srt root s name v).1 = (find root s name).1 := by
  unfold Repository.get
  cases h : find root s name with
  | mk s' r => cases r <;> rfl

theorem list_state (sort : List Str → List Str) (root : Root) (s : State) :
    (Repository.list sort root s).1 = (scan root).1 := by
  unfold Repository.list
  cases h : scan root with
  | mk s' b => cases b <;> rfl

theorem find_new (root : Root) (name : Str) : (find root State.new name).1 = (scan root).1 := by
  unfold find
  simp only [State.new, mget]
  cases h : scan root with
  | mk s' b =>
    cases b with
    | false => rfl
    | true =>
      simp only
      split <;> rfl

theorem ask_new (srt : Sorting) (root : Root) (q : Query) : ask srt root State.new q = (scan root).1 := by
  cases q with
  | find n => exact find_new root n
  | get n v => exact (get_state srt root State.new n v).trans (find_new root n)
  | list => exact list_state id root State.new
  | scan => rfl

theorem ask_scanned (srt : Sorting) (root : Root) (q : Query) : ask srt root (scan root).1 q = (scan root).1 := by
  have hf : ∀ n, (find root (scan root).1 n).1 = (scan root).1 := fun n => (find_state root _ n).elim id id
  cases q with
  | find n => exact hf n
  | get n v => exact (get_state srt root _ n v).trans (hf n)
  | list => exact list_state id root _
  | scan => rfl

theorem asked_scanned (srt : Sorting) (root : Root) (qs : List Query) :
    asked srt (scan root).1 (qs.map fun q => (root, q)) = (scan root).1 := by
  induction qs with
  | nil => rfl
  | cons q qs ih =>
    rw [List.map_cons, asked, ask_scanned]
    exact ih

theorem asked_new (srt : Sorting) (root : Root) (qs : List Query) (h : qs ≠ []) :
    asked srt State.new (qs.map fun q => (root, q)) = (scan root).1 := by
  cases qs with
  | nil => exact absurd rfl h
  | cons q qs =>
    rw [List.map_cons, asked, ask_new]
    exact asked_scanned srt root qs

theorem upToDate_cases {srt : Sorting} {root : Root} {s : State} (h : UpToDate srt root s) :
    s = State.new ∨ s = (scan root).1 := by
  obtain ⟨qs, rfl⟩ := h
  cases qs with
  | nil => exact Or.inl rfl
  | cons q qs => exact Or.inr (asked_new srt root (q :: qs) (by simp))

theorem find_sound {root : Root} (h : Sound root) {s : State} (hs : s = State.new ∨ s = (scan root).1) (name : Str) :
    (find root s name).2 = .ok (ofFamily root name) := by
  obtain ⟨t, ht, he, hc⟩ := scan_sound h
  have hgot : (if ofFamily root name = [] then none else some (ofFamily root name)).getD [] = ofFamily root name := by
    split
    · rename_i h; rw [h]; rfl
    · rfl
  rcases hs with rfl | rfl
  · unfold find
    simp only [State.new, mget, ht, he, hc, hgot]
  · unfold find
    simp only [ht, he, hc, mget]
    by_cases hn : ofFamily root name = []
    · simp [hn]
    · simp [hn]

end RepositoryLemmas

open RepositoryLemmas

/-- C68, partial: over every history of calls on an unchanged directory in which everything can be read, every search
gives exactly the packages of the family, and every `get_package` the choice among them.  Missing: directories with
entries that cannot be loaded (refuted below). -/
theorem C68_same_partial (srt : Sorting) (root : Root) (h : Sound root) (queries : List Query) (name : Str)
    (version : Option Str) :
    let s := asked srt State.new (queries.map fun q => (root, q))
    (find root s name).2 = .ok (ofFamily root name) ∧
    (Repository.get srt root s name version).2 = choose srt (ofFamily root name) version := by
  intro s
  have hf := find_sound h (upToDate_cases (srt := srt) ⟨queries, rfl⟩) name
  refine ⟨hf, ?_⟩
  unfold Repository.get
  cases hr : find root s name with
  | mk s' r =>
    rw [show (find root s name).2 = r by rw [hr]] at hf
    subst hf
    rfl

/-- C68, partial: whatever cannot be read, every call but the first is answered the same way.  Missing: the first call
(refuted below). -/
theorem C68_settled_partial (srt : Sorting) (root : Root) (queries queries' : List Query) (h : queries ≠ [])
    (h' : queries' ≠ []) (name : Str) (version : Option Str) :
    let s := asked srt State.new (queries.map fun q => (root, q))
    let s' := asked srt State.new (queries'.map fun q => (root, q))
    find root s name = find root s' name ∧
    Repository.get srt root s name version = Repository.get srt root s' name version := by
  intro s s'
  have : s = s' := (asked_new srt root queries h).trans (asked_new srt root queries' h').symm
  rw [this]
  exact ⟨rfl, rfl⟩

/-- C68 is false of the first call: a family with one package that cannot be loaded is an error at first and the other
packages later. -/
theorem C68_broken_false (p : Package) (e : Str) :
    let root : Root := some [(p.name, .folder true [(c!"1", .package (.ok p)), (c!"2", .package (.error e))])]
    (find root State.new p.name).2 = .err ∧
    (find root (find root State.new p.name).1 p.name).2 = .ok [p] := by
  intro root
  have hscan : scan root = (⟨[(p.name, [p])], [(p.name, e)]⟩, true) := by rfl
  have h1 : find root State.new p.name = (⟨[(p.name, [p])], [(p.name, e)]⟩, .err) := by
    unfold find
    simp [State.new, mget, hscan]
  rw [h1]
  refine ⟨rfl, ?_⟩
  unfold find
  simp [mget]

/-- C68 is false of the first call: one unreadable directory makes the first search for any family an error, and the
second one answers with the packages that were seen before it. -/
theorem C68_unreadable_false (p : Package) :
    let root : Root := some [(c!"x", .package (.ok p)), (c!"y", .folder false [])]
    (find root State.new p.name).2 = .err ∧
    (find root (find root State.new p.name).1 p.name).2 = .ok [p] := by
  intro root
  have hscan : scan root = (⟨[(p.name, [p])], []⟩, false) := by rfl
  have h1 : find root State.new p.name = (⟨[(p.name, [p])], []⟩, .err) := by
    unfold find
    simp [State.new, mget, hscan]
  rw [h1]
  refine ⟨rfl, ?_⟩
  unfold find
  simp [mget]

/-- Two versions of a package in a directory that can be read. -/
def demoRoot (name : Str) (versions : List Str) : Root :=
  some [(name, .folder true (versions.map fun v => (v, .package (.ok (pk name (some v) none)))))]

example : Sound (demoRoot c!"a" [c!"1", c!"2"]) ∧ (ofFamily (demoRoot c!"a" [c!"1", c!"2"]) c!"a").length = 2 :=
  ⟨⟨_, rfl, by simp [CleanBelow, Clean]⟩, by decide⟩

/-! ## C111: changes on disk -/

/-- C111: right after `scan` or `list_packages` a search answers from the directory as it is, whatever happened before. -/
theorem C111_scan (srt : Sorting) (history : List (Root × Query)) (root : Root) (h : Sound root) (q : Query)
    (hq : q = .scan ∨ q = .list) (name : Str) :
    (find root (asked srt State.new (history ++ [(root, q)])) name).2 = .ok (ofFamily root name) := by
  have happ : ∀ (l : List (Root × Query)) (s : State),
      asked srt s (l ++ [(root, q)]) = ask srt root (asked srt s l) q := by
    intro l
    induction l with
    | nil => intro s; rfl
    | cons x l ih => obtain ⟨r, q'⟩ := x; intro s; exact ih _
  apply find_sound h
  right
  rw [happ]
  rcases hq with rfl | rfl
  · rfl
  · exact list_state id root _

/-- C111: a family that was never found and caused no error is answered from the directory as it is. -/
theorem C111_unknown (root : Root) (h : Sound root) (s : State) (name : Str) (h1 : mget s.cache name = none)
    (h2 : mget s.errors name = none) : (find root s name).2 = .ok (ofFamily root name) := by
  obtain ⟨t, ht, he, hc⟩ := scan_sound h
  unfold find
  simp only [h1, h2, ht, he, hc, mget]
  split
  · rename_i h; rw [h]; rfl
  · rfl

/-- C111 is false: a family once found is answered from memory, however the directory changes and however often it is
asked for, until something else makes the repository scan again. -/
theorem C111_stale_false (srt : Sorting) (s : State) (name : Str) (ps : List Package) (h : mget s.cache name = some ps)
    (history : List (Root × Option Str)) (now : Root) :
    (find now (asked srt s (history.map fun x => (x.1, .get name x.2))) name).2 = .ok ps := by
  have key : asked srt s (history.map fun x => (x.1, Query.get name x.2)) = s := by
    induction history with
    | nil => rfl
    | cons x history ih =>
      rw [List.map_cons, asked]
      have : ask srt x.1 s (.get name x.2) = s := by
        show (Repository.get srt x.1 s name x.2).1 = s
        rw [get_state]
        unfold find
        rw [h]
      rw [this]
      exact ih
  rw [key]
  unfold find
  rw [h]

-- a family that grew on disk
example : mget (find (demoRoot c!"a" [c!"1"]) State.new c!"a").1.cache c!"a" = some [pk c!"a" (some c!"1") none] ∧
    (ofFamily (demoRoot c!"a" [c!"1", c!"2"]) c!"a").length = 2 := ⟨by rfl, by decide⟩

/-! ## C67: the latest package -/

namespace RepositoryLemmas

theorem inDirection_head {p : Package} {l : List Package} (h : InDirection true (p :: l)) : Highest p (p :: l) := by
  refine ⟨List.mem_cons_self, fun q hq => ?_⟩
  rcases List.mem_cons.mp hq with rfl | hq
  · refine ⟨id, fun u v hu hv => ?_⟩
    rw [hu] at hv
    cases hv
    rw [Version.cmp_refl]
    simp
  · obtain ⟨h1, _⟩ := List.pairwise_cons.mp h
    have := h1 q hq
    exact ⟨this.1, fun u v hu hv => by simpa using this.2 u v hu hv⟩

theorem latest_spec {srt : Sorting} (hs : SortingOk srt) {ps : List Package} (hc : Comparable ps) :
    (ps = [] ∧ latest srt ps = .ok none) ∨ ∃ p, latest srt ps = .ok (some p) ∧ Highest p ps := by
  obtain ⟨l, hl, hp, hd⟩ := C54_sorted_partial hs true none ps hc
  have hsort : srt.sort (sortedCmp true) ps = .ok l := by
    rw [reorder] at hl
    cases hr : srt.sort (sortedCmp true) ps with
    | ok r => rw [hr] at hl; simp only [wrap] at hl; cases hl; rfl
    | err => rw [hr] at hl; cases hl
    | panic => rw [hr] at hl; cases hl
  unfold latest
  rw [hsort]
  cases l with
  | nil => exact Or.inl ⟨List.perm_nil.mp hp.symm, rfl⟩
  | cons p l =>
    refine Or.inr ⟨p, rfl, ?_⟩
    have := inDirection_head hd
    exact ⟨hp.mem_iff.mp this.1, fun q hq => this.2 q (hp.mem_iff.mpr hq)⟩

theorem get_sound (srt : Sorting) {root : Root} (h : Sound root) {s : State} (hs : UpToDate srt root s) (name : Str)
    (v : Option Str) : (Repository.get srt root s name v).2 = choose srt (ofFamily root name) v := by
  obtain ⟨qs, rfl⟩ := hs
  exact (C68_same_partial srt root h qs name v).2

theorem withVersion_eq (ps : List Package) (v : Version) :
    withVersion ps v = ps.find? fun p => p.version.any fun w => w.cmp v == .eq := by
  unfold withVersion
  congr 1
  funext p
  cases p.version <;> rfl

theorem findEach_sound (srt : Sorting) (repos : List Repo) (h : ∀ r ∈ repos, Sound r.1 ∧ UpToDate srt r.1 r.2) (name : Str) :
    (findEach repos name).2 = .ok (repos.flatMap fun r => ofFamily r.1 name) := by
  induction repos with
  | nil => rfl
  | cons r rest ih =>
    obtain ⟨root, s⟩ := r
    have hr := h (root, s) List.mem_cons_self
    have hf := find_sound hr.1 (upToDate_cases hr.2) name
    have hi := ih fun r hr => h r (List.mem_cons_of_mem _ hr)
    rw [findEach]
    cases hg : find root s name with
    | mk s' x =>
      rw [show (find root s name).2 = x by rw [hg]] at hf
      subst hf
      simp only
      cases he : findEach rest name with
      | mk rest' y =>
        rw [he] at hi
        simp only at hi
        subst hi
        rfl

end RepositoryLemmas

/-- C67: searching a family over all repositories gives all its packages, highest version first, packages without
version last, when the versions compare transitively. -/
theorem C67_find {srt : Sorting} (hs : SortingOk srt) (repos : List Repo)
    (h : ∀ r ∈ repos, Sound r.1 ∧ UpToDate srt r.1 r.2) (name : Str)
    (hc : Comparable (repos.flatMap fun r => ofFamily r.1 name)) :
    ∃ l, (managerFind srt repos name).2 = .ok l ∧ l.Perm (repos.flatMap fun r => ofFamily r.1 name) ∧ InDirection true l := by
  obtain ⟨l, hl, hp, hd⟩ := C54_sorted_partial hs true none _ hc
  refine ⟨l, ?_, hp, hd⟩
  have hf := findEach_sound srt repos h name
  unfold managerFind
  cases he : findEach repos name with
  | mk repos' x =>
    rw [he] at hf
    simp only at hf
    subst hf
    simp only
    rw [reorder] at hl
    cases hr : srt.sort (sortedCmp true) (repos.flatMap fun r => ofFamily r.1 name) with
    | ok r => rw [hr] at hl; simp only [wrap] at hl; cases hl; rfl
    | err => rw [hr] at hl; cases hl
    | panic => rw [hr] at hl; cases hl

/-- C67: `get_package` without a version gives the highest version in the first repository that has the family. -/
theorem C67_first {srt : Sorting} (hs : SortingOk srt) (before after : List Repo) (root : Root) (s : State) (name : Str)
    (hb : ∀ r ∈ before, Sound r.1 ∧ UpToDate srt r.1 r.2 ∧ ofFamily r.1 name = [])
    (hr : Sound root ∧ UpToDate srt root s) (hne : ofFamily root name ≠ []) (hc : Comparable (ofFamily root name)) :
    ∃ p, (managerGet srt (before ++ (root, s) :: after) name none).2 = .ok (some p) ∧ Highest p (ofFamily root name) := by
  induction before with
  | nil =>
    rcases latest_spec hs hc with ⟨h, _⟩ | ⟨p, hp, hh⟩
    · exact absurd h hne
    · refine ⟨p, ?_, hh⟩
      have hg := get_sound srt hr.1 hr.2 name none
      rw [List.nil_append, managerGet]
      rw [choose, hp] at hg
      cases he : Repository.get srt root s name none with
      | mk s' x =>
        rw [he] at hg
        simp only at hg
        subst hg
        rfl
  | cons b before ih =>
    obtain ⟨broot, bs⟩ := b
    obtain ⟨h1, h2, h3⟩ := hb (broot, bs) List.mem_cons_self
    obtain ⟨p, hp, hh⟩ := ih fun r hr => hb r (List.mem_cons_of_mem _ hr)
    refine ⟨p, ?_, hh⟩
    have hg := get_sound srt h1 h2 name none
    rcases latest_spec hs (ps := ofFamily broot name) (by rw [h3]; intro p hp; cases hp) with ⟨_, hl⟩ | ⟨q, _, hq⟩
    · rw [choose, hl] at hg
      rw [List.cons_append, managerGet]
      cases he : Repository.get srt broot bs name none with
      | mk s' x =>
        rw [he] at hg
        simp only at hg
        subst hg
        exact hp
    · have := hq.1
      rw [h3] at this
      cases this

/-- C67, partial: this is the highest version over all repositories if only one of them has the family.  Missing: a
family in several repositories (refuted below). -/
theorem C67_latest_partial {srt : Sorting} (hs : SortingOk srt) (before after : List Repo) (root : Root) (s : State)
    (name : Str) (hb : ∀ r ∈ before, Sound r.1 ∧ UpToDate srt r.1 r.2 ∧ ofFamily r.1 name = [])
    (ha : ∀ r ∈ after, ofFamily r.1 name = []) (hr : Sound root ∧ UpToDate srt root s)
    (hne : ofFamily root name ≠ []) (hc : Comparable (ofFamily root name)) :
    ∃ p, (managerGet srt (before ++ (root, s) :: after) name none).2 = .ok (some p) ∧
      Highest p ((before ++ (root, s) :: after).flatMap fun r => ofFamily r.1 name) := by
  obtain ⟨p, hp, hh⟩ := C67_first hs before after root s name hb hr hne hc
  refine ⟨p, hp, ?_⟩
  have h1 : before.flatMap (fun r => ofFamily r.1 name) = [] := by
    rw [List.flatMap_eq_nil_iff]; exact fun r hr => (hb r hr).2.2
  have h2 : after.flatMap (fun r => ofFamily r.1 name) = [] := by
    rw [List.flatMap_eq_nil_iff]; exact ha
  rw [List.flatMap_append, List.flatMap_cons, h1, h2, List.append_nil, List.nil_append]
  exact hh

/-- C67 is false: with version 1 in the first repository and version 2 in the second, the latest package is said to be
version 1, whatever the sort. -/
theorem C67_latest_false {srt : Sorting} (hs : SortingOk srt) :
    ∃ repos : List Repo, (∀ r ∈ repos, Sound r.1 ∧ UpToDate srt r.1 r.2) ∧ ∃ p,
      (managerGet srt repos c!"a" none).2 = .ok (some p) ∧
      ¬ Highest p (repos.flatMap fun r => ofFamily r.1 c!"a") := by
  have hsound : ∀ v, Sound (demoRoot c!"a" [v]) := fun v => ⟨_, rfl, by simp [CleanBelow, Clean]⟩
  refine ⟨[(demoRoot c!"a" [c!"1"], State.new), (demoRoot c!"a" [c!"2"], State.new)], ?_, ?_⟩
  · intro r hr
    rcases List.mem_cons.mp hr with rfl | hr
    · exact ⟨hsound _, [], rfl⟩
    · obtain rfl := List.mem_singleton.mp hr
      exact ⟨hsound _, [], rfl⟩
  · have hof : ofFamily (demoRoot c!"a" [c!"1"]) c!"a" = [pk c!"a" (some c!"1") none] := by rfl
    obtain ⟨p, hp, hh⟩ := C67_first hs [] [(demoRoot c!"a" [c!"2"], State.new)] (demoRoot c!"a" [c!"1"]) State.new c!"a"
      (by simp) ⟨hsound _, [], rfl⟩ (by rw [hof]; simp) (by
        rw [hof]
        intro p hp q hq r hr u v w hu hv hw _ _
        rw [List.mem_singleton.mp hp] at hu
        rw [List.mem_singleton.mp hr] at hw
        rw [hu] at hw
        cases hw
        rw [Version.cmp_refl]
        simp)
    refine ⟨p, hp, ?_⟩
    rw [hof] at hh
    have hp1 := List.mem_singleton.mp hh.1
    subst hp1
    intro hhigh
    have h2 := (hhigh.2 (pk c!"a" (some c!"2") none) (by simp [ofFamily, onDisk, demoRoot, foundBelow, found]; right; rfl)).2
    exact absurd (h2 _ _ rfl rfl) (by decide)

/-- C67: `get_package` with a version gives the first package, in the order of the repositories and their directories,
whose version equals it; none if there is none; an error if the text is no version. -/
theorem C67_version (srt : Sorting) (repos : List Repo) (h : ∀ r ∈ repos, Sound r.1 ∧ UpToDate srt r.1 r.2)
    (name text : Str) :
    (∀ v, Version.parse text = some v → (managerGet srt repos name (some text)).2 =
      .ok ((repos.flatMap fun r => ofFamily r.1 name).find? fun p => p.version.any fun w => w.cmp v == .eq)) ∧
    (Version.parse text = none → repos ≠ [] → (managerGet srt repos name (some text)).2 = .err) := by
  constructor
  · intro v hv
    induction repos with
    | nil => rfl
    | cons r rest ih =>
      obtain ⟨root, s⟩ := r
      obtain ⟨h1, h2⟩ := h (root, s) List.mem_cons_self
      have hi := ih fun r hr => h r (List.mem_cons_of_mem _ hr)
      have hg := get_sound srt h1 h2 name (some text)
      simp only [choose, hv] at hg
      rw [withVersion_eq] at hg
      rw [List.flatMap_cons, List.find?_append, managerGet]
      cases he : Repository.get srt root s name (some text) with
      | mk s' x =>
        rw [he] at hg
        simp only at hg
        subst hg
        cases (ofFamily root name).find? fun p => p.version.any fun w => w.cmp v == .eq with
        | some p => rfl
        | none => simpa using hi
  · intro hv hne
    cases repos with
    | nil => exact absurd rfl hne
    | cons r rest =>
      obtain ⟨root, s⟩ := r
      obtain ⟨h1, h2⟩ := h (root, s) List.mem_cons_self
      have hg := get_sound srt h1 h2 name (some text)
      simp only [choose, hv] at hg
      rw [managerGet]
      cases he : Repository.get srt root s name (some text) with
      | mk s' x =>
        rw [he] at hg
        simp only at hg
        subst hg
        rfl

-- two repositories, one with the family
example : let repos : List Repo := [(demoRoot c!"b" [c!"9"], State.new), (demoRoot c!"a" [c!"1", c!"2"], State.new)]
    (∀ r ∈ repos, Sound r.1) ∧ ofFamily (demoRoot c!"b" [c!"9"]) c!"a" = [] ∧
    (managerGet ⟨fun _ l => .ok l, id⟩ repos c!"a" (some c!"2")).2 = .ok (some (pk c!"a" (some c!"2") none)) := by
  refine ⟨?_, by rfl, by rfl⟩
  intro r hr
  rcases List.mem_cons.mp hr with rfl | hr
  · exact ⟨_, rfl, by simp [CleanBelow, Clean]⟩
  · obtain rfl := List.mem_singleton.mp hr
    exact ⟨_, rfl, by simp [CleanBelow, Clean]⟩

end Rez.Props
