import Verif.Model.Commands
import Verif.Spec.PackageOrder
import Verif.Props.PackageFiles
import Verif.Props.Context
import Verif.Lemmas.RequirementParse
/-!
# Commands: C122 (cp and mv), C123 (rm), C124 (times), C125 (wildcards)
-/
namespace Rez.Props
open Rez Rez.Files Rez.Spec.Files Rez.Commands Rez.Search FilesLemmas
open Rez.PackageOrder (Sorting splitCmp)
open Rez.Spec (SortingOk Consistent)

/-! ## C122: which package, and the move -/

/-- C122, partial: the text `name-version` is read as that name and version.  Missing: versions that hold a dash or do not
start with a digit, and names that end like a version (refuted below). -/
theorem C122_spec_partial (name version : Str) (hd : '-' ∉ version) (c : Char) (t : Str) (hv : version = c :: t) (hc : isDigit c = true) :
    parseSpec (name ++ c!"-" ++ version) = (name, some version) := by
  have h := rsplitOnce_append (d := '-') name hd
  unfold parseSpec
  rw [show name ++ c!"-" ++ version = name ++ '-' :: version by simp, h]
  simp only
  rw [if_pos (by rw [hv]; exact hc)]

/-- C122: a version with a dash, and one that starts with a letter, are taken for a part of the name; a name that ends in a
number is taken apart. -/
theorem C122_spec_false : parseSpec c!"tool-1.0-beta" = (c!"tool-1.0-beta", none) ∧ parseSpec c!"tool-v2" = (c!"tool-v2", none) ∧
    parseSpec c!"tool-1.0-1" = (c!"tool-1.0", some c!"1") ∧ parseSpec c!"python-3" = (c!"python", some c!"3") := by decide

/-- C122: with a version, the package chosen has exactly that version, and one is chosen if there is one. -/
theorem C122_exact (srt : Sorting) (ps : List Package) (text : Str) :
    ∃ r, choose srt ps (some text) = .ok r ∧
      (∀ p, r = some p → p ∈ ps ∧ ∃ v, p.version = some v ∧ v.asStr = text) ∧
      (r = none → ∀ p ∈ ps, ∀ v, p.version = some v → v.asStr ≠ text) := by
  refine ⟨_, rfl, ?_, ?_⟩
  · intro p hp
    refine ⟨List.mem_of_find?_eq_some hp, ?_⟩
    have := List.find?_some hp
    unfold versionIs at this
    split at this
    · rename_i v hv
      exact ⟨v, hv, by simpa using this⟩
    · cases this
  · intro hn p hp v hv he
    have := List.find?_eq_none.mp hn p hp
    simp [versionIs, hv, he] at this

/-- C122: without a version, the package chosen has the lowest version of all. -/
theorem C122_lowest (srt : Sorting) (hs : SortingOk srt) (ps : List Package) (hne : ps ≠ []) (hv : ∀ p ∈ ps, p.version ≠ none)
    (hc : Consistent splitCmp ps) :
    ∃ p ∈ ps, choose srt ps none = .ok (some p) ∧ ∀ q ∈ ps, ∀ v w, p.version = some v → q.version = some w → v.cmp w ≠ .gt := by
  obtain ⟨r, hr, hsort⟩ := hs.sorted _ _ hc
  have hperm := hs.perm _ _ _ hr
  cases r with
  | nil => exact absurd (List.Perm.nil_eq hperm).symm hne
  | cons p r =>
    refine ⟨p, hperm.mem_iff.mp List.mem_cons_self, ?_, ?_⟩
    · simp [choose, hr]
    · intro q hq v w hpv hqw
      rcases List.mem_cons.mp (hperm.mem_iff.mpr hq) with rfl | hq
      · have := hc.1 q (hperm.mem_iff.mp List.mem_cons_self) q (hperm.mem_iff.mp List.mem_cons_self)
        rw [hpv] at hqw
        cases hqw
        have h2 : splitCmp q q = v.cmp v := by simp [splitCmp, hpv]
        rw [h2] at this
        intro hgt
        rw [hgt] at this
        cases this
      · have := (List.pairwise_cons.mp hsort).1 q hq
        simpa [splitCmp, hpv, hqw] using this

/-- A package of a name and a version. -/
def pkg (name version : Str) : Package := ⟨name, Version.parse version, [], [], [], none⟩

/-- A sort for two packages. -/
def sort2 : Sorting := ⟨fun c l => match l with | [a, b] => .ok (if c a b = .gt then [b, a] else [a, b]) | l => .ok l, id⟩

/-- C122 is false: the commands say "latest" and take the oldest. -/
theorem C122_latest_false : ∃ p, choose sort2 [pkg c!"p" c!"2.0", pkg c!"p" c!"1.0"] none = .ok (some p) ∧
    p.version.map Version.asStr = some c!"1.0" :=
  ⟨pkg c!"p" c!"1.0", rfl, by decide⟩

example : Consistent splitCmp [pkg c!"p" c!"2.0", pkg c!"p" c!"1.0"] := by
  constructor <;> decide

/-- C122, partial: wherever a move is stopped, the source is as it was or the destination is complete; and when it succeeds
the destination is complete, the source gone unless it is kept, and nothing else changed.  Missing: a source and a
destination of which one holds the other (refuted below), links, sockets, pipes and devices. -/
theorem C122_move_partial (order : Order) (ho : Lists order) (fs : FS) (hok : Ok fs) (force keep : Bool) (src dest : Path)
    (hdir : mget fs src = some .dir) (hd : Apart src dest)
    (hs : ∀ r, mget fs (src ++ r) ≠ some .special ∧ ∀ t, mget fs (src ++ r) ≠ some (.link t)) :
    (∀ pre, Stops (moveDir order fs force keep src dest).1 pre → Same fs src (run fs pre) src ∨ Same fs src (run fs pre) dest) ∧
    ((moveDir order fs force keep src dest).2 = .ok () →
      let fs' := run fs (moveDir order fs force keep src dest).1
      Same fs src fs' dest ∧ (keep = false → Gone fs' src) ∧ (keep = true → Same fs src fs' src) ∧
      ∀ q, ¬ dest <+: q → ¬ q <+: dest → ¬ src <+: q → mget fs' q = mget fs q) := by
  have hcopied : ∀ pre, Stops (copyInto order fs force src dest).1 pre → Same fs src (run fs pre) src := by
    intro pre hp r
    apply run_other
    intro s hs he
    have := copyInto_paths ho fs force src dest s (hp.subset hs)
    rw [he] at this
    rcases this with ⟨t, ht⟩ | h
    · exact apart_ne hd r t ht.symm
    · exact hd.1 ((List.prefix_append src r).trans h)
  unfold moveDir
  cases hc : copyInto order fs force src dest with
  | mk steps res =>
    rw [hc] at hcopied
    cases res with
    | error e => exact ⟨fun pre hp => Or.inl (hcopied pre hp), fun h => by simp at h⟩
    | ok c =>
      have h := copyInto_ok ho hok hc hdir hd fun r => (hs r).1
      simp only
      cases keep with
      | true =>
        simp only [if_true]
        exact ⟨fun pre hp => Or.inl (hcopied pre hp), fun _ =>
          ⟨h.2.2.1, by simp, fun _ => hcopied _ List.prefix_rfl, fun q h1 h2 _ => h.2.2.2.2.2.1 q h1 h2⟩⟩
      | false =>
        simp only [Bool.false_eq_true, if_false]
        have hsrc : mget (run fs steps) src = some .dir := by
          have := hcopied steps List.prefix_rfl []
          rw [List.append_nil] at this
          rw [this, hdir]
        rw [if_pos hsrc]
        have hdest : ∀ post, (∀ s ∈ post, src <+: path s) → Same fs src (run (run fs steps) post) dest := by
          intro post hpost r
          rw [run_other]
          · exact h.2.2.1 r
          · intro s hs he
            obtain ⟨t, ht⟩ := hpost s hs
            rw [he] at ht
            exact apart_ne hd t r ht
        constructor
        · intro pre hp
          rcases prefix_append_cases hp with h' | ⟨post, rfl, h'⟩
          · exact Or.inl (hcopied pre h')
          · right
            rw [run_append]
            exact hdest post fun s hs => removeTree_path ho _ _ s (h'.subset hs)
        · intro _
          simp only
          rw [run_append]
          refine ⟨hdest _ (removeTree_path ho _ _), ?_, by simp, ?_⟩
          · intro _ r
            rw [removeTree_get ho, if_pos (List.prefix_append _ _)]
          · intro q h1 h2 h3
            rw [removeTree_get ho, if_neg h3]
            exact h.2.2.2.2.2.1 q h1 h2

/-- C122 is false of a forced move of a package onto itself: it succeeds, and the package is gone. -/
theorem C122_self_false : (moveDir id shop true false [c!"r", c!"p", c!"1"] [c!"r", c!"p", c!"1"]).2 = .ok () ∧
    mget (run shop (moveDir id shop true false [c!"r", c!"p", c!"1"] [c!"r", c!"p", c!"1"]).1) [c!"r", c!"p", c!"1"] = none :=
  ⟨rfl, by decide⟩

/-- C122: the whole command, on that package. -/
example : (mv id sort2 shop [[c!"r"]] true false false (fun _ => [pkg c!"p" c!"1"]) c!"p-1" [c!"s"]).2 = .ok (.ok ()) ∧
    mget (run shop (mv id sort2 shop [[c!"r"]] true false false (fun _ => [pkg c!"p" c!"1"]) c!"p-1" [c!"s"]).1)
      [c!"s", c!"p", c!"1", c!"package.py"] = some (.file c!"x") :=
  ⟨by rfl, by decide +kernel⟩

/-- C122: a dry run, a package that is not found, and a destination that exists without force change nothing. -/
theorem C122_dry (order : Order) (srt : Sorting) (fs : FS) (bases : List Path) (force keep : Bool) (find : Str → List Package)
    (text : Str) (destBase : Path) : run fs (mv order srt fs bases force keep true find text destBase).1 = fs := by
  unfold mv
  split
  · rfl
  · rfl
  · rfl
  · split
    · rfl
    · simp only
      split
      · rfl
      · rfl

/-! ## C123: rm -/

namespace CommandLemmas

theorem removeSingle_path {order : Order} (ho : Lists order) (fs : FS) (bases : List Path) (p : Package) :
    ∀ s ∈ removeSingle order fs bases p, ∃ b ∈ bases, join (join b p.name) (versionText p) <+: path s ∧
      mget fs (join (join b p.name) (versionText p)) = some .dir := by
  intro s hs
  unfold removeSingle at hs
  split at hs
  · cases hs
  · rename_i d hd
    split at hs
    · rename_i hdir
      obtain ⟨b, hb, rfl⟩ := List.mem_map.mp (List.mem_of_find?_eq_some hd)
      exact ⟨b, hb, removeTree_path ho _ _ s hs, hdir⟩
    · cases hs

/-- Removing never adds or changes an entry. -/
theorem removeSingle_get {order : Order} (ho : Lists order) (fs : FS) (bases : List Path) (p : Package) (q : Path) :
    mget (run fs (removeSingle order fs bases p)) q = mget fs q ∨ mget (run fs (removeSingle order fs bases p)) q = none := by
  unfold removeSingle
  split
  · exact Or.inl rfl
  · split
    · rw [removeTree_get ho]
      split
      · exact Or.inr rfl
      · exact Or.inl rfl
    · exact Or.inl rfl

theorem removeEach_path {order : Order} (ho : Lists order) (bases : List Path) (fs : FS) (ps : List Package) :
    ∀ s ∈ removeEach order bases fs ps, ∃ p ∈ ps, ∃ b ∈ bases, join (join b p.name) (versionText p) <+: path s ∧
      mget fs (join (join b p.name) (versionText p)) = some .dir := by
  induction ps generalizing fs with
  | nil => intro s hs; cases hs
  | cons p ps ih =>
    intro s hs
    rw [removeEach] at hs
    rcases List.mem_append.mp hs with h | h
    · obtain ⟨b, hb, hp⟩ := removeSingle_path ho _ _ _ s h
      exact ⟨p, List.mem_cons_self, b, hb, hp⟩
    · obtain ⟨q, hq, b, hb, hp, hd⟩ := ih _ s h
      refine ⟨q, List.mem_cons_of_mem _ hq, b, hb, hp, ?_⟩
      rcases removeSingle_get ho fs bases p (join (join b q.name) (versionText q)) with h' | h'
      · rw [← h', hd]
      · rw [h'] at hd; cases hd

theorem removeEach_get {order : Order} (ho : Lists order) (bases : List Path) (fs : FS) (ps : List Package) (q : Path) :
    mget (run fs (removeEach order bases fs ps)) q = mget fs q ∨ mget (run fs (removeEach order bases fs ps)) q = none := by
  induction ps generalizing fs with
  | nil => exact Or.inl rfl
  | cons p ps ih =>
    rw [removeEach, run_append]
    rcases ih (run fs (removeSingle order fs bases p)) with h | h
    · rw [h]
      exact removeSingle_get ho fs bases p q
    · exact Or.inr h

end CommandLemmas
open CommandLemmas

/-- C123: what `rm` removes is below the directory, in a search path, of a package of that name that was found, has the
version asked for, and was confirmed. -/
theorem C123_only (order : Order) (ho : Lists order) (fs : FS) (bases : List Path) (dryRun : Bool) (confirm : Package → Bool)
    (find : Str → List Package) (text : Str) (q : Path)
    (h : mget (run fs (rm order fs bases dryRun confirm find text)) q ≠ mget fs q) :
    dryRun = false ∧ mget (run fs (rm order fs bases dryRun confirm find text)) q = none ∧
    ∃ p ∈ find (parseSpec text).1, confirm p = true ∧
      (∀ v, (parseSpec text).2 = some v → ∃ w, p.version = some w ∧ w.asStr = v) ∧
      ∃ b ∈ bases, join (join b p.name) (versionText p) <+: q := by
  cases dryRun with
  | true => exact absurd rfl h
  | false =>
    simp only [rm, Bool.false_eq_true, if_false] at h ⊢
    have hex : ∃ s ∈ removeEach order bases fs ((toRemove (find (parseSpec text).1) (parseSpec text).2).filter confirm), path s = q := by
      by_contra hno
      exact h (run_other fs _ fun s hs he => hno ⟨s, hs, he⟩)
    obtain ⟨s, hs, he⟩ := hex
    obtain ⟨p, hp, b, hb, hpre, _⟩ := removeEach_path ho bases fs _ s hs
    rw [he] at hpre
    have hpm := List.mem_filter.mp hp
    refine ⟨trivial, ?_, p, ?_, hpm.2, ?_, b, hb, hpre⟩
    · rcases removeEach_get ho bases fs ((toRemove (find (parseSpec text).1) (parseSpec text).2).filter confirm) q with h' | h'
      · exact absurd h' h
      · exact h'
    · cases hv : (parseSpec text).2 with
      | none => rw [hv] at hpm; exact hpm.1
      | some v => rw [hv] at hpm; exact (List.mem_filter.mp hpm.1).1
    · intro v hv
      rw [hv] at hpm
      have := (List.mem_filter.mp hpm.1).2
      unfold versionIs at this
      split at this
      · rename_i w hw
        exact ⟨w, hw, by simpa using this⟩
      · cases this

/-- C123, partial: a package that was found, asked for and confirmed is gone from the search paths afterwards.  Missing: a
version that lies in several search paths and was found fewer times than that; the copies beyond are left. -/
theorem C123_gone_partial (order : Order) (ho : Lists order) (fs : FS) (bases : List Path) (confirm : Package → Bool)
    (find : Str → List Package) (text : Str) (p : Package) (hp : p ∈ find (parseSpec text).1) (hc : confirm p = true)
    (hv : ∀ v, (parseSpec text).2 = some v → ∃ w, p.version = some w ∧ w.asStr = v) (hn : Component p.name)
    (hvt : Component (versionText p)) (b : Path) (hb : b ∈ bases) (hd : mget fs (b ++ [p.name, versionText p]) = some .dir)
    (huniq : ∀ b' ∈ bases, (mget fs (b' ++ [p.name, versionText p])).isSome → b' = b) :
    Gone (run fs (rm order fs bases false confirm find text)) (b ++ [p.name, versionText p]) := by
  have hmem : p ∈ (toRemove (find (parseSpec text).1) (parseSpec text).2).filter confirm := by
    refine List.mem_filter.mpr ⟨?_, hc⟩
    cases hs : (parseSpec text).2 with
    | none => exact hp
    | some v =>
      obtain ⟨w, hw, hwv⟩ := hv v hs
      exact List.mem_filter.mpr ⟨hp, by simp [versionIs, hw, hwv]⟩
  simp only [rm, Bool.false_eq_true, if_false]
  generalize (toRemove (find (parseSpec text).1) (parseSpec text).2).filter confirm = ps at hmem
  -- by induction over the packages: at each point the directory is there, or all of it is gone
  have key : ∀ (ps : List Package) (fs : FS), p ∈ ps →
      (mget fs (b ++ [p.name, versionText p]) = some .dir ∨ Gone fs (b ++ [p.name, versionText p])) →
      (∀ b' ∈ bases, (mget fs (b' ++ [p.name, versionText p])).isSome → b' = b) →
      Gone (run fs (removeEach order bases fs ps)) (b ++ [p.name, versionText p]) := by
    intro ps
    induction ps with
    | nil => intro fs h; cases h
    | cons x ps ih =>
      intro fs hmem hstate huniq
      rw [removeEach, run_append]
      have hshrink := removeSingle_get ho fs bases x
      have hgone : Gone (run fs (removeSingle order fs bases x)) (b ++ [p.name, versionText p]) →
          Gone (run (run fs (removeSingle order fs bases x)) (removeEach order bases (run fs (removeSingle order fs bases x)) ps))
            (b ++ [p.name, versionText p]) := by
        intro hg r
        rcases removeEach_get ho bases (run fs (removeSingle order fs bases x)) ps (b ++ [p.name, versionText p] ++ r) with h | h
        · rw [h, hg r]
        · exact h
      rcases hstate with hstate | hstate
      · rcases List.mem_cons.mp hmem with rfl | hmem
        · apply hgone
          unfold removeSingle
          have hmap : (bases.map fun b => join (join b p.name) (versionText p)) = bases.map fun b => b ++ [p.name, versionText p] :=
            List.map_congr_left fun b _ => join_two b hn hvt
          rw [hmap]
          cases hf : (bases.map fun b => b ++ [p.name, versionText p]).find? fun d => (mget fs d).isSome with
          | none =>
            have := List.find?_eq_none.mp hf (b ++ [p.name, versionText p]) (List.mem_map_of_mem hb)
            rw [hstate] at this
            exact absurd rfl this
          | some d =>
            obtain ⟨b', hb', rfl⟩ := List.mem_map.mp (List.mem_of_find?_eq_some hf)
            have hsm := List.find?_some hf
            have := huniq b' hb' hsm
            subst this
            simp only
            rw [if_pos hstate]
            intro r
            rw [removeTree_get ho, if_pos (List.prefix_append _ _)]
        · apply ih _ hmem
          · -- either untouched, or removed with a directory above it
            unfold removeSingle
            split
            · exact Or.inl hstate
            · split
              · rename_i d _ _
                by_cases hpre : d <+: b ++ [p.name, versionText p]
                · right
                  intro r
                  rw [removeTree_get ho, if_pos (hpre.trans (List.prefix_append _ _))]
                · left
                  rw [removeTree_get ho, if_neg hpre, hstate]
              · exact Or.inl hstate
          · intro b' hb' hsome
            apply huniq b' hb'
            rcases hshrink (b' ++ [p.name, versionText p]) with h | h
            · rw [← h]; exact hsome
            · rw [h] at hsome; cases hsome
      · apply hgone
        intro r
        rcases hshrink (b ++ [p.name, versionText p] ++ r) with h | h
        · rw [h, hstate r]
        · exact h
  exact key ps fs hmem (Or.inl hd) huniq

/-- C123, partial: what is removed for being older than a time is older, if no version is in two of the paths.  Missing:
versions in several paths (refuted below). -/
theorem C123_ignored_partial (order : Order) (ho : Lists order) (fs : FS) (given configured : List Path) (dryRun : Bool)
    (mtime : Path → Option Nat) (cutoff : Nat) (ps : List Package) (hc : ∀ p ∈ ps, Component p.name ∧ Component (versionText p))
    (hok : Ok fs)
    (huniq : ∀ p ∈ ps, ∀ b ∈ given, ∀ b' ∈ given, (mget fs (b ++ [p.name, versionText p])).isSome →
      (mget fs (b' ++ [p.name, versionText p])).isSome → b = b') (q : Path)
    (h : mget (run fs (removeIgnored order fs given configured dryRun mtime cutoff ps)) q ≠ mget fs q) :
    ∃ p ∈ ps, ∃ b ∈ given, b ++ [p.name, versionText p] <+: q ∧
      ∃ t, mtime (b ++ [p.name, versionText p, c!"package.py"]) = some t ∧ t < cutoff := by
  cases dryRun with
  | true => exact absurd rfl h
  | false =>
    simp only [removeIgnored, Bool.false_eq_true, if_false] at h
    cases hg : given.isEmpty with
    | true =>
      exfalso
      apply h
      have hnil : given = [] := List.isEmpty_iff.mp hg
      have : ps.filter (ignored fs given mtime cutoff) = [] := by
        apply List.filter_eq_nil_iff.mpr
        intro p _
        rw [hnil]
        simp [ignored]
      rw [this]
      rfl
    | false =>
      rw [hg] at h
      simp only [Bool.false_eq_true, if_false] at h
      have hex : ∃ s ∈ removeEach order given fs (ps.filter (ignored fs given mtime cutoff)), path s = q := by
        by_contra hno
        exact h (run_other fs _ fun s hs he => hno ⟨s, hs, he⟩)
      obtain ⟨s, hs, he⟩ := hex
      obtain ⟨p, hp, b, hb, hpre, hdir⟩ := removeEach_path ho given fs _ s hs
      have hpm := List.mem_filter.mp hp
      have hcp := hc p hpm.1
      rw [he, join_two b hcp.1 hcp.2] at hpre
      rw [join_two b hcp.1 hcp.2] at hdir
      refine ⟨p, hpm.1, b, hb, hpre, ?_⟩
      have hi := hpm.2
      unfold ignored at hi
      split at hi
      · cases hi
      · rename_i f hf
        obtain ⟨b', hb', rfl⟩ := List.mem_map.mp (List.mem_of_find?_eq_some hf)
        have hsome := List.find?_some hf
        have hpy : Component c!"package.py" := ⟨by decide, by decide, by decide⟩
        rw [join_two b' hcp.1 hcp.2, join_component _ hpy] at hsome hi
        have hpar := hok.parents _ (b' ++ [p.name, versionText p]) (List.prefix_append _ [c!"package.py"])
          (by simp) hsome
        have hbb := huniq p hpm.1 b hb b' hb' (by rw [hdir]; rfl) (by rw [hpar]; rfl)
        subst hbb
        rw [show b ++ [p.name, versionText p, c!"package.py"] = b ++ [p.name, versionText p] ++ [c!"package.py"] by simp]
        split at hi
        · rename_i t ht
          exact ⟨t, ht, by simpa using hi⟩
        · cases hi

/-- Two repositories with the same version. -/
def twice : FS := shop ++ [([c!"s"], .dir), ([c!"s", c!"p"], .dir), ([c!"s", c!"p", c!"1"], .dir),
  ([c!"s", c!"p", c!"1", c!"package.py"], .file c!"y")]

/-- C123 is false of versions in two repositories: the newer copy is removed with the older one. -/
theorem C123_ignored_false : ∃ mtime : Path → Option Nat,
    mtime [c!"s", c!"p", c!"1", c!"package.py"] = some 200 ∧
    mget twice [c!"s", c!"p", c!"1", c!"package.py"] = some (.file c!"y") ∧
    mget (run twice (removeIgnored id twice [[c!"r"], [c!"s"]] [] false mtime 100 [pkg c!"p" c!"1", pkg c!"p" c!"1"]))
      [c!"s", c!"p", c!"1", c!"package.py"] = none :=
  ⟨fun p => if p = [c!"s", c!"p", c!"1", c!"package.py"] then some 200 else some 50, by decide, by decide, by decide +kernel⟩

/-- C123 is false of configured paths: nothing in them is ever found to be old. -/
theorem C123_configured_false (order : Order) (fs : FS) (configured : List Path) (dryRun : Bool) (mtime : Path → Option Nat)
    (cutoff : Nat) (ps : List Package) : run fs (removeIgnored order fs [] configured dryRun mtime cutoff ps) = fs := by
  have : ps.filter (ignored fs [] mtime cutoff) = [] := List.filter_eq_nil_iff.mpr fun p _ => by simp [ignored]
  unfold removeIgnored
  rw [this]
  split <;> rfl

/-- C123: without a version all versions are removed; an old copy in a single repository is removed, a new one is kept. -/
example : mget (run shop (rm id shop [[c!"r"]] false (fun _ => true) (fun _ => [pkg c!"p" c!"1"]) c!"p"))
      [c!"r", c!"p", c!"1"] = none ∧
    mget (run shop (removeIgnored id shop [[c!"r"]] [] false (fun _ => some 50) 100 [pkg c!"p" c!"1"])) [c!"r", c!"p", c!"1"] = none ∧
    mget (run shop (removeIgnored id shop [[c!"r"]] [] false (fun _ => some 150) 100 [pkg c!"p" c!"1"])) [c!"r", c!"p", c!"1"]
      = some .dir := by decide +kernel

/-! ## C124: times -/

namespace CommandLemmas

theorem trim_snoc_last {w : Str} {c : Char} (hc : isWs c = false) (hw : ∀ x ∈ w.head?, isWs x = false) :
    trim (w ++ [c]) = w ++ [c] := by
  apply trim_of_trimmed
  constructor
  · intro x hx
    cases w with
    | nil => simp at hx; exact hx ▸ hc
    | cons y t => exact hw x (by simpa using hx)
  · intro x hx
    simp at hx
    exact hx ▸ hc

theorem isDigit_facts {c : Char} (h : isDigit c = true) : isWs c = false ∧ c ≠ '-' ∧ c ≠ '+' := by
  unfold isDigit at h
  simp only [Bool.and_eq_true, decide_eq_true_eq] at h
  refine ⟨?_, ?_, ?_⟩
  · unfold isWs
    simp
    have h1 : c.val.toNat = c.toNat := rfl
    omega
  · rintro rfl
    exact absurd h.1 (by decide)
  · rintro rfl
    exact absurd h.1 (by decide)

theorem decimal_head (n : Nat) : ∃ c t, decimal n = c :: t ∧ isDigit c = true := by
  cases h : decimal n with
  | nil => exact absurd h (decimal_ne n)
  | cons c t =>
    have := decimal_digits n
    rw [h, List.all_cons, Bool.and_eq_true] at this
    exact ⟨c, t, rfl, this.1⟩

theorem parseI64_dec {n : Nat} (h : n < 2 ^ 63) : parseI64 (decimal n) = some (n : Int) := by
  obtain ⟨c, t, hc, hd⟩ := decimal_head n
  have hf := isDigit_facts hd
  have hall := decimal_digits n
  have hval := decimal_val n
  rw [hc] at hall hval ⊢
  unfold parseI64
  split
  · rename_i heq
    exact absurd (List.cons.inj heq).1 hf.2.1
  · rename_i heq
    exact absurd (List.cons.inj heq).1 hf.2.2
  · rw [if_pos (by rw [hall, hval]; simpa using h), hval]

theorem parseI64_neg {n : Nat} (h : n ≤ 2 ^ 63) : parseI64 ('-' :: decimal n) = some (-(n : Int)) := by
  unfold parseI64
  have hne : (decimal n).isEmpty = false := by
    cases hd : decimal n with
    | nil => exact absurd hd (decimal_ne n)
    | cons => rfl
  simp only
  rw [if_pos (by rw [decimal_digits n, decimal_val, hne]; simpa using h), decimal_val]

theorem wrap_small {n : Int} (h1 : -2 ^ 63 ≤ n) (h2 : n < 2 ^ 63) : wrap n = n := by
  unfold wrap
  rw [Int.emod_eq_of_lt] <;> omega

theorem relative_eq (checks : Bool) (now : Int) (w : Str) (u : Char) (n secs : Int) (hu : u.utf8Size = 1) (hws : isWs u = false)
    (hw : ∀ x ∈ w.head?, isWs x = false) (hp : parseI64 w = some n) (hs : unitSeconds u = some secs)
    (h1 : isI64 (n * secs) = true) (h2 : isI64 (now - n * secs) = true) :
    relativeTime checks now (w ++ [u]) = .ok (some (now - n * secs)) := by
  unfold relativeTime
  rw [trim_snoc_last hws hw]
  simp only [List.getLast?_append, List.getLast?_singleton, Option.some_or, List.dropLast_concat, hp, hs, hu, h1, h2]
  unfold isI64 at h2
  simp only [Bool.and_eq_true, decide_eq_true_eq] at h2
  rw [wrap_small h2.1 h2.2]
  simp

end CommandLemmas
open CommandLemmas

/-- The seconds in the units of time. -/
def units : List (Char × Int) :=
  [('d', 86400), ('D', 86400), ('w', 604800), ('W', 604800), ('m', 2592000), ('M', 2592000), ('y', 31536000), ('Y', 31536000)]

/-- C124: a number and a unit is that long before now. -/
theorem C124_relative (iso : Str → Option Int) (checks : Bool) (now : Int) (hnow : 0 ≤ now ∧ now < 2 ^ 62) (n : Nat) (u : Char)
    (secs : Int) (hu : (u, secs) ∈ units) (hn : n * secs ≤ now) (hi : iso (decimal n ++ [u]) = none) :
    timeSpec iso checks now (decimal n ++ [u]) = .ok (now - n * secs).toNat := by
  have hsecs : 86400 ≤ secs ∧ unitSeconds u = some secs ∧ u.utf8Size = 1 ∧ isWs u = false := by
    have : ∀ e ∈ units, 86400 ≤ e.2 ∧ unitSeconds e.1 = some e.2 ∧ e.1.utf8Size = 1 ∧ isWs e.1 = false := by decide
    exact this _ hu
  have hnn : (n : Int) * 86400 ≤ n * secs := Int.mul_le_mul_of_nonneg_left hsecs.1 (by omega)
  have hn63 : n < 2 ^ 63 := by omega
  have hpos : (0 : Int) ≤ n * secs := by omega
  obtain ⟨c, t, hc, hd⟩ := decimal_head n
  unfold timeSpec timestamp
  rw [hi]
  simp only
  rw [relative_eq checks now (decimal n) u n secs hsecs.2.2.1 hsecs.2.2.2 (by
    rw [hc]; intro x hx; simp at hx; exact hx ▸ (isDigit_facts hd).1) (parseI64_dec hn63) hsecs.2.1 (by
      unfold isI64; simp only [Bool.and_eq_true, decide_eq_true_eq]; omega) (by
      unfold isI64; simp only [Bool.and_eq_true, decide_eq_true_eq]; omega)]
  simp only
  rw [if_pos (by omega)]

/-- C124: a date that is not before 1970 is that time. -/
theorem C124_date (iso : Str → Option Int) (checks : Bool) (now : Int) (s : Str) (t : Nat) (h : iso s = some (t : Int)) :
    timeSpec iso checks now s = .ok t := by
  simp [timeSpec, timestamp, h]

/-- C124 is false of a text that ends in a character of more than one byte: the program panics. -/
theorem C124_panic_false (iso : Str → Option Int) (checks : Bool) (now : Int) (w : Str) (c : Char) (hc : c.utf8Size ≠ 1)
    (hws : isWs c = false) (hw : ∀ x ∈ w.head?, isWs x = false) (hi : iso (w ++ [c]) = none) :
    timeSpec iso checks now (w ++ [c]) = .panic := by
  unfold timeSpec timestamp
  rw [hi]
  simp only
  unfold relativeTime
  rw [trim_snoc_last hws hw]
  simp [hc]

/-- C124 is false of negative numbers: they are times to come, so everything is older. -/
theorem C124_future_false (checks : Bool) (now : Int) (hnow : 0 ≤ now ∧ now < 2 ^ 61) (n : Nat) (hn : 0 < n ∧ n < 2 ^ 40) :
    ∃ t, relativeTime checks now (c!"-" ++ decimal n ++ c!"d") = .ok (some t) ∧ now < t := by
  refine ⟨now - (-(n : Int)) * 86400, ?_, by omega⟩
  exact relative_eq checks now ('-' :: decimal n) 'd' (-n) 86400 (by decide) (by decide) (by
    intro x hx; simp at hx; subst hx; decide) (parseI64_neg (by omega)) (by decide) (by
      unfold isI64; simp only [Bool.and_eq_true, decide_eq_true_eq]; omega) (by
      unfold isI64; simp only [Bool.and_eq_true, decide_eq_true_eq]; omega)

/-- C124 is false of great numbers: a release build takes a time to come for the far past, another panics. -/
theorem C124_overflow_false : relativeTime false 0 c!"9223372036854775807d" = .ok (some 86400) ∧
    relativeTime true 0 c!"9223372036854775807d" = .panic := by decide +kernel

example : timeSpec (fun _ => none) true 1000000 c!"3d" = .ok 740800 := by decide +kernel
example : ('w', 604800) ∈ units := by decide
example : 'é'.utf8Size ≠ 1 ∧ isWs 'é' = false := by decide

/-! ## C125: wildcards -/

namespace CommandLemmas

theorem splitOnce_absent {p : Char} {ps s : Str} (h : p ∉ s) : splitOnce (p :: ps) s = none := by
  induction s with
  | nil => simp [splitOnce]
  | cons c s ih =>
    rw [List.mem_cons, not_or] at h
    rw [splitOnce, if_neg (by simp [List.isPrefixOf, h.1]), ih h.2]
    rfl

theorem splitOnce_first {p : Char} {ps a : Str} (h : p ∉ a) (b : Str) : splitOnce (p :: ps) (a ++ (p :: ps) ++ b) = some (a, b) := by
  induction a with
  | nil =>
    rw [List.nil_append, List.cons_append, splitOnce, if_pos]
    · simp
    · rw [← List.cons_append]; exact List.isPrefixOf_iff_prefix.mpr (List.prefix_append _ _)
  | cons c a ih =>
    rw [List.mem_cons, not_or] at h
    rw [List.cons_append, List.cons_append, splitOnce, if_neg (by simp [List.isPrefixOf, h.1]), ih h.2]
    rfl

/-- A text that occurs once is replaced once. -/
theorem replace_once {u by_ a b : Str} (hu : u ≠ []) (h : ∀ x y, a ++ u ++ b = x ++ u ++ y → x = a) :
    Rex.replaceAux u by_ 0 (a ++ u ++ b) = a ++ by_ ++ b := by
  induction a with
  | nil =>
    rw [List.nil_append, RexLemmas.replace_hit u by_ b hu]
    have : containsStr b u = false := by
      cases hc : containsStr b u with
      | false => rfl
      | true =>
        obtain ⟨x, y, hxy⟩ := (containsStr_iff b u).mp hc
        have := h (u ++ x) y (by rw [← hxy]; simp)
        rw [List.append_eq_nil_iff] at this
        exact absurd this.1 hu
    have hn := ContextLemmas.replace_none u by_ b this
    unfold Rex.replaceAll at hn
    rw [hn]
    simp
  | cons c a ih =>
    have hnot : ¬ u.isPrefixOf (c :: (a ++ u ++ b)) = true := by
      intro hp
      obtain ⟨t, ht⟩ := List.isPrefixOf_iff_prefix.mp hp
      have := h [] t (by simpa using ht.symm)
      cases this
    rw [List.cons_append, List.cons_append, Rex.replaceAux, if_neg hnot, ih]
    · simp
    · intro x y hxy
      have := h (c :: x) y (by simp [← hxy])
      exact (List.cons.inj this).2

end CommandLemmas

/-- C125: a requirement without a wildcard is left as it is. -/
theorem C125_plain (fresh : Nat → Str) (iter : List (Str × Str) → List (Str × Str)) (query : Str → Option Str → Option Str)
    (s : Str) (h : '*' ∉ s) : expandRequirement fresh iter query s = .ok s := by
  unfold expandRequirement
  rw [if_pos (by simpa using h)]

/-- C125 is false of `name-1.**`, the example in the documentation: the program panics on every requirement that ends in
its first two stars. -/
theorem C125_panic_false (fresh : Nat → Str) (iter : List (Str × Str) → List (Str × Str)) (query : Str → Option Str → Option Str)
    (a : Str) (h : '*' ∉ a) : expandRequirement fresh iter query (a ++ c!"**") = .panic := by
  unfold expandRequirement replaceWildcards
  rw [if_neg (by simp)]
  have hl : (a ++ c!"**").length = (a.length + 1) + 1 := by simp
  have hs := splitOnce_first (ps := ['*']) h []
  rw [List.append_nil] at hs
  rw [hl, doubles, show (a ++ c!"**") = a ++ ['*', '*'] from rfl, hs]

namespace CommandLemmas

theorem replace_one_star (fresh : Nat → Str) (a b : Str) (ha : '*' ∉ a) (hb : '*' ∉ b) (hf : '*' ∉ fresh 0) :
    replaceWildcards fresh (a ++ c!"*" ++ b) = .ok (a ++ fresh 0 ++ b, [(fresh 0, c!"*")]) := by
  unfold replaceWildcards
  have hl : (a ++ c!"*" ++ b).length = (a.length + b.length) + 1 := by simp; omega
  have hd : splitOnce c!"**" (a ++ c!"*" ++ b) = none := by
    have key : ∀ a : Str, '*' ∉ a → splitOnce ['*', '*'] (a ++ '*' :: b) = none := by
      intro a ha
      induction a with
      | nil =>
        have hnp : ¬ ['*', '*'].isPrefixOf ('*' :: b) = true := by
          cases b with
          | nil => simp [List.isPrefixOf]
          | cons c b =>
            rw [List.mem_cons, not_or] at hb
            simp [List.isPrefixOf, hb.1]
        rw [List.nil_append, splitOnce, if_neg hnp, splitOnce_absent hb]
        rfl
      | cons c a ih =>
        rw [List.mem_cons, not_or] at ha
        rw [List.cons_append, splitOnce, if_neg (by simp [List.isPrefixOf, ha.1]), ih ha.2]
        rfl
    have := key a ha
    rw [show a ++ c!"*" ++ b = a ++ '*' :: b by simp]
    exact this
  have hstar : '*' ∉ a ++ fresh 0 ++ b := by simp [ha, hb, hf]
  have hsingle : singles fresh (a ++ c!"*" ++ b).length 0 (a ++ c!"*" ++ b) = (a ++ fresh 0 ++ b, [(fresh 0, c!"*")]) := by
    rw [hl, singles, splitOnce_first (ps := []) ha b]
    simp only
    have : singles fresh (a.length + b.length) (0 + 1) (a ++ fresh 0 ++ b) = (a ++ fresh 0 ++ b, []) := by
      cases a.length + b.length with
      | zero => rfl
      | succ n => rw [singles, splitOnce_absent hstar]
    rw [this]
  have hdouble : doubles fresh (a ++ c!"*" ++ b).length 0 (a ++ c!"*" ++ b) = .ok (a ++ c!"*" ++ b, 0, []) := by
    rw [hl, doubles, hd]
  rw [hdouble]
  simp only
  rw [hsingle]
  rfl

end CommandLemmas

/-- C125 is false of every requirement with one star that is read as a name, a dash and a version: whatever the latest
version is, the star is still there. -/
theorem C125_unexpanded_false (fresh : Nat → Str) (iter : List (Str × Str) → List (Str × Str)) (hiter : ∀ l, (iter l).Perm l)
    (query : Str → Option Str → Option Str) (a b : Str) (ha : '*' ∉ a) (hb : '*' ∉ b) (hf : '*' ∉ fresh 0) (hne : fresh 0 ≠ [])
    (honce : ∀ x y, a ++ fresh 0 ++ b = x ++ fresh 0 ++ y → x = a) (name version : Str) (weak conflict : Bool)
    (hp : PackageRequirement.parse (a ++ fresh 0 ++ b) = .ok ⟨name, some version, weak, conflict⟩)
    (heq : a ++ fresh 0 ++ b = name ++ c!"-" ++ version) :
    expandRequirement fresh iter query (a ++ c!"*" ++ b) = .ok (a ++ c!"*" ++ b) := by
  unfold expandRequirement
  rw [if_neg (by simp), replace_one_star fresh a b ha hb hf]
  simp only
  rw [hp]
  simp only
  split
  · rfl
  · rename_i latest _
    have hiter1 : iter [(fresh 0, c!"*")] = [(fresh 0, c!"*")] := List.perm_singleton.mp (hiter _)
    rw [hiter1]
    have hnot : containsStr version (a ++ fresh 0 ++ b) = false := by
      cases hc : containsStr version (a ++ fresh 0 ++ b) with
      | false => rfl
      | true =>
        have := ((containsStr_iff _ _).mp hc).length_le
        rw [heq] at this
        simp at this
        omega
    simp only [expanded, restoreWildcards, List.foldl_cons, List.foldl_nil]
    rw [ContextLemmas.replace_none _ _ _ hnot, ← heq]
    unfold Rex.replaceAll
    rw [replace_once hne honce]

/-- C125 is false of every requirement with one star that is read as a name: the latest version is asked for of a package
named by the whole requirement with the placeholder in it; if there is none the requirement comes back as it was, else
with the version behind the star. -/
theorem C125_name_false (fresh : Nat → Str) (iter : List (Str × Str) → List (Str × Str)) (hiter : ∀ l, (iter l).Perm l)
    (query : Str → Option Str → Option Str) (a b : Str) (ha : '*' ∉ a) (hb : '*' ∉ b) (hf : '*' ∉ fresh 0) (hne : fresh 0 ≠ [])
    (weak conflict : Bool)
    (hp : PackageRequirement.parse (a ++ fresh 0 ++ b) = .ok ⟨a ++ fresh 0 ++ b, none, weak, conflict⟩) :
    (query (a ++ fresh 0 ++ b) none = none → expandRequirement fresh iter query (a ++ c!"*" ++ b) = .ok (a ++ c!"*" ++ b)) ∧
    (∀ latest, query (a ++ fresh 0 ++ b) none = some latest →
      (∀ x y, a ++ fresh 0 ++ (b ++ c!"-" ++ latest) = x ++ fresh 0 ++ y → x = a) →
      expandRequirement fresh iter query (a ++ c!"*" ++ b) = .ok (a ++ c!"*" ++ b ++ c!"-" ++ latest)) := by
  have hiter1 : iter [(fresh 0, c!"*")] = [(fresh 0, c!"*")] := List.perm_singleton.mp (hiter _)
  constructor
  · intro hq
    unfold expandRequirement
    rw [if_neg (by simp), replace_one_star fresh a b ha hb hf]
    simp only
    rw [hp]
    simp only
    rw [hq]
  · intro latest hq honce
    unfold expandRequirement
    rw [if_neg (by simp), replace_one_star fresh a b ha hb hf]
    simp only
    rw [hp]
    simp only
    rw [hq]
    simp only
    rw [hiter1]
    simp only [expanded, restoreWildcards, List.foldl_cons, List.foldl_nil]
    have := replace_once (by_ := c!"*") hne honce
    unfold Rex.replaceAll
    rw [show a ++ fresh 0 ++ b ++ c!"-" ++ latest = a ++ fresh 0 ++ (b ++ c!"-" ++ latest) by simp, this]
    simp

/-- The text that stands for a star. -/
def uid (_ : Nat) : Str := c!"_0123456789abcdef0123456789abcdef_"

/-- C125: the case of the documentation: the placeholder is no version, so that all of it is taken for a name. -/
example : PackageRequirement.parse (c!"python-2." ++ uid 0 ++ c!"") = .ok ⟨c!"python-2." ++ uid 0 ++ c!"", none, false, false⟩ ∧
    expandRequirement uid id (fun n _ => if n = c!"python" then some c!"2.7" else none) c!"python-2.*" = .ok c!"python-2.*" := by
  decide +kernel

example : PackageRequirement.parse (c!"python-2" ++ uid 0 ++ c!"5") = .ok ⟨c!"python", some (c!"2" ++ uid 0 ++ c!"5"), false, false⟩ ∧
    expandRequirement uid id (fun _ _ => some c!"2.7") c!"python-2*5" = .ok c!"python-2*5" := by decide +kernel

/-- C125: a character after two stars is lost. -/
theorem C125_eaten_false : ∃ s, expandRequirement uid id (fun _ _ => some c!"1.5") c!"boost-1.**.5" = .ok s ∧ s = c!"boost-1.**5-1.5" :=
  ⟨_, rfl, by decide +kernel⟩

end Rez.Props
