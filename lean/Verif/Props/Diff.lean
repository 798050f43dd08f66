import Verif.Spec.Diff
import Verif.Props.Repository
import Verif.Lemmas.RequirementParse
/-!
# C175–C177: `diff` and `status`
-/
namespace Rez.Props
open Rez Rez.Diff Rez.Diff.Spec Rez.Repository Rez.PackageOrder Rez.Spec.Repository Rez.Spec RepositoryLemmas

namespace DiffLemmas

theorem good_each {srt : Sorting} {repos : List Repo} (h : Good srt repos) (name : Str) :
    Good srt (findEach repos name).1 ∧ ∀ n, family (findEach repos name).1 n = family repos n := by
  induction repos with
  | nil => exact ⟨h, fun _ => rfl⟩
  | cons r rest ih =>
    obtain ⟨root, s⟩ := r
    have hr := h (root, s) List.mem_cons_self
    obtain ⟨i1, i2⟩ := ih fun x hx => h x (List.mem_cons_of_mem _ hx)
    have hf := find_sound hr.1 (upToDate_cases hr.2) name
    have hi := findEach_sound srt rest (fun x hx => h x (List.mem_cons_of_mem _ hx)) name
    have hu : UpToDate srt root (find root s name).1 := by
      obtain ⟨qs, hq⟩ := hr.2
      refine ⟨qs ++ [.find name], ?_⟩
      rw [List.map_append]
      have happ : ∀ (l : List (Root × Query)) (t : State),
          asked srt t (l ++ [(root, .find name)]) = (find root (asked srt t l) name).1 := by
        intro l
        induction l with
        | nil => intro t; rfl
        | cons x l ih => obtain ⟨r, q'⟩ := x; intro t; exact ih _
      show _ = asked srt State.new (_ ++ [(root, .find name)])
      rw [happ, ← hq]
    rw [findEach]
    cases hg : find root s name with
    | mk s' x =>
      rw [hg] at hf hu
      dsimp only at hf hu
      subst hf
      dsimp only
      cases he : findEach rest name with
      | mk rest' y =>
        rw [he] at hi i1 i2
        dsimp only at hi i1 i2
        subst hi
        dsimp only
        constructor
        · intro r hr'
          rcases List.mem_cons.1 hr' with rfl | hr'
          · exact ⟨hr.1, hu⟩
          · exact i1 r hr'
        · intro n
          have := i2 n
          unfold family at this ⊢
          rw [List.flatMap_cons, List.flatMap_cons, this]

theorem manager_repos (srt : Sorting) (repos : List Repo) (name : Str) :
    (managerFind srt repos name).1 = (findEach repos name).1 := by
  unfold managerFind
  cases he : findEach repos name with
  | mk r o => cases o <;> rfl

/-- What a question gives, and that the next one can be asked. -/
theorem lookup_good {srt : Sorting} (hs : SortingOk srt) {repos : List Repo} (h : Good srt repos) (name : Str)
    (hc : Comparable (family repos name)) (choice : List Package → Option Package) :
    ∃ l, l.Perm (family repos name) ∧ InDirection true l ∧
      (lookup srt repos name choice).2 = (match choice l with | some p => .ok p | none => .err) ∧
      Good srt (lookup srt repos name choice).1 ∧ ∀ n, family (lookup srt repos name choice).1 n = family repos n := by
  obtain ⟨l, h1, h2, h3⟩ := C67_find hs repos h name hc
  refine ⟨l, h2, h3, ?_⟩
  have hr := manager_repos srt repos name
  have hg := good_each h name
  rw [← hr] at hg
  unfold lookup
  cases hm : managerFind srt repos name with
  | mk r o =>
    rw [hm] at h1 hg
    dsimp only at h1 hg
    subst h1
    dsimp only
    cases choice l with
    | none => exact ⟨rfl, hg⟩
    | some p => exact ⟨rfl, hg⟩

theorem comparable_perm {l l' : List Package} (h : l.Perm l') (hc : Comparable l') : Comparable l :=
  fun p hp q hq r hr => hc p (h.mem_iff.1 hp) q (h.mem_iff.1 hq) r (h.mem_iff.1 hr)

theorem head_highest {l l' : List Package} (hp : l.Perm l') (hd : InDirection true l) {p : Package} {t : List Package}
    (h : l = p :: t) : Highest p l' := by
  subst h
  refine ⟨hp.mem_iff.1 List.mem_cons_self, fun q hq => ?_⟩
  rcases List.mem_cons.1 (hp.mem_iff.2 hq) with rfl | hq
  · refine ⟨id, fun u v hu hv => ?_⟩
    rw [hu] at hv; cases hv
    rw [Version.cmp_refl]; simp
  · have := (List.pairwise_cons.1 hd).1 q hq
    exact ⟨this.1, fun u v hu hv => by simpa using this.2 u v hu hv⟩

theorem find_highest {l l' : List Package} (hp : l.Perm l') (hd : InDirection true l) {c : Package → Bool} {p : Package}
    (h : l.find? c = some p) : Highest p (l'.filter c) := by
  have hf : (l.filter c).Perm (l'.filter c) := hp.filter c
  have hh : (l.filter c).head? = some p := by rw [List.head?_filter]; exact h
  cases hl : l.filter c with
  | nil => rw [hl] at hh; cases hh
  | cons x t =>
    rw [hl] at hh
    cases hh
    exact head_highest hf (List.Pairwise.filter c hd) hl

theorem digit_any {v : Str} : v.head?.any isDigit = true ↔ ∃ c t, v = c :: t ∧ isDigit c = true := by
  cases v <;> simp

theorem spec_version {n v : Str} (hv : ∃ c t, v = c :: t ∧ isDigit c = true) (hd : '-' ∉ v) :
    parseSpec (n ++ '-' :: v) = (n, some v) := by
  unfold parseSpec
  rw [rsplitOnce_append n hd]
  exact if_pos (digit_any.2 hv)

theorem spec_plain {n : Str} (hd : '-' ∉ n) : parseSpec n = (n, none) := by
  unfold parseSpec
  rw [rsplitOnce_absent hd]

theorem textIs_iff {v : Str} {p : Package} : textIs v p = true ↔ versionText p = some v := by
  unfold textIs versionText
  cases p.version <;> simp

theorem otherText_iff {p q : Package} : otherText p q = true ↔ ∃ v w, versionText q = some v ∧ versionText p = some w ∧ v ≠ w := by
  unfold otherText versionText
  cases q.version <;> cases p.version <;> simp

end DiffLemmas
open DiffLemmas

/-! ## C175: which packages are compared -/

/-- C175: `name-version` is a package of this family with this very version, wherever it is in the repositories; an error if
there is none.  `version` begins with a digit and has no hyphen.

Full statement: for every version.  It is false: see `C175_version_false`. -/
theorem C175_named_partial {srt : Sorting} (hs : SortingOk srt) (repos : List Repo) (h : Good srt repos) (n v : Str)
    (hv : ∃ c t, v = c :: t ∧ isDigit c = true) (hd : '-' ∉ v) (hc : Comparable (family repos n)) :
    (∀ p, (lookupSpec srt repos (n ++ c!"-" ++ v)).2 = .ok p → p ∈ family repos n ∧ versionText p = some v) ∧
    ((lookupSpec srt repos (n ++ c!"-" ++ v)).2 = .err ↔ ∀ p ∈ family repos n, versionText p ≠ some v) ∧
    (lookupSpec srt repos (n ++ c!"-" ++ v)).2 ≠ .panic := by
  have e : parseSpec (n ++ c!"-" ++ v) = (n, some v) := by
    rw [show n ++ c!"-" ++ v = n ++ '-' :: v by simp]
    exact spec_version hv hd
  unfold lookupSpec
  rw [e]
  obtain ⟨l, h1, _, h3, _⟩ := lookup_good hs h n hc fun ps => pick ps (some v)
  dsimp only at h3 ⊢
  rw [h3]
  cases hp : pick l (some v) with
  | none =>
    have hp : l.find? (textIs v) = none := hp
    rw [List.find?_eq_none] at hp
    refine ⟨fun p h => by simp at h, ⟨fun _ p hm hc => hp p (h1.mem_iff.2 hm) (textIs_iff.2 hc), fun _ => rfl⟩, by simp⟩
  | some p =>
    have hp : l.find? (textIs v) = some p := hp
    have hm := h1.mem_iff.1 (List.mem_of_find?_eq_some hp)
    have ht := textIs_iff.1 (List.find?_some hp)
    refine ⟨fun q hq => ?_, ⟨fun h => by simp at h, fun h => absurd ht (h p hm)⟩, by simp⟩
    simp only [Outcome.ok.injEq] at hq
    subst hq
    exact ⟨hm, ht⟩

/-- C175: a name alone is the latest version over all repositories; an error if there is no package. -/
theorem C175_latest {srt : Sorting} (hs : SortingOk srt) (repos : List Repo) (h : Good srt repos) (n : Str) (hd : '-' ∉ n)
    (hc : Comparable (family repos n)) :
    (family repos n ≠ [] → ∃ p, (lookupSpec srt repos n).2 = .ok p ∧ Highest p (family repos n)) ∧
    (family repos n = [] → (lookupSpec srt repos n).2 = .err) := by
  unfold lookupSpec
  rw [spec_plain hd]
  obtain ⟨l, h1, h2, h3, _⟩ := lookup_good hs h n hc fun ps => pick ps none
  dsimp only at h3 ⊢
  rw [h3]
  constructor
  · intro hne
    cases hl : l with
    | nil =>
      subst hl
      exact absurd h1.symm.eq_nil hne
    | cons p t =>
      exact ⟨p, rfl, head_highest h1 h2 hl⟩
  · intro he
    rw [he] at h1
    rw [h1.eq_nil]
    rfl

/-- C175: without a second package, the second is the highest version of all those that are written otherwise than the first.

Full statement: it is the highest of those before the first.  It is false: see `C175_previous_false`; of the latest version it
is true: see `C175_before_partial`. -/
theorem C175_other {srt : Sorting} (hs : SortingOk srt) (repos : List Repo) (h : Good srt repos) (s : Str)
    (hc : ∀ n, Comparable (family repos n)) (p q : Package) (hr : packages srt repos s none = .ok (p, q)) :
    (lookupSpec srt repos s).2 = .ok p ∧
    Highest q ((family repos p.name).filter fun r => otherText p r) := by
  unfold packages at hr
  obtain ⟨l, h1, h2, h3, h4, h5⟩ := lookup_good hs h (parseSpec s).1 (hc _) fun ps => pick ps (parseSpec s).2
  change (lookupSpec srt repos s).2 = _ at h3
  change Good srt (lookupSpec srt repos s).1 at h4
  change ∀ n, family (lookupSpec srt repos s).1 n = _ at h5
  cases hl : lookupSpec srt repos s with
  | mk r o =>
    rw [hl] at hr h3 h4 h5
    dsimp only at h3 h4 h5
    rw [h3] at hr
    cases hp : pick l (parseSpec s).2 with
    | none => rw [hp] at hr; cases hr
    | some p' =>
      rw [hp] at hr h3
      dsimp only at hr h3
      obtain ⟨l', g1, g2, g3, _⟩ := lookup_good hs h4 p'.name (by rw [h5]; exact hc _) fun ps => previous ps p'
      rw [g3] at hr
      cases hq : previous l' p' with
      | none => rw [hq] at hr; cases hr
      | some q' =>
        rw [hq] at hr
        simp only [Outcome.ok.injEq, Prod.mk.injEq] at hr
        obtain ⟨rfl, rfl⟩ := hr
        refine ⟨h3, ?_⟩
        unfold previous at hq
        split at hq
        · cases hq
        · rw [← h5]
          exact find_highest g1 g2 hq

/-- C175: asked for a name alone, the first package is the latest version, and the second is the latest of those written
otherwise; it is not above the first. -/
theorem C175_before_partial {srt : Sorting} (hs : SortingOk srt) (repos : List Repo) (h : Good srt repos) (n : Str) (hd : '-' ∉ n)
    (hc : ∀ m, Comparable (family repos m)) (p q : Package) (hr : packages srt repos n none = .ok (p, q)) :
    Highest p (family repos n) ∧ q ∈ family repos n ∧
    ∃ u v, p.version = some u ∧ q.version = some v ∧ u.repr ≠ v.repr ∧ u.cmp v ≠ .lt ∧
      ∀ r ∈ family repos n, ∀ w, r.version = some w → w.repr ≠ u.repr → v.cmp w ≠ .lt := by
  obtain ⟨h1, h2⟩ := C175_other hs repos h n hc p q hr
  have hne : family repos n ≠ [] := by
    intro he
    rw [(C175_latest hs repos h n hd (hc n)).2 he] at h1
    cases h1
  obtain ⟨p', hp', hh⟩ := (C175_latest hs repos h n hd (hc n)).1 hne
  rw [h1] at hp'
  simp only [Outcome.ok.injEq] at hp'
  subst hp'
  have hname : p.name = n := by
    obtain ⟨r, _, hm⟩ := List.mem_flatMap.1 hh.1
    unfold ofFamily at hm
    simpa using (List.mem_filter.1 hm).2
  rw [hname] at h2
  obtain ⟨hq1, hq2⟩ := List.mem_filter.1 h2.1
  obtain ⟨v, u, hv, hu, hvu⟩ := otherText_iff.1 hq2
  unfold versionText at hu hv
  obtain ⟨u', hu1, hu2⟩ := Option.map_eq_some_iff.1 hu
  obtain ⟨v', hv1, hv2⟩ := Option.map_eq_some_iff.1 hv
  refine ⟨hh, hq1, u', v', hu1, hv1, by rw [hu2, hv2]; exact fun e => hvu e.symm, (hh.2 q hq1).2 u' v' hu1 hv1, ?_⟩
  intro r hr' w hw hne
  refine (h2.2 r (List.mem_filter.2 ⟨hr', otherText_iff.2 ⟨w.repr, u, ?_, ?_, ?_⟩⟩)).2 v' w hv1 hw
  · unfold versionText; rw [hw]; rfl
  · unfold versionText; rw [hu1]; exact congrArg some hu2
  · rw [← hu2]; exact hne

/-- C175: with a package of the family that is written otherwise there is an answer. -/
theorem C175_found {srt : Sorting} (hs : SortingOk srt) (repos : List Repo) (h : Good srt repos) (s : Str)
    (hc : ∀ n, Comparable (family repos n)) (p r : Package) (u v : Str) (hp : (lookupSpec srt repos s).2 = .ok p)
    (hr : r ∈ family repos p.name) (hu : versionText p = some u) (hv : versionText r = some v) (hne : u ≠ v) :
    ∃ q, packages srt repos s none = .ok (p, q) := by
  obtain ⟨l, h1, h2, h3, h4, h5⟩ := lookup_good hs h (parseSpec s).1 (hc _) fun ps => pick ps (parseSpec s).2
  change (lookupSpec srt repos s).2 = _ at h3
  change Good srt (lookupSpec srt repos s).1 at h4
  change ∀ n, family (lookupSpec srt repos s).1 n = _ at h5
  unfold packages
  cases hl : lookupSpec srt repos s with
  | mk rp o =>
    rw [hl] at hp h3 h4 h5
    dsimp only at hp h3 h4 h5
    subst hp
    dsimp only
    have hpk : pick l (parseSpec s).2 = some p := by
      cases hx : pick l (parseSpec s).2 with
      | none => rw [hx] at h3; cases h3
      | some p' => rw [hx] at h3; simp only [Outcome.ok.injEq] at h3; rw [h3]
    have hpl : p ∈ l := by
      cases hx : (parseSpec s).2 with
      | none => rw [hx] at hpk; exact List.mem_of_mem_head? hpk
      | some t => rw [hx] at hpk; exact List.mem_of_find?_eq_some hpk
    have hpf := h1.mem_iff.1 hpl
    have hname : p.name = (parseSpec s).1 := by
      obtain ⟨rr, _, hm⟩ := List.mem_flatMap.1 hpf
      unfold ofFamily at hm
      simpa using (List.mem_filter.1 hm).2
    rw [← hname] at hpf
    obtain ⟨l', g1, g2, g3, _⟩ := lookup_good hs h4 p.name (by rw [h5]; exact hc _) fun ps => previous ps p
    rw [h5] at g1
    rw [g3]
    have m1 := g1.mem_iff.2 hpf
    have m2 := g1.mem_iff.2 hr
    have hpr : p ≠ r := by
      rintro rfl
      rw [hu] at hv
      exact hne (Option.some.inj hv)
    have hlen : ¬ l'.length < 2 := by
      match l', m1, m2 with
      | [], m1, _ => cases m1
      | [x], m1, m2 => exact absurd ((List.mem_singleton.1 m1).trans (List.mem_singleton.1 m2).symm) hpr
      | _ :: _ :: _, _, _ => simp
    have hprev : previous l' p = l'.find? (otherText p) := by unfold previous; rw [if_neg hlen]
    rw [hprev]
    have hsome : (l'.find? (otherText p)).isSome = true :=
      List.find?_isSome.2 ⟨r, m2, otherText_iff.2 ⟨v, u, hv, hu, fun e => hne e.symm⟩⟩
    obtain ⟨q, hq⟩ := Option.isSome_iff_exists.1 hsome
    rw [hq]
    exact ⟨q, rfl⟩

deriving instance DecidableEq for Package
deriving instance DecidableEq for Outcome

def verOf (s : Str) : Version := (Version.parse s).getD ⟨[], [], []⟩
def diffPkg (v : Str) (reqs : List Str) : Package := ⟨c!"p", some (verOf v), reqs, [], [], none⟩
def diffRoot : Root := some [(c!"p", .folder true [(c!"1", .package (.ok (diffPkg c!"1" [c!"a"]))),
  (c!"2", .package (.ok (diffPkg c!"2" [c!"a", c!"b"]))), (c!"3", .package (.ok (diffPkg c!"3" [c!"b"])))])]
def diffRepos : List Repo := [(diffRoot, State.new)]

/-- A sort of the library: insertion. -/
def diffSorting : Sorting :=
  ⟨fun c l => .ok (l.foldr (fun x acc => acc.takeWhile (fun y => c y x == .lt) ++ x :: acc.dropWhile fun y => c y x == .lt) []), id⟩

example : packages diffSorting diffRepos c!"p" none = .ok (diffPkg c!"3" [c!"b"], diffPkg c!"2" [c!"a", c!"b"]) ∧
    packages diffSorting diffRepos c!"p-1" (some c!"p-2") = .ok (diffPkg c!"1" [c!"a"], diffPkg c!"2" [c!"a", c!"b"]) := by
  decide +kernel

/-- Two versions are enough. -/
example : packages diffSorting [(some [(c!"p", .folder true [(c!"1", .package (.ok (diffPkg c!"1" [c!"a"]))),
    (c!"2", .package (.ok (diffPkg c!"2" [c!"a", c!"b"])))])], State.new)] c!"p" none =
    .ok (diffPkg c!"2" [c!"a", c!"b"], diffPkg c!"1" [c!"a"]) := by decide +kernel

/-- C175 is false of the previous version: of the oldest version it is the newest. -/
theorem C175_previous_false : packages diffSorting diffRepos c!"p-1" none = .ok (diffPkg c!"1" [c!"a"], diffPkg c!"3" [c!"b"]) ∧
    packages diffSorting diffRepos c!"p-2" none = .ok (diffPkg c!"2" [c!"a", c!"b"], diffPkg c!"3" [c!"b"]) := by
  decide +kernel

/-- C175 is false of versions with a hyphen: the package is there and is not found by its name and version. -/
theorem C175_version_false (v : Str) (hv : v = c!"1-2" ∨ v = c!"1-rc") :
    let repos : List Repo := [(some [(c!"p", .folder true [(v, .package (.ok (diffPkg v [])))])], State.new)]
    (∃ w, Version.parse v = some w ∧ w.repr = v) ∧ (∃ p ∈ family repos c!"p", versionText p = some v) ∧
    (lookupSpec diffSorting repos (c!"p-" ++ v)).2 = .err := by
  rcases hv with rfl | rfl
  all_goals
    refine ⟨⟨_, rfl, by decide +kernel⟩, ⟨_, List.mem_singleton.2 rfl, by decide +kernel⟩, by decide +kernel⟩

/-! ## C176: the differences -/

namespace DiffLemmas

theorem lacking {α : Type} [BEq α] [LawfulBEq α] {a b sa sb : List α} (ha : sa.Nodup ∧ ∀ s, s ∈ sa ↔ s ∈ a)
    (hb : sb.Nodup ∧ ∀ s, s ∈ sb ↔ s ∈ b) : Lacking (sa.filter fun x => !sb.contains x) a b := by
  refine ⟨List.Nodup.filter _ ha.1, fun x => ?_⟩
  simp [ha.2, hb.2]

theorem changed_iff {α : Type} [DecidableEq α] {a b : α} {c : Option (α × α)} (h : c = changed a b) :
    (c = none ↔ a = b) ∧ ∀ x, c = some x → x = (a, b) := by
  subst h
  unfold changed
  split
  · rename_i h; simp [h]
  · rename_i h; exact ⟨by simp [h], fun x hx => by cases hx; rfl⟩

end DiffLemmas

/-- C176: what is told of two packages: the descriptions, authors and tools if and only if they differ, old before new; the
requirements and variants that the second has and the first has not, and the other way round, each once. -/
theorem C176_exact (f : Fields) (l : Library) (hl : Sets l) (p q : Package) :
    let d := compare f l p q
    ((d.description = none ↔ f.description p = f.description q) ∧ ∀ x, d.description = some x → x = (f.description p, f.description q)) ∧
    ((d.authors = none ↔ f.authors p = f.authors q) ∧ ∀ x, d.authors = some x → x = (f.authors p, f.authors q)) ∧
    ((d.tools = none ↔ p.tools = q.tools) ∧ ∀ x, d.tools = some x → x = (p.tools, q.tools)) ∧
    Lacking d.added q.requires p.requires ∧ Lacking d.removed p.requires q.requires ∧
    d.count = (p.variants.length, q.variants.length) ∧
    Lacking d.variantsAdded q.variants p.variants ∧ Lacking d.variantsRemoved p.variants q.variants :=
  ⟨changed_iff rfl, changed_iff rfl, changed_iff rfl, lacking (hl.set _) (hl.set _), lacking (hl.set _) (hl.set _), rfl,
    lacking (hl.sets _) (hl.sets _), lacking (hl.sets _) (hl.sets _)⟩

namespace DiffLemmas

theorem lacking_nil {α : Type} {l a b : List α} (h : Lacking l a b) : l = [] ↔ ∀ x ∈ a, x ∈ b := by
  constructor
  · intro e x hx
    by_contra hn
    have := (h.2 x).2 ⟨hx, hn⟩
    rw [e] at this; cases this
  · intro h'
    refine List.eq_nil_iff_forall_not_mem.2 fun x hx => ?_
    exact ((h.2 x).1 hx).2 (h' x ((h.2 x).1 hx).1)

theorem any_iff (f : Fields) (l : Library) (hl : Sets l) (p q : Package) : (compare f l p q).any = false ↔ Alike f p q := by
  obtain ⟨h1, h2, h3, h4, h5, h6, h7, h8⟩ := C176_exact f l hl p q
  unfold Details.any
  rw [h6]
  simp only [Bool.or_eq_false_iff, Option.isSome_eq_false_iff, Option.isNone_iff_eq_none, Bool.not_eq_false',
    List.isEmpty_iff, bne_eq_false_iff_eq]
  rw [h1.1, h2.1, h3.1, lacking_nil h4, lacking_nil h5, lacking_nil h7, lacking_nil h8]
  constructor
  · rintro ⟨⟨⟨⟨⟨⟨⟨g1, g2⟩, g3⟩, g4⟩, g5⟩, g6⟩, g7⟩, g8⟩
    exact ⟨g1, g2, g3, fun r => ⟨g5 r, g4 r⟩, g6, fun v => ⟨g8 v, g7 v⟩⟩
  · rintro ⟨g1, g2, g3, g4, g6, g7⟩
    exact ⟨⟨⟨⟨⟨⟨⟨g1, g2⟩, g3⟩, fun x => (g4 x).2⟩, fun x => (g4 x).1⟩, g6⟩, fun x => (g7 x).2⟩, fun x => (g7 x).1⟩

theorem bullet_ne (x y : Str) (h : x.head? = some ' ') : x ++ y ≠ c!"✅ No differences found between packages" := by
  cases x with
  | nil => cases h
  | cons c x =>
    cases h
    intro e
    have := (List.cons.inj e).1
    revert this
    decide

end DiffLemmas

/-- C176: the lines are a success without differences exactly if there are none: then that is the only line, and else it is not
among them. -/
theorem C176_same (f : Fields) (l : Library) (hl : Sets l) (p q : Package) :
    (Alike f p q → lines l (compare f l p q) = [c!"✅ No differences found between packages"]) ∧
    (c!"✅ No differences found between packages" ∈ lines l (compare f l p q) → Alike f p q) := by
  constructor
  · intro h
    have ha := (any_iff f l hl p q).2 h
    unfold lines
    rw [ha]
    unfold Details.any at ha
    simp only [Bool.or_eq_false_iff, Option.isSome_eq_false_iff, Option.isNone_iff_eq_none, Bool.not_eq_false',
      List.isEmpty_iff, bne_eq_false_iff_eq] at ha
    obtain ⟨⟨⟨⟨⟨⟨⟨g1, g2⟩, g3⟩, g4⟩, g5⟩, g6⟩, g7⟩, g8⟩ := ha
    rw [g1, g2, g3, g4, g5, g6, g7, g8]
    simp [valueLines]
  · intro h
    rw [← any_iff f l hl p q]
    cases hc : (compare f l p q).any with
    | false => rfl
    | true =>
      exfalso
      unfold lines at h
      rw [hc] at h
      generalize compare f l p q = d at h
      have hv : ∀ {α : Type} (title : Str) (text : α → Str) (o : Option (α × α)), title.head? = some ' ' →
          c!"✅ No differences found between packages" ∉ valueLines title text o := by
        intro α title text o ht hm
        cases o with
        | none => cases hm
        | some x =>
          obtain ⟨a, b⟩ := x
          simp only [valueLines, List.mem_cons, List.not_mem_nil, or_false] at hm
          rcases hm with hm | hm | hm
          · exact bullet_ne title [] ht (by rw [List.append_nil]; exact hm.symm)
          · exact bullet_ne c!"    - " _ rfl hm.symm
          · exact bullet_ne c!"    + " _ rfl hm.symm
      simp only [List.mem_append, List.mem_map, if_true, List.not_mem_nil, or_false] at h
      rcases h with ((((((h | h) | h) | ⟨x, _, h⟩) | ⟨x, _, h⟩) | h) | ⟨x, _, h⟩) | ⟨x, _, h⟩
      · exact hv _ _ _ rfl h
      · exact hv _ _ _ rfl h
      · exact hv _ _ _ rfl h
      · exact bullet_ne c!"  + " _ rfl h
      · exact bullet_ne c!"  - " _ rfl h
      · split at h
        · rw [List.mem_singleton] at h
          rw [List.append_assoc, List.append_assoc] at h
          exact bullet_ne c!"  Count: " _ rfl h.symm
        · cases h
      · exact bullet_ne c!"  + " _ rfl h
      · exact bullet_ne c!"  - " _ rfl h

/-- C176: every requirement that is new, and every one that is gone, has its line. -/
theorem C176_lines (f : Fields) (l : Library) (hl : Sets l) (p q : Package) (r : Str) :
    (r ∈ q.requires → r ∉ p.requires → c!"  + " ++ r ∈ lines l (compare f l p q)) ∧
    (r ∈ p.requires → r ∉ q.requires → c!"  - " ++ r ∈ lines l (compare f l p q)) ∧
    (∀ v, v ∈ q.variants → v ∉ p.variants → c!"  + " ++ l.shown v ∈ lines l (compare f l p q)) ∧
    (∀ v, v ∈ p.variants → v ∉ q.variants → c!"  - " ++ l.shown v ∈ lines l (compare f l p q)) := by
  obtain ⟨_, _, _, h4, h5, _, h7, h8⟩ := C176_exact f l hl p q
  unfold lines
  simp only [List.mem_append, List.mem_map]
  refine ⟨fun a b => ?_, fun a b => ?_, fun v a b => ?_, fun v a b => ?_⟩
  · exact Or.inl (Or.inl (Or.inl (Or.inl (Or.inl (Or.inr ⟨r, (h4.2 r).2 ⟨a, b⟩, rfl⟩)))))
  · exact Or.inl (Or.inl (Or.inl (Or.inl (Or.inr ⟨r, (h5.2 r).2 ⟨a, b⟩, rfl⟩))))
  · exact Or.inl (Or.inl (Or.inr ⟨v, (h7.2 v).2 ⟨a, b⟩, rfl⟩))
  · exact Or.inl (Or.inr ⟨v, (h8.2 v).2 ⟨a, b⟩, rfl⟩)

/-- C176: a description, authors or tools that differ are shown, of the first package after a minus and then of the second after
a plus. -/
theorem C176_changed (f : Fields) (l : Library) (p q : Package) :
    (f.description p ≠ f.description q → [c!"  Description:", c!"    - " ++ (f.description p).getD c!"(none)",
      c!"    + " ++ (f.description q).getD c!"(none)"] <:+: lines l (compare f l p q)) ∧
    (f.authors p ≠ f.authors q → [c!"  Authors:", c!"    - " ++ l.shown (f.authors p),
      c!"    + " ++ l.shown (f.authors q)] <:+: lines l (compare f l p q)) ∧
    (p.tools ≠ q.tools → [c!"  Tools:", c!"    - " ++ l.shown p.tools, c!"    + " ++ l.shown q.tools] <:+:
      lines l (compare f l p q)) := by
  have key : ∀ {α : Type} [DecidableEq α] (title : Str) (text : α → Str) (a b : α), a ≠ b →
      valueLines title text (changed a b) = [title, c!"    - " ++ text a, c!"    + " ++ text b] := by
    intro α _ title text a b hab
    unfold changed
    rw [if_neg hab]
    rfl
  unfold lines Diff.compare
  simp only [List.append_assoc]
  refine ⟨fun h => ?_, fun h => ?_, fun h => ?_⟩
  · rw [key _ _ _ _ h]
    exact (List.prefix_append _ _).isInfix
  · rw [key c!"  Authors:" _ _ _ h]
    exact (List.prefix_append _ _).isInfix.trans (List.suffix_append _ _).isInfix
  · rw [key c!"  Tools:" _ _ _ h]
    exact ((List.prefix_append _ _).isInfix.trans (List.suffix_append _ _).isInfix).trans (List.suffix_append _ _).isInfix

def diffFields : Fields := ⟨fun p => p.requires.head?, fun _ => []⟩
def diffLib : Library := ⟨fun l => c!"[" ++ joinWith c!", " (l.map fun s => c!"\"" ++ s ++ c!"\"") ++ c!"]", List.eraseDups, List.eraseDups⟩

example : lines diffLib (compare diffFields diffLib (diffPkg c!"1" [c!"a"]) (diffPkg c!"2" [c!"a", c!"b", c!"b"])) = [c!"  + b"] := by
  decide +kernel

example : [c!"  Description:", c!"    - a", c!"    + b"] <:+:
    lines diffLib (compare diffFields diffLib (diffPkg c!"1" [c!"a"]) (diffPkg c!"2" [c!"b"])) :=
  (C176_changed diffFields diffLib (diffPkg c!"1" [c!"a"]) (diffPkg c!"2" [c!"b"])).1 (by decide)

/-- C176 is false of the order of requirements and variants, though it decides which variant is used: two packages that
differ in nothing else are told to be the same. -/
theorem C176_order_false (f : Fields) (l : Library) (hl : Sets l) (hf : ∀ p q : Package, f.description p = f.description q ∧ f.authors p = f.authors q) :
    let p : Package := ⟨c!"p", none, [], [[c!"a"], [c!"b"]], [], none⟩
    let q : Package := ⟨c!"p", none, [], [[c!"b"], [c!"a"]], [], none⟩
    p ≠ q ∧ lines l (compare f l p q) = [c!"✅ No differences found between packages"] := by
  intro p q
  refine ⟨by decide, (C176_same f l hl p q).1 ⟨(hf p q).1, (hf p q).2, rfl, by simp [p, q], rfl, ?_⟩⟩
  intro v
  simp [p, q, or_comm]

/-- C176 is false of the JSON output: where the description has changed it is no JSON. -/
theorem C176_json_false :
    let p := diffPkg c!"1" [c!"a"]
    let q := diffPkg c!"2" [c!"b"]
    strayComma false false (joinWith c!"\n" (jsonLines diffLib (fun _ => c!"[]") p q (compare diffFields diffLib p q))) = true ∧
    strayComma false false (joinWith c!"\n" (jsonLines diffLib (fun _ => c!"[]") p p (compare diffFields diffLib p p))) = false := by
  decide +kernel

/-- C176 is false of authors and tools in the JSON output: they are not there. -/
theorem C176_fields_false (l : Library) (nested : List (List Str) → Str) (p q : Package) (d : Details)
    (a t : Option (List Str × List Str)) :
    jsonLines l nested p q { d with authors := a, tools := t } = jsonLines l nested p q d := rfl

/-! ## C177: `status` -/

/-- C177: the status of a package tells the number of its packages over all repositories and then each version, the latest
first. -/
theorem C177_package {srt : Sorting} (hs : SortingOk srt) (repos : List Repo) (h : Good srt repos) (n : Str)
    (hc : Comparable (family repos n)) :
    ∃ ps, ps.Perm (family repos n) ∧ InDirection true ps ∧
      (ps = [] → packageStatus srt repos n = .ok [c!"Package '" ++ n ++ c!"' not found"]) ∧
      (ps ≠ [] → ∃ out, packageStatus srt repos n = .ok ((c!"Package: " ++ n) :: (c!"Versions found: " ++ decimal ps.length) :: out) ∧
        out.length = ps.length ∧ ∀ i p, ps[i]? = some p →
          out[i]? = some (c!"Version " ++ decimal (i + 1) ++ c!": " ++ (versionText p).getD c!"unknown")) := by
  obtain ⟨l, h1, h2, h3⟩ := C67_find hs repos h n hc
  refine ⟨l, h2, h3, ?_, ?_⟩
  · rintro rfl
    unfold packageStatus
    rw [h1]
  · intro hne
    unfold packageStatus
    rw [h1]
    cases l with
    | nil => exact absurd rfl hne
    | cons p t =>
      refine ⟨_, rfl, List.length_mapIdx, fun i q hq => ?_⟩
      change (List.mapIdx _ (p :: t))[i]? = _
      rw [List.getElem?_mapIdx, hq]
      rfl

example : packageStatus diffSorting diffRepos c!"p" =
    .ok [c!"Package: p", c!"Versions found: 3", c!"Version 1: 3", c!"Version 2: 2", c!"Version 3: 1"] := by decide +kernel

/-- C177 is false of the overview: in repositories whose packages have names it tells of no packages. -/
theorem C177_overview_false {srt : Sorting} (hs : SortingOk srt) (repos : List Repo) (h : Good srt repos)
    (hn : ∀ r ∈ repos, ∀ p ∈ onDisk r.1, p.name ≠ []) : totals srt repos = .ok (0, 0, 0) := by
  have he : family repos [] = [] := by
    refine List.flatMap_eq_nil_iff.2 fun r hr => List.filter_eq_nil_iff.2 fun p hp => ?_
    simpa using hn r hr p hp
  obtain ⟨l, h1, h2, _⟩ := C67_find hs repos h [] (by
    change Comparable (family repos [])
    rw [he]; intro p hp; cases hp)
  change l.Perm (family repos []) at h2
  rw [he] at h2
  unfold totals
  rw [h1, h2.eq_nil]
  rfl

/-- C177: what the overview tells is of the packages without a name only: their number, and the number of their variants, where a
package without variants counts as one. -/
theorem C177_nameless {srt : Sorting} (hs : SortingOk srt) (repos : List Repo) (h : Good srt repos)
    (hc : Comparable (family repos [])) : ∃ k, totals srt repos = .ok ((family repos []).length, k,
      ((family repos []).map fun p => if p.variants = [] then 1 else p.variants.length).sum) := by
  obtain ⟨l, h1, h2, _⟩ := C67_find hs repos h [] hc
  unfold totals
  rw [h1]
  refine ⟨(l.map (·.name)).eraseDups.length, ?_⟩
  dsimp only
  rw [h2.length_eq, (h2.map _).sum_nat]
  have : (fun p : Package => max p.variants.length 1) = fun p => if p.variants = [] then 1 else p.variants.length := by
    funext p
    cases p.variants <;> simp
  rw [this]
  rfl

/-- C177 is false of the packages of a repository: it is the number of directories that is told, however many packages are in
them. -/
theorem C177_repository_false : (onDisk diffRoot).length = 3 ∧ countDirs [(c!"p", true), (c!"README", false)] = 1 := by decide +kernel

end Rez.Props
