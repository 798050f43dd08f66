import Verif.Spec.PluginsCommand
import Verif.Props.PyRelease
import Verif.Lemmas.VersionExtra
/-!
# C243: the `plugins` command
-/
namespace Rez.Props
open Rez Rez.PluginsCommand Rez.Repository Rez.PackageOrder Rez.Spec.PluginsCommand Rez.Spec.Repository Rez.Spec

namespace PluginsCommandLemmas

theorem within_iff (s w : Str) : containsStr s w = true ↔ Within w s := by
  rw [containsStr_iff]
  constructor
  · rintro ⟨a, b, h⟩; exact ⟨a, b, h.symm⟩
  · rintro ⟨a, b, h⟩; exact ⟨a, b, h.symm⟩

theorem mem_build (p : Package) (x : Plugin) : x ∈ buildPlugins p ↔
    ∃ i ∈ indicators, ((∃ y, (y ∈ p.tools ∨ y ∈ p.requires) ∧ Within i.1 y) ∧
      x = ⟨i.1 ++ c!"_build", p.version.map Version.asStr, c!"build_system", some i.2⟩) := by
  unfold buildPlugins
  rw [List.mem_filterMap]
  constructor
  · rintro ⟨⟨i, d⟩, hi, h⟩
    simp only at h
    split_ifs at h with hc
    injection h with h
    refine ⟨(i, d), hi, ?_, h.symm⟩
    rw [Bool.or_eq_true] at hc
    rcases hc with hc | hc
    · obtain ⟨y, hy, hw⟩ := List.any_eq_true.1 hc
      exact ⟨y, .inl hy, (within_iff _ _).1 hw⟩
    · obtain ⟨y, hy, hw⟩ := List.any_eq_true.1 hc
      exact ⟨y, .inr hy, (within_iff _ _).1 hw⟩
  · rintro ⟨⟨i, d⟩, hi, ⟨y, hy, hw⟩, rfl⟩
    refine ⟨(i, d), hi, ?_⟩
    have hc : (p.tools.any (fun t => containsStr t i) || p.requires.any (fun r => containsStr r i)) = true := by
      rw [Bool.or_eq_true]
      rcases hy with hy | hy
      · exact .inl (List.any_eq_true.2 ⟨y, hy, (within_iff _ _).2 hw⟩)
      · exact .inr (List.any_eq_true.2 ⟨y, hy, (within_iff _ _).2 hw⟩)
    simp only [hc, if_true]

theorem mem_shell (p : Package) (x : Plugin) : x ∈ shellPlugins p ↔
    ∃ t ∈ p.tools, (∃ w ∈ shellWords, Within w t) ∧
      x = ⟨t ++ c!"_shell", p.version.map Version.asStr, c!"shell", some (c!"Shell integration for " ++ t)⟩ := by
  unfold shellPlugins
  rw [List.mem_filterMap]
  constructor
  · rintro ⟨t, ht, h⟩
    split_ifs at h with hc
    injection h with h
    obtain ⟨w, hw, hx⟩ := List.any_eq_true.1 hc
    exact ⟨t, ht, ⟨w, hw, (within_iff _ _).1 hx⟩, h.symm⟩
  · rintro ⟨t, ht, ⟨w, hw, hx⟩, rfl⟩
    refine ⟨t, ht, ?_⟩
    have hc : (shellTools.any fun s => containsStr t s) = true := List.any_eq_true.2 ⟨w, hw, (within_iff _ _).2 hx⟩
    simp only [hc, if_true]

theorem mem_extension (desc : Package → Option Str) (p : Package) (x : Plugin) : x ∈ extensionPlugins desc p ↔
    (Within c!"plugin" p.name ∨ Within c!"extension" p.name) ∧ x = ⟨p.name, p.version.map Version.asStr, c!"extension", desc p⟩ := by
  rw [← within_iff, ← within_iff, ← Bool.or_eq_true]
  unfold extensionPlugins
  split_ifs with h
  · simp only [List.mem_singleton, h, true_and]
  · simp only [List.not_mem_nil, false_iff]
    exact fun hh => h hh.1

theorem words : indicators.map Prod.fst = buildWords := by decide

def pair (x : Plugin) : Str × Str := (x.name, x.type)

theorem type_command {p : Package} {x : Plugin} (h : x ∈ commandPlugins p) : x.type = c!"command" := by
  obtain ⟨t, -, rfl⟩ := List.mem_map.1 h; rfl

theorem type_build {p : Package} {x : Plugin} (h : x ∈ buildPlugins p) : x.type = c!"build_system" := by
  obtain ⟨i, -, -, rfl⟩ := (mem_build _ _).1 h; rfl

theorem type_shell {p : Package} {x : Plugin} (h : x ∈ shellPlugins p) : x.type = c!"shell" := by
  obtain ⟨i, -, -, rfl⟩ := (mem_shell _ _).1 h; rfl

theorem type_extension {desc : Package → Option Str} {p : Package} {x : Plugin} (h : x ∈ extensionPlugins desc p) : x.type = c!"extension" := by
  obtain ⟨-, rfl⟩ := (mem_extension _ _ _).1 h; rfl

theorem filter_same {l : List Plugin} {t : Str} (h : ∀ x ∈ l, x.type = t) : (l.map pair).filter (fun x => x.2 = t) = l.map pair := by
  rw [List.filter_eq_self]
  intro y hy
  obtain ⟨x, hx, rfl⟩ := List.mem_map.1 hy
  simp only [pair, h x hx, decide_true]

theorem filter_other {l : List Plugin} {t u : Str} (h : ∀ x ∈ l, x.type = t) (hn : t ≠ u) : (l.map pair).filter (fun x => x.2 = u) = [] := by
  rw [List.filter_eq_nil_iff]
  intro y hy
  obtain ⟨x, hx, rfl⟩ := List.mem_map.1 hy
  have := h x hx
  simp only [pair, this, decide_eq_true_eq]
  exact hn

theorem parts (desc : Package → Option Str) (p : Package) :
    let l := (discover desc p).map pair
    (l.filter fun x => x.2 = c!"command") = (commandPlugins p).map pair ∧
    (l.filter fun x => x.2 = c!"build_system") = (buildPlugins p).map pair ∧
    (l.filter fun x => x.2 = c!"shell") = (shellPlugins p).map pair ∧
    (l.filter fun x => x.2 = c!"extension") = (extensionPlugins desc p).map pair := by
  have h1 := fun x => @type_command p x
  have h2 := fun x => @type_build p x
  have h3 := fun x => @type_shell p x
  have h4 := fun x => @type_extension desc p x
  simp only [discover, List.map_append, List.filter_append]
  refine ⟨?_, ?_, ?_, ?_⟩
  · rw [filter_same h1, filter_other h2 (by decide), filter_other h3 (by decide), filter_other h4 (by decide)]; simp
  · rw [filter_other h1 (by decide), filter_same h2, filter_other h3 (by decide), filter_other h4 (by decide)]; simp
  · rw [filter_other h1 (by decide), filter_other h2 (by decide), filter_same h3, filter_other h4 (by decide)]; simp
  · rw [filter_other h1 (by decide), filter_other h2 (by decide), filter_other h3 (by decide), filter_same h4]; simp

theorem filterMap_sublist {α β : Type} (f : α → Option β) (g : α → β) (h : ∀ a b, f a = some b → b = g a) (l : List α) :
    (l.filterMap f).Sublist (l.map g) := by
  induction l with
  | nil => exact List.Sublist.refl _
  | cons a l ih =>
    cases hf : f a with
    | none => rw [List.filterMap_cons_none hf]; exact ih.cons _
    | some b => rw [List.filterMap_cons_some hf, h a b hf]; exact ih.cons_cons _

theorem mem_discover (desc : Package → Option Str) (p : Package) (n t : Str) :
    (n, t) ∈ (discover desc p).map pair ↔ Provides p n t := by
  simp only [discover, List.map_append, List.mem_append, List.mem_map]
  constructor
  · rintro (((⟨x, hx, he⟩ | ⟨x, hx, he⟩) | ⟨x, hx, he⟩) | ⟨x, hx, he⟩)
    · obtain ⟨a, ha, rfl⟩ := List.mem_map.1 hx
      cases he; exact .command a ha
    · obtain ⟨i, hi, ⟨y, hy, hw⟩, rfl⟩ := (mem_build _ _).1 hx
      cases he; exact .build i.1 (by rw [← words]; exact List.mem_map_of_mem hi) y hy hw
    · obtain ⟨a, ha, ⟨w, hw, hi⟩, rfl⟩ := (mem_shell _ _).1 hx
      cases he; exact .shell a ha w hw hi
    · obtain ⟨h, rfl⟩ := (mem_extension _ _ _).1 hx
      cases he; exact .extension h
  · intro h
    cases h with
    | command _ h => exact .inl (.inl (.inl ⟨_, List.mem_map_of_mem h, rfl⟩))
    | build w h y hy hw =>
      rw [← words] at h
      obtain ⟨i, hi, rfl⟩ := List.mem_map.1 h
      exact .inl (.inl (.inr ⟨_, (mem_build _ _).2 ⟨i, hi, ⟨y, hy, hw⟩, rfl⟩, rfl⟩))
    | shell a h w hw hx => exact .inl (.inr ⟨_, (mem_shell _ _).2 ⟨a, h, ⟨w, hw, hx⟩, rfl⟩, rfl⟩)
    | extension h => exact .inr ⟨_, (mem_extension _ _ _).2 ⟨h, rfl⟩, rfl⟩

theorem lists (desc : Package → Option Str) (p : Package) : Lists p ((discover desc p).map pair) where
  all := mem_discover desc p
  order := by
    obtain ⟨h1, h2, h3, h4⟩ := parts desc p
    simp only [types, List.flatMap_cons, List.flatMap_nil, List.append_nil]
    rw [h1, h2, h3, h4]
    simp [discover]
  commands := by
    rw [(parts desc p).1]
    simp [commandPlugins, pair, Function.comp_def]
  builds := by
    rw [(parts desc p).2.1, ← words, List.map_map, List.map_map, buildPlugins, List.map_filterMap]
    apply filterMap_sublist
    rintro ⟨i, d⟩ b h
    simp only at h
    split_ifs at h
    · exact (Option.some.inj h).symm
    · cases h
  shells := by
    rw [(parts desc p).2.2.1, List.map_map, shellPlugins, List.map_filterMap]
    apply filterMap_sublist
    intro t b h
    split_ifs at h
    · exact (Option.some.inj h).symm
    · cases h
  extension := by
    rw [(parts desc p).2.2.2]
    unfold extensionPlugins
    split_ifs <;> simp

/-! Grouping -/

def step (m : List (Str × List Plugin)) (x : Plugin) : List (Str × List Plugin) := mset m x.type ((mget m x.type).getD [] ++ [x])

theorem keys_mset {α : Type} (m : List (Str × α)) (k : Str) (v : α) (h : (mkeys m).Nodup) : (mkeys (mset m k v)).Nodup := by
  unfold mkeys mset mdel at *
  rw [List.map_cons, List.nodup_cons]
  constructor
  · intro hm
    obtain ⟨x, hx, he⟩ := List.mem_map.1 hm
    have := (List.mem_filter.1 hx).2
    simp only [ne_eq, decide_eq_true_eq] at this
    exact this he
  · exact h.sublist (List.filter_sublist.map _)

theorem mem_mget {α : Type} {m : List (Str × α)} (h : (mkeys m).Nodup) {k : Str} {v : α} (hm : (k, v) ∈ m) : mget m k = some v := by
  induction m with
  | nil => cases hm
  | cons x m ih =>
    obtain ⟨a, b⟩ := x
    simp only [mkeys, List.map_cons, List.nodup_cons] at h
    rcases List.mem_cons.1 hm with he | hm
    · cases he; simp [mget]
    · have hne : a ≠ k := by
        rintro rfl
        exact h.1 (List.mem_map.2 ⟨_, hm, rfl⟩)
      simp only [mget, hne, if_false]
      exact ih h.2 hm

theorem mget_mem {α : Type} {m : List (Str × α)} {k : Str} {v : α} (h : mget m k = some v) : (k, v) ∈ m := by
  induction m with
  | nil => cases h
  | cons x m ih =>
    obtain ⟨a, b⟩ := x
    simp only [mget] at h
    split_ifs at h with ha
    · cases h; subst ha; exact List.mem_cons_self
    · exact List.mem_cons_of_mem _ (ih h)

theorem byType_spec (ps : List Plugin) : (mkeys (byType ps)).Nodup ∧
    ∀ t, mget (byType ps) t = if (ps.filter fun x => x.type = t) = [] then none else some (ps.filter fun x => x.type = t) := by
  have key : ∀ ps : List Plugin, byType ps = ps.foldl step [] := fun _ => rfl
  induction ps using List.reverseRecOn with
  | nil => exact ⟨List.nodup_nil, fun t => rfl⟩
  | append_singleton ps x ih =>
    rw [key] at ih ⊢
    rw [List.foldl_append]
    refine ⟨keys_mset _ _ _ ih.1, fun t => ?_⟩
    show mget (mset (ps.foldl step []) x.type ((mget (ps.foldl step []) x.type).getD [] ++ [x])) t = _
    rw [mget_mset, List.filter_append]
    by_cases h : t = x.type
    · subst h
      rw [ih.2]
      simp only [if_true]
      split_ifs with h1 h2 h2 <;> simp_all
    · have : ([x].filter fun y => decide (y.type = t)) = [] := by simp [Ne.symm h]
      rw [if_neg h, this, List.append_nil]
      exact ih.2 t

theorem entry_lines (x : Plugin) : entry x = lines x.name x.description x.version := by
  rcases x with ⟨n, v, t, d⟩
  cases v <;> cases d <;> rfl

theorem title_heading {t : Str} (h : t ∈ types) : heading t = title t := by
  revert t; decide

theorem type_mem {desc : Package → Option Str} {p : Package} {x : Plugin} (h : x ∈ discover desc p) : x.type ∈ types := by
  simp only [discover, List.mem_append] at h
  rcases h with ((h | h) | h) | h
  · rw [type_command h]; decide
  · rw [type_build h]; decide
  · rw [type_shell h]; decide
  · rw [type_extension h]; decide

theorem sections (desc : Package → Option Str) (p : Package) {walk : List (Str × List Plugin) → List (Str × List Plugin)}
    (hw : ∀ m, (walk m).Perm m) : ∃ order : List Str, order.Nodup ∧ (∀ t, t ∈ order ↔ ∃ x ∈ discover desc p, x.type = t) ∧
      (walk (byType (discover desc p))).flatMap PluginsCommand.group = order.flatMap (section_ (discover desc p)) := by
  obtain ⟨hn, hg⟩ := byType_spec (discover desc p)
  have hmem : ∀ g ∈ byType (discover desc p), g.2 = (discover desc p).filter (fun x => x.type = g.1) ∧ g.2 ≠ [] := by
    rintro ⟨t, l⟩ hm
    have h := mem_mget hn hm
    rw [hg] at h
    split_ifs at h with h0
    injection h with h
    exact ⟨h.symm, by rw [← h]; exact h0⟩
  refine ⟨mkeys (walk (byType (discover desc p))), ((hw _).map Prod.fst).nodup_iff.2 hn, fun t => ?_, ?_⟩
  · constructor
    · intro h
      obtain ⟨g, hgm, rfl⟩ := List.mem_map.1 h
      obtain ⟨h1, h2⟩ := hmem g ((hw _).mem_iff.1 hgm)
      obtain ⟨x, hx⟩ := List.exists_mem_of_ne_nil _ h2
      rw [h1] at hx
      have := List.mem_filter.1 hx
      exact ⟨x, this.1, by simpa using this.2⟩
    · rintro ⟨x, hx, rfl⟩
      have h := hg x.type
      rw [if_neg (fun he => by
        have : x ∈ (discover desc p).filter (fun y => y.type = x.type) := List.mem_filter.2 ⟨hx, by simp⟩
        rw [he] at this; cases this)] at h
      exact List.mem_map.2 ⟨_, (hw _).mem_iff.2 (mget_mem h), rfl⟩
  · simp only [mkeys, List.flatMap_map]
    apply List.flatMap_congr
    intro g hgm
    obtain ⟨h1, h2⟩ := hmem g ((hw _).mem_iff.1 hgm)
    obtain ⟨x, hx⟩ := List.exists_mem_of_ne_nil _ h2
    have hx' := hx
    rw [h1] at hx'
    have hm := List.mem_filter.1 hx'
    have ht : g.1 ∈ types := by
      have := type_mem hm.1
      have h3 : x.type = g.1 := by simpa using hm.2
      rwa [h3] at this
    simp only [PluginsCommand.group, section_, title_heading ht, ← h1, List.cons_append, List.nil_append]
    congr 2
    exact List.flatMap_congr fun y _ => entry_lines y

/-! Directories that are not there -/

theorem find_new (root : Root) (name : Str) : find root State.new name =
    match scan root with
      | (s', false) => (s', .err)
      | (s', true) =>
        match mget s'.errors name with
        | some _ => (s', .err)
        | none => (s', .ok ((mget s'.cache name).getD [])) := rfl

theorem find_no_panic (root : Root) (name : Str) : (find root State.new name).2 ≠ .panic := by
  rw [find_new]
  split
  · simp
  · split <;> simp

theorem findEach_missing (roots : List Root) (h : none ∈ roots) (name : Str) : (findEach (PyRelease.newRepos roots) name).2 = .err := by
  induction roots with
  | nil => cases h
  | cons r roots ih =>
    show (findEach ((r, State.new) :: PyRelease.newRepos roots) name).2 = .err
    have hp := find_no_panic r name
    rw [findEach]
    cases hf : find r State.new name with
    | mk s' o =>
      rw [hf] at hp
      cases o with
      | err => rfl
      | panic => exact absurd rfl hp
      | ok ps =>
        have hr : none ∈ roots := by
          rcases List.mem_cons.1 h with h | h
          · subst h
            rw [find_new] at hf
            simp [scan] at hf
          · exact h
        have := ih hr
        cases hq : findEach (PyRelease.newRepos roots) name with
        | mk r' o' =>
          rw [hq] at this
          simp only at this
          subst this
          rfl

theorem highest {srt : Sorting} (hs : SortingOk srt) (roots : List Root) (h : ∀ r ∈ roots, Sound r) (name : Str)
    (hc : Comparable (roots.flatMap fun r => ofFamily r name)) :
    ((roots.flatMap fun r => ofFamily r name) = [] → findPackage srt roots name = .err) ∧
    ((roots.flatMap fun r => ofFamily r name) ≠ [] → ∃ p, Highest (roots.flatMap fun r => ofFamily r name) p ∧ findPackage srt roots name = .ok p) := by
  have h' : ∀ r ∈ PyRelease.newRepos roots, Sound r.1 ∧ UpToDate srt r.1 r.2 := by
    intro r hr
    obtain ⟨x, hx, rfl⟩ := List.mem_map.1 hr
    exact ⟨h x hx, ⟨[], rfl⟩⟩
  have flat : (PyRelease.newRepos roots).flatMap (fun r => ofFamily r.1 name) = roots.flatMap fun r => ofFamily r name := by
    simp [PyRelease.newRepos, List.flatMap_map]
  obtain ⟨l, h1, h2, h3⟩ := C67_find hs (PyRelease.newRepos roots) h' name (by rw [flat]; exact hc)
  rw [flat] at h2
  constructor
  · intro he
    rw [he] at h2
    unfold findPackage
    rw [h1, h2.eq_nil]
  · intro hne
    cases l with
    | nil => exact absurd h2.symm.eq_nil hne
    | cons p l =>
      refine ⟨p, ⟨h2.mem_iff.1 List.mem_cons_self, fun q hq => ?_⟩, by unfold findPackage; rw [h1]⟩
      rcases List.mem_cons.1 (h2.mem_iff.2 hq) with rfl | hq
      · refine ⟨id, fun u v hu hv => ?_⟩
        rw [hu] at hv
        cases hv
        rw [Version.cmp_refl]
        decide
      · have := (List.pairwise_cons.1 h3).1 q hq
        exact ⟨this.1, fun u v hu hv => by simpa using this.2 u v hu hv⟩

end PluginsCommandLemmas
open PluginsCommandLemmas

/-- C243: without a package the three lines about what there is are written, whatever the settings and the directories are. -/
theorem C243_listing (srt : Sorting) (dirs : Str → Root) (desc : Package → Option Str)
    (walk : List (Str × List Plugin) → List (Str × List Plugin)) (c : Settings) (a : Args) (h : a.package = none) :
    ∃ before, (a.verbose = false → before = []) ∧ run srt dirs desc walk c a =
      .ok ⟨before ++ [c!"Available plugin types: build_process, build_system, release_hook, release_vcs, shell",
        c!"Built-in build_system plugins: binary_archive, pypi",
        c!"Use 'rez plugins <package>' to list plugins for a specific package."], []⟩ := by
  unfold run
  rw [h]
  refine ⟨_, fun hv => ?_, rfl⟩
  rw [hv]
  rfl

/-- C243: where packages are looked for: in the directories that are given, and in those of the settings only if none is given;
the directory for local packages is then one of them, without being searched twice. -/
theorem C243_searched (c : Settings) (a : Args) :
    (a.paths ≠ [] → searched c a = a.paths) ∧
    (a.paths = [] → c.packagesPath <+: searched c a ∧
      (∀ x, x ∈ searched c a ↔ x ∈ c.packagesPath ∨ x = c.localPackagesPath) ∧
      (c.packagesPath.Nodup → (searched c a).Nodup)) := by
  unfold searched
  constructor
  · intro h
    rw [if_neg (by simpa using h)]
  · intro h
    rw [if_pos (by simp [h])]
    split_ifs with hc
    · have hc' : c.localPackagesPath ∈ c.packagesPath := by simpa using hc
      exact ⟨List.prefix_refl _, fun x => ⟨.inl, fun hx => hx.elim id fun e => e ▸ hc'⟩, id⟩
    · have hc' : c.localPackagesPath ∉ c.packagesPath := by simpa using hc
      refine ⟨List.prefix_append _ _, fun x => by simp, fun hn => ?_⟩
      rw [List.nodup_append]
      refine ⟨hn, by simp, ?_⟩
      rintro x hx y hy rfl
      exact hc' (List.mem_singleton.1 hy ▸ hx)

/-- C243: with a package, and directories that can be read: it is an error if no directory has the package; otherwise the plugins of
the highest version are shown, one name on a line, first its tools, then build systems, shells and extensions; if there are none, this
is told on the error output and the command still succeeds. -/
theorem C243_package {srt : Sorting} (hs : SortingOk srt) (dirs : Str → Root) (desc : Package → Option Str)
    (walk : List (Str × List Plugin) → List (Str × List Plugin)) (c : Settings) (a : Args) (name : Str) (ha : a.package = some name)
    (hv : a.verbose = false) (h : ∀ x ∈ searched c a, Sound (dirs x))
    (hc : Comparable ((searched c a).flatMap fun x => ofFamily (dirs x) name)) :
    (((searched c a).flatMap fun x => ofFamily (dirs x) name) = [] → run srt dirs desc walk c a = .err) ∧
    (((searched c a).flatMap fun x => ofFamily (dirs x) name) ≠ [] →
      ∃ p l, Highest ((searched c a).flatMap fun x => ofFamily (dirs x) name) p ∧ Lists p l ∧
        run srt dirs desc walk c a =
          .ok (if l = [] then ⟨[], [c!"package '" ++ name ++ c!"' has no plugins."]⟩ else ⟨l.map Prod.fst, []⟩)) := by
  have flat : ((searched c a).map dirs).flatMap (fun r => ofFamily r name) = (searched c a).flatMap fun x => ofFamily (dirs x) name := by
    rw [List.flatMap_map]
  have hh := highest hs ((searched c a).map dirs) (by
    intro r hr
    obtain ⟨x, hx, rfl⟩ := List.mem_map.1 hr
    exact h x hx) name (by rw [flat]; exact hc)
  rw [flat] at hh
  unfold run
  rw [ha]
  simp only
  constructor
  · intro he
    rw [hh.1 he]
  · intro hne
    obtain ⟨p, hp, hf⟩ := hh.2 hne
    refine ⟨p, (discover desc p).map pair, hp, lists desc p, ?_⟩
    have hn : p.name = name := by
      obtain ⟨x, -, hx⟩ := List.mem_flatMap.1 hp.1
      simpa using (List.mem_filter.1 hx).2
    rw [hf]
    simp only [hv, Bool.false_eq_true, if_false, List.nil_append, List.map_eq_nil_iff]
    unfold display
    by_cases he : discover desc p = []
    · simp [he, hn]
    · have : (discover desc p).isEmpty = false := by simpa using he
      simp only [this, he, Bool.false_eq_true, if_false]
      simp [pair, Function.comp_def]

/-- C243: the verbose report: each type that occurs has one section, with exactly the plugins of this type in the order of the plain
report, whatever order the types come in, and the number of plugins is told at the end. -/
theorem C243_verbose (desc : Package → Option Str) (walk : List (Str × List Plugin) → List (Str × List Plugin))
    (hw : ∀ m, (walk m).Perm m) (p : Package) (hne : discover desc p ≠ []) :
    ∃ order : List Str, order.Nodup ∧ (∀ t, t ∈ order ↔ ∃ n, Provides p n t) ∧
      display walk p.name (discover desc p) true =
        ⟨[c!"📋 Plugins found for package '" ++ p.name ++ c!"':", List.replicate 60 '=', []] ++
          order.flatMap (section_ (discover desc p)) ++
          [c!"✅ Total: " ++ decimal (discover desc p).length ++ c!" plugins found"], []⟩ ∧
      (display walk p.name (discover desc p) false).out = (discover desc p).map (·.name) := by
  obtain ⟨order, h1, h2, h3⟩ := sections desc p hw
  have hf : (discover desc p).isEmpty = false := by simpa using hne
  refine ⟨order, h1, fun t => (h2 t).trans ?_, ?_, ?_⟩
  · constructor
    · rintro ⟨x, hx, rfl⟩
      exact ⟨x.name, (mem_discover desc p _ _).1 (List.mem_map.2 ⟨x, hx, rfl⟩)⟩
    · rintro ⟨n, hn⟩
      obtain ⟨x, hx, he⟩ := List.mem_map.1 ((mem_discover desc p _ _).2 hn)
      exact ⟨x, hx, congrArg Prod.snd he⟩
  · unfold display
    rw [hf, h3]
    simp
  · unfold display
    rw [hf]
    simp

/-- C243: what is told of each plugin besides: the version of the package, and for an extension its description. -/
theorem C243_about (desc : Package → Option Str) (p : Package) (x : Plugin) (h : x ∈ discover desc p) :
    x.version = p.version.map Version.asStr ∧ (x.type = c!"extension" → x.description = desc p) ∧
      (x.type ≠ c!"extension" → x.description ≠ none) := by
  simp only [discover, List.mem_append] at h
  rcases h with ((h | h) | h) | h
  · obtain ⟨t, -, rfl⟩ := List.mem_map.1 h
    exact ⟨rfl, by intro hh; exact absurd hh (by decide : (c!"command" : Str) ≠ c!"extension"), by intro _ h; cases h⟩
  · obtain ⟨i, -, -, rfl⟩ := (mem_build _ _).1 h
    exact ⟨rfl, by intro hh; exact absurd hh (by decide : (c!"build_system" : Str) ≠ c!"extension"), by intro _ h; cases h⟩
  · obtain ⟨i, -, -, rfl⟩ := (mem_shell _ _).1 h
    exact ⟨rfl, by intro hh; exact absurd hh (by decide : (c!"shell" : Str) ≠ c!"extension"), by intro _ h; cases h⟩
  · obtain ⟨-, rfl⟩ := (mem_extension _ _ _).1 h
    exact ⟨rfl, fun _ => rfl, fun h => absurd rfl h⟩

/-- C243: one directory that cannot be read, such as a directory for local packages that is not there yet, makes the command fail,
although the others may have the package. -/
theorem C243_missing (srt : Sorting) (dirs : Str → Root) (desc : Package → Option Str)
    (walk : List (Str × List Plugin) → List (Str × List Plugin)) (c : Settings) (a : Args) (name : Str) (ha : a.package = some name)
    (x : Str) (hx : x ∈ searched c a) (hd : dirs x = none) : run srt dirs desc walk c a = .err := by
  have h := findEach_missing ((searched c a).map dirs) (List.mem_map.2 ⟨x, hx, hd⟩) name
  have : findPackage srt ((searched c a).map dirs) name = .err := by
    unfold findPackage managerFind
    cases hq : findEach (PyRelease.newRepos ((searched c a).map dirs)) name with
    | mk r o =>
      rw [hq] at h
      simp only at h
      subst h
      rfl
  unfold run
  rw [ha]
  simp only [this]

/-- C243, false: a build system is named only if the package has or wants it: `cmake` alone gives `make_build` too, a tool
`pipeline` gives `pip_build`, and a package that must not be used with `cargo` gives `cargo_build`. -/
theorem C243_words_false :
    Provides ⟨c!"a", none, [], [], [c!"cmake"], none⟩ c!"make_build" c!"build_system" ∧
    Provides ⟨c!"a", none, [], [], [c!"pipeline"], none⟩ c!"pip_build" c!"build_system" ∧
    Provides ⟨c!"a", none, [c!"!cargo"], [], [], none⟩ c!"cargo_build" c!"build_system" :=
  ⟨.build c!"make" (by decide) c!"cmake" (.inl (by decide)) ⟨c!"c", [], by decide⟩,
   .build c!"pip" (by decide) c!"pipeline" (.inl (by decide)) ⟨[], c!"eline", by decide⟩,
   .build c!"cargo" (by decide) c!"!cargo" (.inr (by decide)) ⟨c!"!", [], by decide⟩⟩

/-- A package with plugins of all types. -/
example : (discover (fun _ => none) ⟨c!"my_plugin", none, [c!"python-3"], [], [c!"bash_it", c!"run"], none⟩).map (·.name) =
    [c!"bash_it", c!"run", c!"python_build", c!"bash_it_shell", c!"my_plugin"] := by decide +kernel

/-- A package without plugins. -/
example : discover (fun _ => none) ⟨c!"lib", none, [c!"boost"], [], [], none⟩ = [] := by decide +kernel

/-- The report by type. -/
example : (display id c!"x" (discover (fun _ => none) ⟨c!"x", none, [], [], [c!"npm"], none⟩) true).out =
    [c!"📋 Plugins found for package 'x':", List.replicate 60 '=', [],
     c!"🔧 BUILD SYSTEM Plugins:", List.replicate 40 '-', c!"  • npm_build", c!"    Description: Node.js npm", [],
     c!"🔧 COMMAND Plugins:", List.replicate 40 '-', c!"  • npm", c!"    Description: Command-line tool provided by x", [],
     c!"✅ Total: 2 plugins found"] := by decide +kernel

/-- Two versions in two directories that can be read, one with a tool. -/
def pluginsDirs (x : Str) : Root :=
  if x = c!"/p" then demoRoot c!"a" [c!"1", c!"3"]
  else some [(c!"a", .folder true [(c!"2", .package (.ok { pk c!"a" (some c!"7") none with tools := [c!"zsh"] }))])]

example : (∀ x ∈ searched ⟨[c!"/p"], c!"/l"⟩ ⟨some c!"a", [], false⟩, Sound (pluginsDirs x)) ∧
    Comparable ((searched ⟨[c!"/p"], c!"/l"⟩ ⟨some c!"a", [], false⟩).flatMap fun x => ofFamily (pluginsDirs x) c!"a") ∧
    (run demoSorting pluginsDirs (fun _ => none) id ⟨[c!"/p"], c!"/l"⟩ ⟨some c!"a", [], false⟩ = .ok ⟨[c!"zsh", c!"zsh_shell"], []⟩) := by
  refine ⟨?_, ?_, by decide +kernel⟩
  · intro x _
    unfold pluginsDirs
    split_ifs <;> exact ⟨_, rfl, by simp [CleanBelow, Clean]⟩
  · have : ∀ p ∈ (searched ⟨[c!"/p"], c!"/l"⟩ ⟨some c!"a", [], false⟩).flatMap fun x => ofFamily (pluginsDirs x) c!"a",
        ∀ q ∈ (searched ⟨[c!"/p"], c!"/l"⟩ ⟨some c!"a", [], false⟩).flatMap fun x => ofFamily (pluginsDirs x) c!"a",
        ∀ r ∈ (searched ⟨[c!"/p"], c!"/l"⟩ ⟨some c!"a", [], false⟩).flatMap fun x => ofFamily (pluginsDirs x) c!"a",
        sortedCmp false p q ≠ .gt → sortedCmp false q r ≠ .gt → sortedCmp false p r ≠ .gt := by decide +kernel
    intro p hp q hq r hr u v w hu hv hw
    simpa [sortedCmp, hu, hv, hw] using this p hp q hq r hr

/-- The settings give two directories; the second is not there. -/
example : searched ⟨[c!"/p"], c!"/l"⟩ ⟨some c!"x", [], false⟩ = [c!"/p", c!"/l"] ∧
    searched ⟨[c!"/l", c!"/p"], c!"/l"⟩ ⟨some c!"x", [], false⟩ = [c!"/l", c!"/p"] := by decide

end Rez.Props
