import Verif.Spec.PyRelease
import Verif.Props.Repository
import Verif.Props.ReleaseManager
import Verif.Props.Search
import Verif.Lemmas.Text
/-!
# C239, C240: releasing and forwarding from Python
-/
namespace Rez.Props
open Rez Rez.PyRelease Rez.Repository Rez.PackageOrder Rez.Spec.PyRelease Rez.Spec.Repository Rez.Spec

/-! ## C239 -/

/-- C239: what the flags mean: a dry run, whatever `local` says, then a local release, and otherwise a release; building, tests and
version control are not skipped. -/
theorem C239_flags {W : Type} (m : ReleaseManager.Machine W) (t : ReleaseManager.Texts) (c : ReleaseManager.Settings)
    (src : ReleaseManager.Source) («local» dry : Bool) (message : Option Str) (w : W) :
    ∃ mode, releasePackage m t c src «local» dry message w = ReleaseManager.release m t c { mode := mode } src message w ∧
      (mode = .dryRun ↔ dry = true) ∧ (mode = .local ↔ dry = false ∧ «local» = true) ∧
      (mode = .release ↔ dry = false ∧ «local» = false) := by
  cases dry <;> cases «local» <;>
    first
    | exact ⟨.dryRun, rfl, by decide, by decide, by decide⟩
    | exact ⟨.local, rfl, by decide, by decide, by decide⟩
    | exact ⟨.release, rfl, by decide, by decide, by decide⟩

/-- C239: a dry run only looks, whatever else is asked for. -/
theorem C239_dry {W : Type} (m : ReleaseManager.Machine W) (t : ReleaseManager.Texts) (c : ReleaseManager.Settings)
    (src : ReleaseManager.Source) («local» : Bool) (message : Option Str) (w : W) :
    ∀ x ∈ (releasePackage m t c src «local» true message w).1.log, x.1 = .validate ∨ x.1 = .metadata := by
  intro x hx
  have := C158_dry m t c (manager (some c!"dry_run") false false) src message w rfl x hx
  cases h : x.1 <;> rw [h] at this <;> simp [ReleaseManager.Spec.looks] at this ⊢

/-- C239: the names of modes: `local`, `dry_run` and `dry-run`; every other name, and none, is a release. -/
theorem C239_modes (mode : Option Str) (b t : Bool) :
    ((manager mode b t).mode = .local ↔ mode = some c!"local") ∧
    ((manager mode b t).mode = .dryRun ↔ mode = some c!"dry_run" ∨ mode = some c!"dry-run") ∧
    ((manager mode b t).mode = .release ↔ mode ≠ some c!"local" ∧ mode ≠ some c!"dry_run" ∧ mode ≠ some c!"dry-run") ∧
    (manager mode b t).skipBuild = b ∧ (manager mode b t).skipTests = t ∧ (manager mode b t).skipVcs = false ∧
    (∀ s, mode = some s → (manager mode b t).mode = ReleaseManager.Mode.ofText s) := by
  have key : ∀ s : Str, modeOf s = ReleaseManager.Mode.ofText s := fun s => by
    simp only [modeOf, ReleaseManager.Mode.ofText]
    by_cases h1 : s = c!"local"
    · rw [if_pos h1, if_pos h1]
    · rw [if_neg h1, if_neg h1, Bool.or_comm]
  have hm : (manager mode b t).mode = modeOf (mode.getD c!"release") := rfl
  refine ⟨?_, ?_, ?_, rfl, rfl, rfl, fun s hs => by rw [hm, hs, Option.getD_some, key]⟩ <;> rw [hm] <;> cases mode with
  | none => exact ⟨fun h => by revert h; decide, fun h => by revert h; decide⟩
  | some s =>
    simp only [Option.getD_some, modeOf, Option.some.injEq, Bool.or_eq_true, decide_eq_true_eq, ne_eq]
    by_cases h1 : s = c!"local"
    · subst h1; decide
    · by_cases h2 : s = c!"dry_run"
      · subst h2; decide
      · by_cases h3 : s = c!"dry-run"
        · subst h3; decide
        · simp [h1, h2, h3]

/-- C239: a package is valid exactly if `package.py` is there and can be read, its name is not empty, and it has a version; it is
valid exactly if there are no issues. -/
theorem C239_valid (src : ReleaseManager.Source) :
    ((validate src).1 = true ↔ src.py = true ∧ ∃ p, src.loaded = some p ∧ p.name ≠ [] ∧ p.version ≠ none) ∧
    ((validate src).1 = true ↔ (validate src).2 = []) := by
  rw [validate]
  cases hp : src.py with
  | false => simp
  | true =>
    cases hl : src.loaded with
    | none => simp
    | some p => cases hn : p.name <;> cases hv : p.version <;> simp [hn, hv]

/-- C239: a valid package passes the checks that a release begins with: it is released unless something goes wrong later. -/
theorem C239_released {W : Type} (src : ReleaseManager.Source) (h : (validate src).1 = true) (m : ReleaseManager.Machine W)
    (t : ReleaseManager.Texts) (c : ReleaseManager.Settings) («local» dry : Bool) (message : Option Str) (w : W)
    (r : ReleaseManager.Result) (hr : (releasePackage m t c src «local» dry message w).2 = some r) :
    ∃ p, src.loaded = some p ∧ r.name = p.name ∧ p.version = some r.version ∧ (r.dry = true ↔ dry = true) := by
  obtain ⟨hp, p, hl, hn, hv⟩ := (C239_valid src).1.1 h
  obtain ⟨mode, he, hd, -, -⟩ := C239_flags m t c src «local» dry message w
  rw [he] at hr
  have := C159_result m t c { mode := mode } src message w p ⟨.inl hp, hl, hn, hv⟩ r hr
  exact ⟨p, hl, this.2.1, this.2.2.1, this.2.2.2.trans hd⟩

/-- C239: a package that is not valid may still be released: `package.yaml` is enough for that. -/
theorem C239_invalid_false : ¬ ∀ src : ReleaseManager.Source, (validate src).1 = false → ∀ p, ¬ ReleaseManager.Spec.Good src p := by
  intro h
  exact h { dir := [c!"src"], py := false, yaml := true, loaded := some ⟨c!"foo", some c!"1.0", []⟩ } rfl _
    ⟨.inr rfl, rfl, by decide, by decide⟩

/-- C239: a mode that is misspelt is a release, and is not reported. -/
theorem C239_misspelt_false : (manager (some c!"dryrun") false false).mode = .release ∧
    (manager (some c!"Local") false false).mode = .release := by decide

namespace PyReleaseLemmas

theorem upToDate_new (srt : Sorting) (root : Root) : UpToDate srt root State.new := ⟨[], rfl⟩

theorem flat_fresh {α : Type} (roots : List Root) (f : Root → List α) : (newRepos roots).flatMap (fun r => f r.1) = roots.flatMap f := by
  simp [newRepos, List.flatMap_map]

theorem find_fresh {srt : Sorting} (hs : SortingOk srt) (roots : List Root) (h : ∀ r ∈ roots, Sound r) (name : Str)
    (hc : Comparable (roots.flatMap fun r => ofFamily r name)) :
    ∃ l, (managerFind srt (newRepos roots) name).2 = .ok l ∧ l.Perm (roots.flatMap fun r => ofFamily r name) := by
  have h' : ∀ r ∈ newRepos roots, Sound r.1 ∧ UpToDate srt r.1 r.2 := by
    intro r hr
    obtain ⟨x, hx, rfl⟩ := List.mem_map.1 hr
    exact ⟨h x hx, upToDate_new srt x⟩
  obtain ⟨l, h1, h2, -⟩ := C67_find hs (newRepos roots) h' name (by rw [flat_fresh roots fun r => ofFamily r name]; exact hc)
  rw [flat_fresh roots fun r => ofFamily r name] at h2
  exact ⟨l, h1, h2⟩

/-- Packages are kept under their own names. -/
def Named (s : State) : Prop := ∀ n ps, mget s.cache n = some ps → ∀ p ∈ ps, p.name = n

theorem named_push {s : State} (h : Named s) (p : Package) : Named (push s p) := by
  intro n ps hm q hq
  simp only [push, mget_mset] at hm
  split_ifs at hm with hn
  · injection hm with hm
    subst hm
    rcases List.mem_append.1 hq with hq | hq
    · cases hg : mget s.cache p.name with
      | none => rw [hg] at hq; cases hq
      | some l => rw [hg] at hq; rw [hn]; exact h _ l hg q hq
    · rw [List.mem_singleton.1 hq, hn]
  · exact h n ps hm q hq

theorem named_note {s : State} (h : Named s) (f e : Str) : Named (note s f e) := h

mutual
theorem named_tree (family : Str) (t : Tree) (s : State) (h : Named s) : Named (scanTree family t s).1 := by
  cases t with
  | package l =>
    cases l with
    | ok p => rw [scanTree]; exact named_push h p
    | error e => rw [scanTree]; exact named_note h _ _
  | folder r cs =>
    cases r with
    | true => rw [scanTree]; exact named_below family cs s h
    | false => rw [scanTree]; exact h
theorem named_below (family : Str) (l : List (Str × Tree)) (s : State) (h : Named s) : Named (scanBelow family l s).1 := by
  match l with
  | [] => rw [scanBelow]; exact h
  | (n, t) :: rest =>
    rw [scanBelow]
    have ht := named_tree family t s h
    cases he : scanTree family t s with
    | mk s' b =>
      rw [he] at ht
      cases b with
      | true => exact named_below family rest s' ht
      | false => exact ht
end

theorem named_root (l : List (Str × Tree)) : ∀ s : State, Named s → Named (scanRoot l s).1 := by
  induction l with
  | nil => intro s h; exact h
  | cons x rest ih =>
    intro s h
    obtain ⟨n, t⟩ := x
    rw [scanRoot]
    have ht := named_tree n t s h
    cases he : scanTree n t s with
    | mk s' b =>
      rw [he] at ht
      cases b with
      | true => exact ih s' ht
      | false => exact ht

theorem named_new : Named State.new := fun n ps h => by simp [State.new] at h

theorem named_scan (root : Root) : Named (scan root).1 := by
  cases root with
  | none => exact named_new
  | some l => exact named_root l _ named_new

theorem find_named (root : Root) (name : Str) (ps : List Package) (h : (find root State.new name).2 = .ok ps) :
    ∀ p ∈ ps, p.name = name := by
  rw [find] at h
  simp only [State.new, mget_nil] at h
  have hn := named_scan root
  cases hs : scan root with
  | mk s' b =>
    rw [hs] at h hn
    cases b with
    | false => cases h
    | true =>
      simp only at h
      cases he : mget s'.errors name with
      | some e => rw [he] at h; cases h
      | none =>
        rw [he] at h
        simp only at h
        injection h with h
        cases hc : mget s'.cache name with
        | none => rw [hc] at h; subst h; intro p hp; cases hp
        | some l => rw [hc] at h; subst h; exact fun p hp => hn name l hc p hp

theorem each_named (roots : List Root) (name : Str) : ∀ ps, (findEach (newRepos roots) name).2 = .ok ps → ∀ p ∈ ps, p.name = name := by
  induction roots with
  | nil => intro ps h; cases h; intro p hp; cases hp
  | cons root roots ih =>
    intro ps h
    simp only [newRepos, List.map_cons, findEach] at h
    cases hf : find root State.new name with
    | mk s' x =>
      rw [hf] at h
      cases x with
      | ok qs =>
        simp only at h
        cases he : findEach (List.map (fun r => (r, State.new)) roots) name with
        | mk rest' y =>
          rw [he] at h
          cases y with
          | ok rs =>
            simp only at h
            injection h with h
            subst h
            intro p hp
            rcases List.mem_append.1 hp with hp | hp
            · exact find_named root name qs (by rw [hf]) p hp
            · exact ih rs (by rw [newRepos, he]) p hp
          | err => cases h
          | panic => cases h
      | err => cases h
      | panic => cases h

theorem manager_named {srt : Sorting} (hs : SortingOk srt) (roots : List Root) (name : Str) (ps : List Package)
    (h : (managerFind srt (newRepos roots) name).2 = .ok ps) : ∀ p ∈ ps, p.name = name := by
  rw [managerFind] at h
  have he := each_named roots name
  cases hf : findEach (newRepos roots) name with
  | mk r x =>
    rw [hf] at h he
    cases x with
    | ok qs =>
      simp only at h
      intro p hp
      exact he qs rfl p ((hs.perm _ _ _ h).mem_iff.1 hp)
    | err => cases h
    | panic => cases h

end PyReleaseLemmas
open PyReleaseLemmas

/-- C239: the versions that are listed are the versions of the family in the directories, as often as they are there, in the
order of their texts. -/
theorem C239_versions {srt : Sorting} (hs : SortingOk srt) (roots : List Root) (h : ∀ r ∈ roots, Sound r) (name : Str)
    (hc : Comparable (roots.flatMap fun r => ofFamily r name)) :
    ∃ l, listVersions srt roots name = .ok l ∧ l.Perm (versionsOf roots name) ∧ l.Pairwise fun a b => cmpStr a b ≠ .gt := by
  obtain ⟨ps, h1, h2⟩ := find_fresh hs roots h name hc
  have hn := manager_named hs roots name ps h1
  have hf : ps.filter (fun p => decide (p.name = name)) = ps := List.filter_eq_self.2 fun p hp => by simp [hn p hp]
  refine ⟨_, by rw [listVersions, h1], ?_, SearchLemmas.sortStr_sorted _⟩
  refine (SearchLemmas.sortStr_perm _).trans ?_
  rw [hf]
  exact h2.filterMap _

/-- C239: that is not the order of versions: the last one listed need not be the latest. -/
theorem C239_order_false : ∃ a b : Str, cmpStr a b = .lt ∧
    ∃ va vb, Version.parse a = some va ∧ Version.parse b = some vb ∧ va.cmp vb = .gt :=
  ⟨c!"1.10", c!"1.9", by decide, _, _, rfl, rfl, by decide +kernel⟩

open ManagerExamples in
example : (validate src).1 = true ∧ ((releasePackage machine texts settings src true false none start).2.map (·.success)) = some true := by
  decide +kernel

/-! ## C240 -/

/-- C240: what a dry run says: the tool and its arguments, with blanks between; nothing is run. -/
theorem C240_dry («show» : Int → Str) (run : Str → List Str → Option (Option Int)) (f : Forward) (args : Option (List Str)) :
    f.execute «show» run args true = some (c!"[dry-run] rez-forward: " ++ joinWith c!" " (f.tool :: args.getD [])) := by
  simp only [Forward.execute, if_true, command]
  cases args.getD [] with
  | nil => rfl
  | cons a l => simp [joinWith]

/-- C240: otherwise the tool is run with the arguments, and the answer is its exit code, -1 if it has none; it is an error exactly
if the tool cannot be started. -/
theorem C240_run («show» : Int → Str) (run : Str → List Str → Option (Option Int)) (f : Forward) (args : Option (List Str)) :
    (∀ code, run f.tool (args.getD []) = some (some code) → f.execute «show» run args false = some (c!"exit:" ++ «show» code)) ∧
    (run f.tool (args.getD []) = some none → f.execute «show» run args false = some (c!"exit:" ++ «show» (-1))) ∧
    (f.execute «show» run args false = none ↔ run f.tool (args.getD []) = none) := by
  simp only [Forward.execute, Bool.false_eq_true, if_false, Option.map_eq_none_iff, and_true]
  exact ⟨fun code h => by rw [h]; rfl, fun h => by rw [h]; rfl⟩

/-- C240: the context of the object plays no part: the tool is run as it is found. -/
theorem C240_context_false («show» : Int → Str) (run : Str → List Str → Option (Option Int)) (tool : Str) (a b : Option Str)
    (args : Option (List Str)) (dry : Bool) :
    (Forward.mk tool a).execute «show» run args dry = (Forward.mk tool b).execute «show» run args dry := rfl

/-- C240: a wrapper for a tool whose name has no line break has these lines, each shell its own, and the lines of bash for every
other shell and for none. -/
theorem C240_script (tool : Str) (h : '\n' ∉ tool) (shell : Option Str) :
    splitChar '\n' (script tool shell) = lines tool (shell.getD c!"bash") := by
  have e : script tool shell = joinWith ['\n'] (lines tool (shell.getD c!"bash")) := by
    simp only [script, lines, Bool.or_eq_true, decide_eq_true_eq]
    split_ifs <;> simp only [joinWith, List.append_assoc] <;> rfl
  rw [e]
  refine splitChar_join ?_ ?_
  · rw [lines]; split_ifs <;> simp
  · have h0 : ∀ a b : Str, '\n' ∉ a → '\n' ∉ b → '\n' ∉ a ++ tool ++ b := fun a b ha hb hm => by
      rcases List.mem_append.1 hm with hm | hm
      · rcases List.mem_append.1 hm with hm | hm
        · exact ha hm
        · exact h hm
      · exact hb hm
    have h1 : ∀ a : Str, '\n' ∉ a → '\n' ∉ a ++ tool := fun a ha hm => by
      rcases List.mem_append.1 hm with hm | hm
      · exact ha hm
      · exact h hm
    intro p hp
    rw [lines] at hp
    split_ifs at hp <;> simp only [List.mem_cons, List.not_mem_nil, or_false] at hp
    · rcases hp with rfl | rfl | rfl | rfl | rfl | rfl
      · exact h1 _ (by decide)
      · decide
      · exact h0 _ _ (by decide) (by decide)
      · decide
      · exact h0 _ _ (by decide) (by decide)
      · decide
    · rcases hp with rfl | rfl | rfl | rfl
      · decide
      · exact h1 _ (by decide)
      · exact h0 _ _ (by decide) (by decide)
      · decide
    · rcases hp with rfl | rfl | rfl | rfl | rfl
      · exact h1 _ (by decide)
      · exact h1 _ (by decide)
      · exact h0 _ _ (by decide) (by decide)
      · decide
      · decide
    · rcases hp with rfl | rfl | rfl | rfl
      · decide
      · exact h1 _ (by decide)
      · exact h0 _ _ (by decide) (by decide)
      · decide

/-- C240: a name is put into a wrapper as it is: with a line break in it, it adds a command. -/
theorem C240_escaped_false : ∃ tool : Str, c!"rm -r x" ∈ splitChar '\n' (script tool none) :=
  ⟨c!"a\nrm -r x", by decide +kernel⟩

/-- C240: the only package that looking for a tool can answer is one without a name, whatever the directories hold: the
repositories are asked for the packages named by the empty text. -/
theorem C240_found {srt : Sorting} (hs : SortingOk srt) (roots : List Root) (tool : Str) (paths : Option (List Str)) (id family : Str)
    (h : resolveTool srt roots tool paths = .ok (some (id, family))) : family = [] ∧ ∃ v, id = '-' :: v := by
  rw [resolveTool] at h
  cases hm : (managerFind srt (newRepos roots) []).2 with
  | ok ps =>
    rw [hm] at h
    simp only at h
    injection h with h
    obtain ⟨p, hp, he⟩ := Option.map_eq_some_iff.1 h
    have hn := manager_named hs roots [] ps hm p (List.mem_of_find?_eq_some hp)
    rw [hn] at he
    injection he with h1 h2
    exact ⟨h2.symm, _, h1.symm⟩
  | err => rw [hm] at h; cases h
  | panic => rw [hm] at h; cases h

/-- C240: so, where every package has a name, no tool is ever found, also one that a package has. -/
theorem C240_tools_false {srt : Sorting} (hs : SortingOk srt) (roots : List Root) (h : ∀ r ∈ roots, Sound r)
    (hn : ∀ r ∈ roots, ∀ p ∈ onDisk r, p.name ≠ []) (tool : Str) (paths : Option (List Str)) :
    resolveTool srt roots tool paths = .ok none := by
  have h0 : (roots.flatMap fun r => ofFamily r []) = [] := by
    rw [List.flatMap_eq_nil_iff]
    intro r hr
    rw [ofFamily, List.filter_eq_nil_iff]
    intro p hp
    simpa using hn r hr p hp
  obtain ⟨l, h1, h2⟩ := find_fresh hs roots h [] (by rw [h0]; intro p hp; cases hp)
  rw [h0] at h2
  rw [resolveTool, h1, h2.eq_nil]
  rfl

example : ∃ roots : List Root, (∀ r ∈ roots, Sound r) ∧ (∀ r ∈ roots, ∀ p ∈ onDisk r, p.name ≠ []) ∧
    ∃ r ∈ roots, ∃ p ∈ onDisk r, c!"maya" ∈ p.tools :=
  ⟨[some [(c!"maya", .package (.ok ⟨c!"maya", none, [], [], [c!"maya"], none⟩))]],
    by simp [Sound, CleanBelow, Clean], by simp [onDisk, foundBelow, found], by simp [onDisk, foundBelow, found]⟩

end Rez.Props
