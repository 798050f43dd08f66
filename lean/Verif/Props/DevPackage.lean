import Verif.Spec.DevPackage
import Verif.Props.Serialization
/-!
# C249: packages in a working directory
-/
namespace Rez.Props
open Rez Rez.Serial Rez.Spec.Serial Rez.DevPackage Rez.Spec.DevPackage SerialLemmas

namespace DevPackageLemmas

theorem isFile_iff {d : Disk} {dir : List Str} {name : Str} : isFile (d (dir ++ [name])) = true ↔ Has d dir name := by
  unfold Has
  cases h : d (dir ++ [name]) with
  | none => simp [isFile]
  | some n => cases n <;> simp [isFile]

theorem ext_py (dir : List Str) : ((dir ++ [c!"package.py"]).getLast?.bind Context.extension) ≠ some c!"yaml" := by
  rw [List.getLast?_concat]
  decide +kernel

theorem ext_yaml (dir : List Str) : ((dir ++ [c!"package.yaml"]).getLast?.bind Context.extension) = some c!"yaml" := by
  rw [List.getLast?_concat]
  decide +kernel

theorem find_py {d : Disk} {dir : List Str} (h : Has d dir c!"package.py") : findFile d dir = some (dir ++ [c!"package.py"]) := by
  unfold findFile
  rw [List.find?_cons, isFile_iff.mpr h]

theorem find_yaml {d : Disk} {dir : List Str} (h : ¬ Has d dir c!"package.py") (hy : Has d dir c!"package.yaml") :
    findFile d dir = some (dir ++ [c!"package.yaml"]) := by
  unfold findFile
  have h1 : isFile (d (dir ++ [c!"package.py"])) = false := by
    rw [← Bool.not_eq_true, isFile_iff]; exact h
  rw [List.find?_cons, h1, List.find?_cons, isFile_iff.mpr hy]

theorem find_none {d : Disk} {dir : List Str} (h : ¬ Has d dir c!"package.py") (hy : ¬ Has d dir c!"package.yaml") :
    findFile d dir = none := by
  unfold findFile
  have h1 : isFile (d (dir ++ [c!"package.py"])) = false := by
    rw [← Bool.not_eq_true, isFile_iff]; exact h
  have h2 : isFile (d (dir ++ [c!"package.yaml"])) = false := by
    rw [← Bool.not_eq_true, isFile_iff]; exact hy
  rw [List.find?_cons, h1, List.find?_cons, h2]
  rfl

theorem new_in (p : Pkg) (dir : List Str) (name : Str) :
    DevPackage.new p (dir ++ [name]) = ⟨p, dir ++ [name], dir, []⟩ := by
  simp [DevPackage.new]

theorem load_in (c : Codecs) (alnum : Char → Bool) (d : Disk) (dir : List Str) (name : Str) (f : Format)
    (hf : f = if ((dir ++ [name]).getLast?.bind Context.extension) = some c!"yaml" then .yaml else .python) (p : Pkg) :
    loadFile c alnum d (dir ++ [name]) = .ok p ↔ Gives c alnum d dir name f p := by
  unfold loadFile Gives
  rw [← hf]
  cases h : d (dir ++ [name]) with
  | none => simp
  | some n =>
    cases n with
    | dir => simp
    | special => simp
    | file t =>
      cases t with
      | none => simp
      | some s =>
        simp only [Option.some.injEq, Node.file.injEq, exists_eq_left']
        cases loadText c alnum s f <;> simp

/-- A directory with both files, of which the first is broken. -/
def both : Disk := fun p =>
  if p = [c!"a", c!"package.py"] then some (.file (some c!"@include('x')"))
  else if p = [c!"a", c!"package.yaml"] then some (.file (some c!"name: a"))
  else if p = [c!"b", c!"package.py"] then some .dir
  else if p = [c!"b", c!"package.yaml"] then some (.file (some c!"name: a"))
  else if p = [c!"j", c!"package.json"] then some (.file (some c!"name: a"))
  else none

/-- Codecs for the examples: one text is a package. -/
def few : Codecs where
  json := fun _ _ => []
  readJson := fun s => if s = c!"name: a" then some (.obj [(c!"name", .str c!"a")]) else none
  yaml := fun _ _ => []
  readYaml := fun s => if s = c!"name: a" then some (.obj [(c!"name", .str c!"a")]) else none
  toml := fun _ => none
  readToml := fun _ => none
  bincode := fun _ => []
  readBincode := fun _ => none
  gzip := fun _ s => s
  gunzip := some
  python := fun _ => none

end DevPackageLemmas
open DevPackageLemmas

/-- C249: a developer package is loaded from a directory exactly if `package.py` is a file there and is a package in Python, or
`package.py` is no file there and `package.yaml` is one and is a package in YAML.  It remembers that file and that directory. -/
theorem C249_loaded (c : Codecs) (alnum : Char → Bool) (d : Disk) (dir : List Str) (x : Dev) :
    fromPath c alnum d dir = .ok x ↔
      x.root = dir ∧ x.includes = [] ∧
      (Gives c alnum d dir c!"package.py" .python x.package ∧ x.filepath = dir ++ [c!"package.py"] ∨
       ¬ Has d dir c!"package.py" ∧ Gives c alnum d dir c!"package.yaml" .yaml x.package ∧ x.filepath = dir ++ [c!"package.yaml"]) := by
  have hgh : ∀ {name : Str} {f : Format} {p : Pkg}, Gives c alnum d dir name f p → Has d dir name := by
    rintro name f p ⟨t, ht, _⟩
    exact ⟨_, ht⟩
  have key : ∀ (name : Str) (f : Format) (_ : findFile d dir = some (dir ++ [name]))
      (_ : f = if ((dir ++ [name]).getLast?.bind Context.extension) = some c!"yaml" then .yaml else .python),
      (fromPath c alnum d dir = .ok x ↔
        x.root = dir ∧ x.includes = [] ∧ Gives c alnum d dir name f x.package ∧ x.filepath = dir ++ [name]) := by
    intro name f h1 h2
    unfold fromPath
    rw [h1]
    have hl := load_in c alnum d dir name f h2
    simp only
    cases hq : loadFile c alnum d (dir ++ [name]) with
    | ok q =>
      simp only [collectIncludes, new_in, Res.ok.injEq]
      have hg := (hl q).mp hq
      constructor
      · rintro rfl
        exact ⟨rfl, rfl, hg, rfl⟩
      · rintro ⟨hr, hi, hp, hf⟩
        have := (hl x.package).mpr hp
        rw [hq] at this
        cases x
        simp only [Res.ok.injEq] at this hr hi hf ⊢
        subst hr hi hf this
        rfl
    | err e =>
      simp only [reduceCtorEq, false_iff]
      rintro ⟨_, _, hp, _⟩
      have := (hl x.package).mpr hp
      rw [hq] at this
      cases this
    | panic =>
      simp only [reduceCtorEq, false_iff]
      rintro ⟨_, _, hp, _⟩
      have := (hl x.package).mpr hp
      rw [hq] at this
      cases this
  by_cases hp : Has d dir c!"package.py"
  · rw [key c!"package.py" .python (find_py hp) (by rw [if_neg (ext_py dir)])]
    tauto
  · by_cases hy : Has d dir c!"package.yaml"
    · rw [key c!"package.yaml" .yaml (find_yaml hp hy) (by rw [if_pos (ext_yaml dir)])]
      have := fun h : Gives c alnum d dir c!"package.py" .python x.package => hp (hgh h)
      tauto
    · unfold fromPath
      rw [find_none hp hy]
      simp only [reduceCtorEq, false_iff]
      rintro ⟨_, _, h | h⟩
      · exact hp (hgh h.1)
      · exact hy (hgh h.2.1)

example : ∃ x, fromPath few (fun _ => true) both [c!"b"] = .ok x ∧ x.filepath = [c!"b", c!"package.yaml"] := by
  refine ⟨⟨Pkg.new c!"a", [c!"b", c!"package.yaml"], [c!"b"], []⟩, ?_, rfl⟩
  rw [C249_loaded]
  refine ⟨rfl, rfl, Or.inr ⟨?_, ⟨c!"name: a", by decide +kernel, rfl⟩, rfl⟩⟩
  rintro ⟨t, ht⟩
  have : both ([c!"b"] ++ [c!"package.py"]) = some .dir := by decide +kernel
  rw [this] at ht
  cases ht

/-- C249: "not found" is told, with the directory, exactly if neither of the two is a file there. -/
theorem C249_missing (c : Codecs) (alnum : Char → Bool) (d : Disk) (dir at_ : List Str) :
    fromPath c alnum d dir = .err (.fileNotFound at_) ↔
      at_ = dir ∧ ¬ Has d dir c!"package.py" ∧ ¬ Has d dir c!"package.yaml" := by
  have hload : ∀ path a, loadFile c alnum d path ≠ .err (.fileNotFound a) := by
    intro path a h
    unfold loadFile at h
    split at h
    · split at h <;> cases h
    · cases h
  have key : ∀ path, findFile d dir = some path → fromPath c alnum d dir ≠ .err (.fileNotFound at_) := by
    intro path h1 h
    unfold fromPath at h
    rw [h1] at h
    simp only at h
    split at h
    · cases h
    · rename_i e he
      simp only [Res.err.injEq] at h
      exact hload _ _ (h ▸ he)
    · cases h
  by_cases hp : Has d dir c!"package.py"
  · exact ⟨fun h => absurd h (key _ (find_py hp)), fun h => absurd hp h.2.1⟩
  · by_cases hy : Has d dir c!"package.yaml"
    · exact ⟨fun h => absurd h (key _ (find_yaml hp hy)), fun h => absurd hy h.2.2⟩
    · unfold fromPath
      rw [find_none hp hy]
      simp only [Res.err.injEq, Error.fileNotFound.injEq]
      exact ⟨fun h => ⟨h.symm, hp, hy⟩, fun h => h.1.symm⟩

example : fromPath few (fun _ => true) both [c!"c"] = .err (.fileNotFound [c!"c"]) := by
  rw [C249_missing]
  refine ⟨rfl, ?_, ?_⟩ <;>
  · rintro ⟨t, ht⟩
    exact absurd ht (by simp [both])

/-- C249: a file that cannot be read and a file that is no package are told apart, and nothing panics. -/
theorem C249_broken (c : Codecs) (alnum : Char → Bool) (d : Disk) (dir : List Str) :
    fromPath c alnum d dir ≠ .panic ∧
    (fromPath c alnum d dir = .err .io ↔
      d (dir ++ [c!"package.py"]) = some (.file none) ∨
      ¬ Has d dir c!"package.py" ∧ d (dir ++ [c!"package.yaml"]) = some (.file none)) ∧
    (fromPath c alnum d dir = .err .parse ↔
      (∃ s, d (dir ++ [c!"package.py"]) = some (.file (some s)) ∧ loadText c alnum s .python = .err) ∨
      ¬ Has d dir c!"package.py" ∧ ∃ s, d (dir ++ [c!"package.yaml"]) = some (.file (some s)) ∧ loadText c alnum s .yaml = .err) := by
  have hres : ∀ (o : Option Pkg), result o ≠ .panic := by
    intro o; cases o <;> simp [result]
  have key : ∀ (name : Str) (f : Format) (_ : findFile d dir = some (dir ++ [name])) (_ : Has d dir name)
      (_ : f = if ((dir ++ [name]).getLast?.bind Context.extension) = some c!"yaml" then .yaml else .python)
      (_ : ∀ s, loadText c alnum s f ≠ .panic),
      fromPath c alnum d dir ≠ .panic ∧
      (fromPath c alnum d dir = .err .io ↔ d (dir ++ [name]) = some (.file none)) ∧
      (fromPath c alnum d dir = .err .parse ↔ ∃ s, d (dir ++ [name]) = some (.file (some s)) ∧ loadText c alnum s f = .err) := by
    rintro name f h1 ⟨t, ht⟩ h2 h3
    unfold fromPath loadFile
    rw [h1]
    simp only
    rw [ht, ← h2]
    cases t with
    | none => simp
    | some s =>
      simp only [Option.some.injEq, Node.file.injEq, reduceCtorEq, exists_eq_left', iff_false]
      have := h3 s
      cases hq : loadText c alnum s f with
      | ok p => simp
      | err => simp
      | panic => exact absurd hq this
  by_cases hp : Has d dir c!"package.py"
  · obtain ⟨k1, k2, k3⟩ := key c!"package.py" .python (find_py hp) hp (by rw [if_neg (ext_py dir)]) (fun s => hres _)
    refine ⟨k1, ?_, ?_⟩
    · rw [k2]
      exact ⟨Or.inl, fun h => h.elim id fun h => absurd hp h.1⟩
    · rw [k3]
      exact ⟨Or.inl, fun h => h.elim id fun h => absurd hp h.1⟩
  · have hn : ∀ t, d (dir ++ [c!"package.py"]) ≠ some (.file t) := fun t ht => hp ⟨t, ht⟩
    by_cases hy : Has d dir c!"package.yaml"
    · obtain ⟨k1, k2, k3⟩ := key c!"package.yaml" .yaml (find_yaml hp hy) hy (by rw [if_pos (ext_yaml dir)]) (fun s => hres _)
      refine ⟨k1, ?_, ?_⟩
      · rw [k2]
        have := hn none
        tauto
      · rw [k3]
        have : ¬ ∃ s, d (dir ++ [c!"package.py"]) = some (.file (some s)) ∧ loadText c alnum s .python = .err :=
          fun ⟨s, h, _⟩ => hn _ h
        tauto
    · have hm : ∀ t, d (dir ++ [c!"package.yaml"]) ≠ some (.file t) := fun t ht => hy ⟨t, ht⟩
      unfold fromPath
      rw [find_none hp hy]
      refine ⟨by simp, ?_, ?_⟩
      · simp [hn, hm]
      · simp [hn, hm]

/-- C249: nothing but the two files matters. -/
theorem C249_frame (c : Codecs) (alnum : Char → Bool) (d d' : Disk) (dir : List Str)
    (hp : d (dir ++ [c!"package.py"]) = d' (dir ++ [c!"package.py"]))
    (hy : d (dir ++ [c!"package.yaml"]) = d' (dir ++ [c!"package.yaml"])) :
    fromPath c alnum d dir = fromPath c alnum d' dir := by
  have h1 : findFile d dir = findFile d' dir := by
    unfold findFile
    simp only [List.find?_cons, hp, hy, List.find?_nil]
  have h2 : ∀ path, findFile d' dir = some path → d path = d' path := by
    intro path h
    have := List.mem_of_find?_eq_some h
    simp only [List.mem_cons, List.not_mem_nil, or_false] at this
    rcases this with rfl | rfl
    · exact hp
    · exact hy
  unfold fromPath
  rw [h1]
  cases hf : findFile d' dir with
  | none => rfl
  | some path =>
    have : loadFile c alnum d path = loadFile c alnum d' path := by
      unfold loadFile
      rw [h2 path hf]
    simp only [this]

/-- C249: a package written as YAML into a directory without `package.py` is loaded with the fields that YAML files are read for. -/
theorem C249_saved (c : Codecs) (hc : CodecsOk c) (alnum : Char → Bool) (now : Str) (p : Pkg) (hp : Made p) (hv : p.validate alnum = true)
    (d : Disk) (dir : List Str) (hd : ¬ Has d dir c!"package.py") :
    ∃ s, saveString c now p .yaml = some s ∧ (d (dir ++ [c!"package.yaml"]) = some (.file (some s)) →
      fromPath c alnum d dir = .ok ⟨basic p, dir ++ [c!"package.yaml"], dir, []⟩) := by
  obtain ⟨s, hs, hl⟩ := C134_text_partial c hc alnum now p hp .yaml (by simp)
  refine ⟨s, hs, fun h => ?_⟩
  rw [C249_loaded]
  rw [if_pos hv] at hl
  exact ⟨rfl, rfl, Or.inr ⟨hd, ⟨s, h, hl⟩, rfl⟩⟩

example : ∃ s, saveString demo [] box .yaml = some s ∧
    fromPath demo (fun _ => true) (fun p => if p = [c!"w", c!"package.yaml"] then some (.file (some s)) else none) [c!"w"] =
      .ok ⟨basic box, [c!"w", c!"package.yaml"], [c!"w"], []⟩ := by
  obtain ⟨s, hs, _⟩ := C134_text_partial demo demo_ok (fun _ => true) [] box box_made .yaml (by simp)
  obtain ⟨s', hs', h⟩ := C249_saved demo demo_ok (fun _ => true) [] box box_made (by decide)
    (fun p => if p = [c!"w", c!"package.yaml"] then some (.file (some s)) else none) [c!"w"] (by
      rintro ⟨t, ht⟩
      exact absurd ht (by simp))
  rw [hs] at hs'
  cases hs'
  exact ⟨s, hs, h (by simp)⟩

/-- C249 is false for falling back: a good `package.yaml` is not used if `package.py` is broken. -/
theorem C249_fallback_false :
    Gives few (fun _ => true) both [c!"a"] c!"package.yaml" .yaml (Pkg.new c!"a") ∧
    fromPath few (fun _ => true) both [c!"a"] = .err .parse := by
  refine ⟨⟨c!"name: a", by decide +kernel, rfl⟩, ?_⟩
  rw [(C249_broken _ _ _ _).2.2]
  exact Or.inl ⟨c!"@include('x')", by decide +kernel, rfl⟩

/-- C249 is false for the other formats: a `package.json` that can be loaded by its path is not found. -/
theorem C249_formats_false :
    load few (fun _ => true) c!"j/package.json" c!"name: a" = .ok (Pkg.new c!"a") ∧
    both [c!"j", c!"package.json"] = some (.file (some c!"name: a")) ∧
    fromPath few (fun _ => true) both [c!"j"] = .err (.fileNotFound [c!"j"]) := by
  refine ⟨rfl, by decide +kernel, ?_⟩
  rw [C249_missing]
  refine ⟨rfl, ?_, ?_⟩ <;>
  · rintro ⟨t, ht⟩
    exact absurd ht (by simp [both])

/-- C249 is false for included modules: none is ever collected, whatever the file says. -/
theorem C249_includes_false (p : Pkg) :
    ∃ (c : Codecs) (d : Disk) (x : Dev), d [c!"a", c!"package.py"] = some (.file (some c!"name = 'a'\n@include('utils')\ndef commands(): pass\n")) ∧
      fromPath c (fun _ => true) d [c!"a"] = .ok x ∧ x.package = p ∧ x.includes = [] := by
  refine ⟨{ few with python := fun _ => some p },
    fun q => if q = [c!"a", c!"package.py"] then some (.file (some c!"name = 'a'\n@include('utils')\ndef commands(): pass\n")) else none,
    ⟨p, [c!"a", c!"package.py"], [c!"a"], []⟩, by simp, ?_, rfl, rfl⟩
  rw [C249_loaded]
  exact ⟨rfl, rfl, Or.inl ⟨⟨c!"name = 'a'\n@include('utils')\ndef commands(): pass\n", by simp, rfl⟩, rfl⟩⟩

end Rez.Props
