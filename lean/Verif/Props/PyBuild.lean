import Verif.Spec.PyBuild
/-!
# C241: building from Python
-/
namespace Rez.Props
open Rez Rez.Build Rez.PyBuild Rez.Spec.PyBuild

/-- C241: what a build answers: it succeeds exactly if `package.py` is there and can be read, the package has no variants, the
build could be started and ended well; then the text is always the same. -/
theorem C241_text (py : Bool) (loaded : Option PyBuild.Pkg) (start : PyBuild.Request → Option Nat) (wait : Nat → Option (Bool × Str))
    (expand : Str → Str) (localPath : Str) (install clean : Bool) (path : Option Str) (t : Str) :
    build py loaded start wait expand localPath install clean path = .text t ↔
      t = c!"Build succeeded: 1 builds completed" ∧ py = true ∧ ∃ p dest id errors, loaded = some p ∧ p.variants = [] ∧
        Goes install path (expand localPath) dest ∧ start ⟨p, clean, dest⟩ = some id ∧ wait id = some (true, errors) := by
  have goes : ∀ dest, Goes install path (expand localPath) dest ↔ dest = if install then some (path.getD (expand localPath)) else none := by
    intro dest
    cases install <;> cases path <;> simp [Goes]
  simp only [goes]
  cases py with
  | false => simp [build]
  | true =>
    cases loaded with
    | none => simp [build]
    | some p =>
      simp only [build, startBuild, Bool.not_true, Bool.false_eq_true, if_false]
      generalize hto : (if install = true then some (path.getD (expand localPath)) else none) = dest
      cases hv : p.variants with
      | cons v vs => simp [hv]
      | nil =>
        simp only [List.isEmpty_nil, Bool.not_true, Bool.false_eq_true, if_false]
        cases hs : start ⟨p, clean, dest⟩ with
        | none => simp [hs, hv]
        | some id =>
          simp only [Option.map_some, waitAll, Option.isNone_none, if_true]
          cases hw : wait id with
          | none => simp [hs, hw]
          | some x =>
            obtain ⟨ok, errors⟩ := x
            cases ok with
            | false => simp [hs, hw]
            | true =>
              have : c!"Build succeeded: " ++ decimal 1 ++ c!" builds completed" = c!"Build succeeded: 1 builds completed" := by
                decide +kernel
              simp only [if_true, List.length_singleton, this]
              constructor
              · intro h; injection h with h
                exact ⟨h.symm, trivial, p, dest, id, errors, rfl, hv, rfl, hs, hw⟩
              · rintro ⟨rfl, _⟩; rfl

/-- C241: it never panics, and a build that failed gives its errors. -/
theorem C241_failed (py : Bool) (loaded : Option PyBuild.Pkg) (start : PyBuild.Request → Option Nat) (wait : Nat → Option (Bool × Str))
    (expand : Str → Str) (localPath : Str) (install clean : Bool) (path : Option Str) :
    build py loaded start wait expand localPath install clean path ≠ .panic ∧
    ∀ errors, build py loaded start wait expand localPath install clean path = .failed errors ↔
      py = true ∧ ∃ p dest id, loaded = some p ∧ p.variants = [] ∧
        Goes install path (expand localPath) dest ∧ start ⟨p, clean, dest⟩ = some id ∧ wait id = some (false, errors) := by
  have goes : ∀ dest, Goes install path (expand localPath) dest ↔ dest = if install then some (path.getD (expand localPath)) else none := by
    intro dest
    cases install <;> cases path <;> simp [Goes]
  simp only [goes]
  cases py with
  | false => simp [build]
  | true =>
    cases loaded with
    | none => simp [build]
    | some p =>
      simp only [build, startBuild, Bool.not_true, Bool.false_eq_true, if_false]
      generalize hto : (if install = true then some (path.getD (expand localPath)) else none) = dest
      cases hv : p.variants with
      | cons v vs => simp [hv]
      | nil =>
        simp only [List.isEmpty_nil, Bool.not_true, Bool.false_eq_true, if_false]
        cases hs : start ⟨p, clean, dest⟩ with
        | none => simp [hs, hv]
        | some id =>
          simp only [Option.map_some, waitAll, Option.isNone_none, if_true]
          cases hw : wait id with
          | none => simp [hs, hw]
          | some x =>
            obtain ⟨ok, errors⟩ := x
            cases ok <;> simp [hs, hw, hv, eq_comm]

/-- C241: a package with variants is never built: there is no way to say which. -/
theorem C241_variants_false (py : Bool) (p : PyBuild.Pkg) (h : p.variants ≠ []) (start : PyBuild.Request → Option Nat)
    (wait : Nat → Option (Bool × Str)) (expand : Str → Str) (localPath : Str) (install clean : Bool) (path : Option Str) :
    build py (some p) start wait expand localPath install clean path = .err := by
  have : p.variants.isEmpty = false := by cases hv : p.variants <;> simp_all
  cases py <;> simp [build, startBuild, this]

/-- C241: the types that are listed are the names that stand for systems, and `pip` and `rez_pip` are other names for `pypi`; a system
is made exactly for these, and it is the one that a package gets that asks for it. -/
theorem C241_types (s : Str) :
    ((createSystem s).isSome = true ↔ s ∈ types ∨ s = c!"pip" ∨ s = c!"rez_pip") ∧
    (∀ x, createSystem s = some x → s ≠ c!"custom" → x = named s) ∧
    (∀ t, createText s = some t ↔ t = c!"BuildSystem(" ++ s ++ c!")" ∧ (createSystem s).isSome = true) := by
  refine ⟨?_, ?_, fun t => ?_⟩
  · rw [createSystem]
    simp only [types, List.mem_cons, List.not_mem_nil, or_false, Bool.or_eq_true, decide_eq_true_eq]
    split_ifs <;> simp_all
    tauto
  · intro x hx hc
    rw [createSystem] at hx
    rw [named]
    simp only [Bool.or_eq_true, decide_eq_true_eq, or_assoc] at hx
    split_ifs at hx ⊢ <;> simp_all
  · rw [createText]
    cases createSystem s <;> simp [eq_comm]

/-- C241: where there is no build script, or there is a `rezbuild.py`, the name given is the one of the system that a build of a package uses that does not
say how it is built. -/
theorem C241_detected (has : Str → Bool) (h : has c!"rezbuild.py" = true ∨ ∀ s ∈ scripts, has s = false) :
    systemName has = nameOf (detectWith has none none) := by
  rw [systemName, detectWith]
  by_cases hr : has c!"rezbuild.py" = true
  · simp only [hr, if_true]; decide
  · have hs := h.resolve_left hr
    simp only [hr, Bool.false_eq_true, if_false, detect]
    have hf : [c!"build.sh", c!"build.bat", c!"build.py", c!"build"].find? has = none := by
      rw [List.find?_eq_none]
      intro s hm
      simp [hs s hm]
    have h1 : has c!"build.sh" = false := hs _ (by decide)
    have h2 : has c!"build.bat" = false := hs _ (by decide)
    rw [hf]
    simp only [h1, h2, Bool.or_self, Bool.false_eq_true, if_false]
    split_ifs <;> rfl

/-- C241: also where `build.sh` or `build.bat` is there and no file of another system. -/
theorem C241_scripts (has : Str → Bool) (h : has c!"build.sh" = true ∨ has c!"build.bat" = true) (ho : ∀ s ∈ others, has s = false) :
    systemName has = nameOf (detectWith has none none) := by
  by_cases hr : has c!"rezbuild.py" = true
  · exact C241_detected has (.inl hr)
  · have o : ∀ s, s ∈ others → has s = false := ho
    rw [systemName, detectWith]
    simp only [hr, Bool.false_eq_true, if_false, detect]
    rw [o c!"CMakeLists.txt" (by decide), o c!"Makefile" (by decide), o c!"makefile" (by decide), o c!"setup.py" (by decide),
      o c!"pyproject.toml" (by decide), o c!"package.json" (by decide), o c!"Cargo.toml" (by decide)]
    simp only [Bool.or_self, Bool.false_eq_true, if_false]
    by_cases h1 : has c!"build.sh" = true
    · simp only [h1, Bool.true_or, if_true, List.find?_cons]; decide
    · have h2 := h.resolve_left h1
      simp only [Bool.not_eq_true] at h1
      simp only [h1, h2, Bool.or_true, if_true, List.find?_cons]; decide

/-- C241: a build script next to files of another system: a build uses the script, but the name is the one of the other system; and
`build.py` is not known here at all. -/
theorem C241_detected_false :
    (∃ has : Str → Bool, systemName has = c!"cmake" ∧ detectWith has none none = .custom c!"build.sh") ∧
    ∃ has : Str → Bool, systemName has = c!"unknown" ∧ detectWith has none none = .custom c!"build.py" :=
  ⟨⟨fun s => s = c!"CMakeLists.txt" ∨ s = c!"build.sh", by decide, by decide⟩, ⟨fun s => s = c!"build.py", by decide, by decide⟩⟩

/-- C241: not every name that is given can be used to make a system. -/
theorem C241_created_false : ∃ has : Str → Bool, createSystem (systemName has) = none ∧ systemName has ≠ c!"unknown" :=
  ⟨fun s => s = c!"rezbuild.py", by decide, by decide⟩

example : build true (some ⟨c!"foo", []⟩) (fun r => if r.install = some c!"/p" then some 7 else none)
    (fun id => if id = 7 then some (true, []) else none) id c!"~/p" true false (some c!"/p") =
    .text c!"Build succeeded: 1 builds completed" := by decide +kernel
example : systemName (fun s => s = c!"Cargo.toml") = c!"cargo" := by decide

end Rez.Props
