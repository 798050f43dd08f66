import Verif.Spec.Artifacts
import Verif.Lemmas.RequirementParse
import Mathlib.Tactic.Common
import Mathlib.Data.List.Nodup
/-!
# C221 Artifacts of a build
-/
namespace Rez.Props
open Rez Rez.Artifacts Rez.Artifacts.Spec

namespace ArtifactsLemmas

/-- What a scan has added. -/
structure Scanned (lib : Lib) (path : List Str) (t : Node) (new : List Artifact) (ok : Bool) : Prop where
  whole : ok = true ↔ Whole t
  sound : ∀ a ∈ new, ∃ q f, At t q f ∧ a = record lib (path ++ q) f
  all : ok = true → ∀ q f, At t q f → record lib (path ++ q) f ∈ new
  once : Named t → (new.map Artifact.path).Nodup

/-- The same for the entries of a directory. -/
structure ScannedIn (lib : Lib) (path : List Str) (es : List (Str × Node)) (new : List Artifact) (ok : Bool) : Prop where
  whole : ok = true ↔ ∀ e ∈ es, Whole e.2
  sound : ∀ a ∈ new, ∃ n t q f, (n, t) ∈ es ∧ At t q f ∧ a = record lib (path ++ n :: q) f
  all : ok = true → ∀ n t q f, (n, t) ∈ es → At t q f → record lib (path ++ n :: q) f ∈ new
  once : (es.map Prod.fst).Nodup → (∀ e ∈ es, Named e.2) → (new.map Artifact.path).Nodup

mutual
theorem scanNode_spec (lib : Lib) (path : List Str) (t : Node) (acc : List Artifact) :
    ∃ new ok, scanNode lib path t acc = (acc ++ new, ok) ∧ Scanned lib path t new ok := by
  match t with
  | .file f =>
    refine ⟨[record lib path f], true, by rw [scanNode], ⟨by simp [Whole.file], ?_, ?_, by simp⟩⟩
    · intro a ha
      exact ⟨[], f, .file f, by simpa using ha⟩
    · rintro - q g h
      cases h
      simp
  | .dir true s es =>
    obtain ⟨new, ok, h, hw, hs, ha, ho⟩ := scanEntries_spec lib path es acc
    refine ⟨new, ok, by rw [scanNode, h], ⟨?_, ?_, ?_, ?_⟩⟩
    · rw [hw]
      constructor
      · exact fun h => .dir s es h
      · intro h; cases h; assumption
    · intro a haa
      obtain ⟨n, t, q, f, h1, h2, h3⟩ := hs a haa
      exact ⟨n :: q, f, .dir true s es n t q f h1 h2, h3⟩
    · intro hok q f hq
      cases hq with
      | dir _ _ _ n t p _ h1 h2 => exact ha hok n t p f h1 h2
    · intro hn
      cases hn
      exact ho (by assumption) (by assumption)
  | .dir false s es =>
    refine ⟨[], false, by rw [scanNode, List.append_nil], ⟨?_, by simp, by simp, by simp⟩⟩
    simp only [Bool.false_eq_true, false_iff]
    intro h
    cases h
  | .broken =>
    refine ⟨[], false, by rw [scanNode, List.append_nil], ⟨?_, by simp, by simp, by simp⟩⟩
    simp only [Bool.false_eq_true, false_iff]
    intro h
    cases h
theorem scanEntries_spec (lib : Lib) (path : List Str) (es : List (Str × Node)) (acc : List Artifact) :
    ∃ new ok, scanEntries lib path es acc = (acc ++ new, ok) ∧ ScannedIn lib path es new ok := by
  match es with
  | [] => exact ⟨[], true, by rw [scanEntries, List.append_nil], ⟨by simp, by simp, by simp, by simp⟩⟩
  | (n, t) :: rest =>
    obtain ⟨new, ok, h, hs⟩ := scanNode_spec lib (path ++ [n]) t acc
    have hsound : ∀ a ∈ new, ∃ q f, At t q f ∧ a = record lib (path ++ n :: q) f := by
      intro a ha
      obtain ⟨q, f, h1, h2⟩ := hs.sound a ha
      exact ⟨q, f, h1, by rw [h2]; simp⟩
    cases ok with
    | false =>
      refine ⟨new, false, by rw [scanEntries, h], ⟨?_, ?_, by simp, fun _ hn => hs.once (hn _ List.mem_cons_self)⟩⟩
      · simp only [Bool.false_eq_true, false_iff]
        intro hall
        have := hs.whole.mpr (hall _ List.mem_cons_self)
        cases this
      · intro a ha
        obtain ⟨q, f, h1, h2⟩ := hsound a ha
        exact ⟨n, t, q, f, List.mem_cons_self, h1, h2⟩
    | true =>
      obtain ⟨new', ok', h', hs'⟩ := scanEntries_spec lib path rest (acc ++ new)
      refine ⟨new ++ new', ok', by rw [scanEntries, h]; simp only [h', List.append_assoc], ⟨?_, ?_, ?_, ?_⟩⟩
      · rw [hs'.whole]
        simp only [List.mem_cons, forall_eq_or_imp]
        exact ⟨fun h => ⟨hs.whole.mp rfl, h⟩, fun h => h.2⟩
      · intro a ha
        rcases List.mem_append.mp ha with ha | ha
        · obtain ⟨q, f, h1, h2⟩ := hsound a ha
          exact ⟨n, t, q, f, List.mem_cons_self, h1, h2⟩
        · obtain ⟨m, u, q, f, h0, h1, h2⟩ := hs'.sound a ha
          exact ⟨m, u, q, f, List.mem_cons_of_mem _ h0, h1, h2⟩
      · intro hok m u q f hm hq
        rcases List.mem_cons.mp hm with he | hm
        · cases he
          have := hs.all rfl q f hq
          simp only [List.append_assoc, List.singleton_append] at this
          exact List.mem_append_left _ this
        · exact List.mem_append_right _ (hs'.all hok m u q f hm hq)
      · intro hnd hn
        simp only [List.map_cons, List.nodup_cons] at hnd
        rw [List.map_append, List.nodup_append]
        refine ⟨hs.once (hn _ List.mem_cons_self), hs'.once hnd.2 fun e he => hn e (List.mem_cons_of_mem _ he), ?_⟩
        intro x hx y hy hxy
        obtain ⟨a, ha, rfl⟩ := List.mem_map.mp hx
        obtain ⟨b, hb, rfl⟩ := List.mem_map.mp hy
        obtain ⟨q, f, -, rfl⟩ := hsound a ha
        obtain ⟨m, u, q', f', h0, -, rfl⟩ := hs'.sound b hb
        have : path ++ n :: q = path ++ m :: q' := hxy
        have := List.append_cancel_left this
        simp only [List.cons.injEq] at this
        exact hnd.1 (this.1 ▸ List.mem_map.mpr ⟨_, h0, rfl⟩)
end

theorem scan_dir (lib : Lib) (r : Bool) (s : Nat) (es : List (Str × Node)) (old : List Artifact) :
    ∃ new ok, scan lib (some (.dir r s es)) old = (new, ok) ∧ Scanned lib [] (.dir r s es) new ok := by
  obtain ⟨new, ok, h, hs⟩ := scanNode_spec lib [] (.dir r s es) []
  exact ⟨new, ok, by simpa [scan] using h, hs⟩

end ArtifactsLemmas
open ArtifactsLemmas

/-- A scan succeeds exactly if everything below the directory can be read; then its files are exactly those below it, whatever was
listed before. -/
theorem C221_scan (lib : Lib) (r : Bool) (s : Nat) (es : List (Str × Node)) (old : List Artifact) :
    ((scan lib (some (.dir r s es)) old).2 = true ↔ Whole (.dir r s es)) ∧
    (Whole (.dir r s es) → ∀ a, a ∈ (scan lib (some (.dir r s es)) old).1 ↔
      ∃ path f, At (.dir r s es) path f ∧ a = record lib path f) := by
  obtain ⟨new, ok, h, hs⟩ := scan_dir lib r s es old
  rw [h]
  refine ⟨hs.whole, fun hw a => ⟨fun ha => ?_, ?_⟩⟩
  · simpa using hs.sound a ha
  · rintro ⟨q, f, hq, rfl⟩
    simpa using hs.all (hs.whole.mpr hw) q f hq

/-- Each is listed once. -/
theorem C221_once (lib : Lib) (r : Bool) (s : Nat) (es : List (Str × Node)) (old : List Artifact) (hn : Named (.dir r s es)) :
    ((scan lib (some (.dir r s es)) old).1.map Artifact.path).Nodup := by
  obtain ⟨new, ok, h, hs⟩ := scan_dir lib r s es old
  rw [h]
  exact hs.once hn

/-- A scan that fails leaves only files that are there. -/
theorem C221_failed (lib : Lib) (r : Bool) (s : Nat) (es : List (Str × Node)) (old : List Artifact) (a : Artifact)
    (ha : a ∈ (scan lib (some (.dir r s es)) old).1) : ∃ path f, At (.dir r s es) path f ∧ a = record lib path f := by
  obtain ⟨new, ok, h, hs⟩ := scan_dir lib r s es old
  rw [h] at ha
  simpa using hs.sound a ha

/-- What is recorded of a file: its path, size and mode, and the checksum of its bytes if it can be read. -/
theorem C221_record (lib : Lib) (path : List Str) (f : File) :
    (record lib path f).path = path ∧ (record lib path f).size = f.size ∧ (record lib path f).mode = f.mode ∧
    (∀ b, f.bytes = some b → (record lib path f).checksum = some (lib.sha256 b)) ∧
    (f.bytes = none → (record lib path f).checksum = none) := by
  refine ⟨rfl, rfl, rfl, fun b h => ?_, fun h => ?_⟩ <;> simp [record, h]

theorem mayExecute_iff (m : Nat) : m &&& 0o111 ≠ 0 ↔ MayExecute m := by
  unfold MayExecute
  have key : m &&& 0o111 = 0 ↔ ∀ i, (m &&& 0o111).testBit i = false := by
    constructor
    · intro h i; rw [h]; exact Nat.zero_testBit i
    · intro h; exact Nat.eq_of_testBit_eq fun i => by rw [h i, Nat.zero_testBit]
  rw [not_iff_comm, key]
  simp only [Nat.testBit_and, not_or, Bool.not_eq_true]
  constructor
  · rintro ⟨h0, h3, h6⟩ i
    match i with
    | 0 => rw [h0]; rfl
    | 3 => rw [h3]; rfl
    | 6 => rw [h6]; rfl
    | 1 | 2 | 4 | 5 => simp [show Nat.testBit 73 1 = false by decide, show Nat.testBit 73 2 = false by decide,
        show Nat.testBit 73 4 = false by decide, show Nat.testBit 73 5 = false by decide]
    | n + 7 =>
      have : Nat.testBit 73 (n + 7) = false := by
        refine Nat.testBit_lt_two_pow (Nat.lt_of_lt_of_le (show 73 < 2 ^ 7 by decide) (Nat.pow_le_pow_right (by decide) (by omega)))
      simp [this]
  · intro h
    exact ⟨by simpa using h 0, by simpa [show Nat.testBit 73 3 = true by decide] using h 3,
      by simpa [show Nat.testBit 73 6 = true by decide] using h 6⟩

/-- The type of a file with an extension is that of the extension, in lower case. -/
theorem C221_kind (lib : Lib) (dirs : List Str) (stem ext : Str) (f : File) (hs : stem ≠ []) (he : '.' ∉ ext) :
    let kind := (record lib (dirs ++ [stem ++ '.' :: ext]) f).kind
    (kind = .executable ↔ lib.lower ext ∈ [c!"exe", c!"bin"]) ∧
    (kind = .library ↔ lib.lower ext ∈ [c!"dll", c!"so", c!"dylib"]) ∧
    (kind = .staticLibrary ↔ lib.lower ext ∈ [c!"lib", c!"a"]) ∧
    (kind = .header ↔ lib.lower ext ∈ [c!"h", c!"hpp", c!"hxx"]) ∧
    (kind = .documentation ↔ lib.lower ext ∈ [c!"md", c!"txt", c!"rst", c!"html"]) ∧
    (kind = .configuration ↔ lib.lower ext ∈ [c!"conf", c!"cfg", c!"ini", c!"yaml", c!"yml", c!"json"]) ∧ kind ≠ .other := by
  intro kind
  have hk : kind = kindOfExt (lib.lower ext) := by
    have hx : extension (stem ++ '.' :: ext) = some ext := by
      unfold extension
      rw [rsplitOnce_append stem he]
      cases stem with
      | nil => exact absurd rfl hs
      | cons c t => rfl
    simp only [kind, record, List.getLast?_append, List.getLast?_singleton, Option.some_or, Option.getD_some, kindOf, hx]
  rw [hk]
  generalize lib.lower ext = e
  unfold kindOfExt
  simp only [List.mem_cons, List.not_mem_nil, or_false]
  refine ⟨?_, ?_, ?_, ?_, ?_, ?_, ?_⟩
  all_goals
    repeat' split
    all_goals
      first
      | simp_all; done
      | (rename_i h; rcases h with rfl | rfl | rfl | rfl | rfl | rfl <;> decide)
      | (rename_i h; rcases h with rfl | rfl | rfl | rfl <;> decide)
      | (rename_i h; rcases h with rfl | rfl | rfl <;> decide)
      | (rename_i h; rcases h with rfl | rfl <;> decide)

/-- A file without an extension, also one whose only dot comes first, is executable if its mode says so. -/
theorem C221_plain (lib : Lib) (dirs : List Str) (name : Str) (f : File) (h : '.' ∉ name.drop 1) :
    ((record lib (dirs ++ [name]) f).kind = .executable ↔ MayExecute f.mode) ∧
    ((record lib (dirs ++ [name]) f).kind = .other ↔ ¬MayExecute f.mode) := by
  have hx : extension name = none := by
    unfold extension
    cases name with
    | nil => rfl
    | cons c t =>
      simp only [List.drop_succ_cons, List.drop_zero] at h
      have ht : rsplitOnce '.' t = none := rsplitOnce_absent h
      rw [rsplitOnce, ht]
      by_cases hc : c = '.' <;> simp [hc]
  simp only [record, List.getLast?_append, List.getLast?_singleton, Option.some_or, Option.getD_some, kindOf, hx]
  rw [← mayExecute_iff]
  by_cases hm : f.mode &&& 0o111 = 0 <;> simp [hm]

/-- The summary counts the files of each type, all files and their sizes. -/
theorem C221_summary (fs : List Artifact) :
    (summary fs).files = fs.length ∧ (summary fs).size = (fs.map Artifact.size).sum ∧
    (summary fs).executables = (ofKind fs .executable).length ∧ (summary fs).libraries = (ofKind fs .library).length ∧
    (summary fs).staticLibraries = (ofKind fs .staticLibrary).length ∧ (summary fs).headers = (ofKind fs .header).length ∧
    (summary fs).documentation = (ofKind fs .documentation).length ∧
    (summary fs).configuration = (ofKind fs .configuration).length ∧ (summary fs).dataFiles = (ofKind fs .data).length ∧
    (summary fs).others = (ofKind fs .other).length ∧
    (∀ k f, f ∈ ofKind fs k ↔ f ∈ fs ∧ f.kind = k) := by
  have key : ∀ (l : List Artifact) (s : Summary), l.foldl (fun s f => s.count f.kind) s =
      ⟨s.files, s.size, s.executables + (ofKind l .executable).length, s.libraries + (ofKind l .library).length,
        s.staticLibraries + (ofKind l .staticLibrary).length, s.headers + (ofKind l .header).length,
        s.documentation + (ofKind l .documentation).length, s.configuration + (ofKind l .configuration).length,
        s.dataFiles + (ofKind l .data).length, s.others + (ofKind l .other).length⟩ := by
    intro l
    induction l with
    | nil => intro s; rfl
    | cons f l ih =>
      intro s
      rw [List.foldl_cons, ih]
      cases hk : f.kind <;> simp [Summary.count, ofKind, List.filter_cons, hk] <;> omega
  have := key fs ⟨fs.length, totalSize fs, 0, 0, 0, 0, 0, 0, 0, 0⟩
  unfold summary
  rw [this]
  simp only [totalSize, Nat.zero_add, true_and]
  intro k f
  simp [ofKind]

/-- Files that are missing are errors, and make the artifacts invalid; files of another size are warnings; the files that are there are
counted. -/
theorem C221_validate (now : List Str → Option Nat) (fs : List Artifact) :
    ((validate now fs).valid = true ↔ ∀ f ∈ fs, now f.path ≠ none) ∧
    (validate now fs).errors = fs.filter (fun f => now f.path == none) ∧
    (validate now fs).warnings = fs.filter (fun f => now f.path != none && now f.path != some f.size) ∧
    (validate now fs).checked = (fs.filter fun f => now f.path != none).length := by
  have key : ∀ (l : List Artifact) (v : Validation), l.foldl (check now) v =
      ⟨v.valid, v.errors ++ l.filter (fun f => now f.path == none),
        v.warnings ++ l.filter (fun f => now f.path != none && now f.path != some f.size),
        v.checked + (l.filter fun f => now f.path != none).length⟩ := by
    intro l
    induction l with
    | nil => intro v; simp
    | cons f l ih =>
      intro v
      rw [List.foldl_cons, ih]
      unfold check
      cases hn : now f.path with
      | none => simp [List.filter_cons, hn]
      | some s =>
        by_cases hs : s = f.size <;> simp [List.filter_cons, hn, hs] <;> omega
  unfold validate
  rw [key]
  simp only [List.nil_append, Nat.zero_add, true_and, List.isEmpty_iff, List.filter_eq_nil_iff, and_true]
  simp

mutual
theorem sizeAt_at (t : Node) (path : List Str) (f : File) (hn : Named t) (h : At t path f) : sizeAt t path = some f.size := by
  match t, path with
  | .file g, [] => cases h; rfl
  | .file g, _ :: _ => cases h
  | .broken, _ => cases h
  | .dir r s es, [] => cases h
  | .dir r s es, n :: path =>
    cases hn with
    | dir _ _ _ hnd hall =>
      cases h with
      | dir _ _ _ _ t _ _ hmem hat => rw [sizeAt]; exact sizeIn_at es n path f hnd hall t hmem hat
theorem sizeIn_at (es : List (Str × Node)) (n : Str) (path : List Str) (f : File) (hnd : (es.map Prod.fst).Nodup)
    (hall : ∀ e ∈ es, Named e.2) (t : Node) (hmem : (n, t) ∈ es) (hat : At t path f) : sizeIn es n path = some f.size := by
  match es with
  | [] => cases hmem
  | (m, u) :: rest =>
    simp only [List.map_cons, List.nodup_cons] at hnd
    rw [sizeIn]
    by_cases hmn : m = n
    · rw [if_pos hmn]
      rcases List.mem_cons.mp hmem with he | hin
      · cases he
        exact sizeAt_at t path f (hall _ List.mem_cons_self) hat
      · exact absurd (hmn ▸ List.mem_map.mpr ⟨_, hin, rfl⟩) hnd.1
    · rw [if_neg hmn]
      rcases List.mem_cons.mp hmem with he | hin
      · cases he; exact absurd rfl hmn
      · exact sizeIn_at rest n path f hnd.2 (fun e he => hall e (List.mem_cons_of_mem _ he)) t hin hat
end

/-- Right after a scan, also one that failed, the artifacts are valid, without warnings, and all of them are checked. -/
theorem C221_fresh (lib : Lib) (r : Bool) (s : Nat) (es : List (Str × Node)) (old : List Artifact) (hn : Named (.dir r s es)) :
    let fs := (scan lib (some (.dir r s es)) old).1
    validate (sizeAt (.dir r s es)) fs = ⟨true, [], [], fs.length⟩ := by
  intro fs
  have hsize : ∀ f ∈ fs, sizeAt (.dir r s es) f.path = some f.size := by
    intro a ha
    obtain ⟨path, f, h1, rfl⟩ := C221_failed lib r s es old a ha
    exact sizeAt_at _ path f hn h1
  obtain ⟨h1, h2, h3, h4⟩ := C221_validate (sizeAt (.dir r s es)) fs
  have e1 : (validate (sizeAt (.dir r s es)) fs).valid = true := h1.mpr fun f hf => by rw [hsize f hf]; simp
  have e2 : (validate (sizeAt (.dir r s es)) fs).errors = [] := by
    rw [h2, List.filter_eq_nil_iff]
    intro f hf
    rw [hsize f hf]
    simp
  have e3 : (validate (sizeAt (.dir r s es)) fs).warnings = [] := by
    rw [h3, List.filter_eq_nil_iff]
    intro f hf
    rw [hsize f hf]
    simp
  have e4 : (validate (sizeAt (.dir r s es)) fs).checked = fs.length := by
    rw [h4, List.filter_eq_self.mpr]
    intro f hf
    rw [hsize f hf]
    simp
  rcases hv : validate (sizeAt (.dir r s es)) fs with ⟨a, b, c, d⟩
  rw [hv] at e1 e2 e3 e4
  simp only at e1 e2 e3 e4
  rw [e1, e2, e3, e4]

/-! ## Concrete cases -/

def demoTree : Node :=
  .dir true 4096 [(c!"bin", .dir true 4096 [(c!"run", .file ⟨9, 0o755, some c!"#!/bin/sh"⟩)]), (c!"README.MD", .file ⟨2, 0o644, some c!"hi"⟩),
    (c!".hidden", .file ⟨0, 0o600, none⟩)]

def demoLib : Lib := ⟨fun s => s.map Char.toLower, fun s => 'h' :: s⟩

example : Named demoTree ∧ Whole demoTree := by
  refine ⟨.dir _ _ _ (by decide) ?_, .dir _ _ ?_⟩
  · simp only [List.mem_cons, List.not_mem_nil, or_false, forall_eq_or_imp, forall_eq]
    exact ⟨.dir _ _ _ (by decide) (by simp [Named.file]), .file _, .file _⟩
  · simp only [List.mem_cons, List.not_mem_nil, or_false, forall_eq_or_imp, forall_eq]
    exact ⟨.dir _ _ (by simp [Whole.file]), .file _, .file _⟩

example : scan demoLib (some demoTree) [] =
    ([⟨[c!"bin", c!"run"], .executable, 9, some c!"h#!/bin/sh", 0o755⟩, ⟨[c!"README.MD"], .documentation, 2, some c!"hhi", 0o644⟩,
      ⟨[c!".hidden"], .other, 0, none, 0o600⟩], true) := by decide +kernel

/-! ## What does not hold -/

/-- A directory that is gone still has the files that were found in it. -/
theorem C221_missing_false (lib : Lib) (old : List Artifact) : scan lib none old = (old, true) := rfl

/-- Artifacts that are valid may have been changed: neither the size nor the checksum makes them invalid, and bytes changed for others
of the same number are not even noticed. -/
theorem C221_changed_false :
    (∃ now fs, (validate now fs).valid = true ∧ ∃ f ∈ fs, now f.path ≠ some f.size) ∧
    ∃ (t t' : Node) (lib : Lib) (a b : Artifact), (scan lib (some t) []).1 = [a] ∧ (scan lib (some t') []).1 = [b] ∧
      a.checksum ≠ b.checksum ∧ validate (sizeAt t') [a] = ⟨true, [], [], 1⟩ := by
  refine ⟨⟨fun _ => some 0, [⟨[c!"f"], .data, 5, none, 0⟩], by decide, _, List.mem_cons_self, by decide⟩, ?_⟩
  exact ⟨.dir true 0 [(c!"f", .file ⟨1, 0, some c!"a"⟩)], .dir true 0 [(c!"f", .file ⟨1, 0, some c!"b"⟩)], demoLib, _, _, rfl, rfl,
    by decide +kernel, by decide +kernel⟩

/-- A script with an extension is data, however executable, and a versioned shared library is data too. -/
theorem C221_kind_false (f : File) :
    (record demoLib [c!"run.sh"] f).kind = .data ∧ (record demoLib [c!"libz.so.1"] f).kind = .data := by
  exact ⟨by rfl, by rfl⟩

end Rez.Props
