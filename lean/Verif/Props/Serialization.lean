import Verif.Spec.Serialization
import Verif.Props.Version
import Verif.Lemmas.RequirementParse
import Verif.Props.Context
/-!
# Package files: C134 (loading what was saved), C135 (Python text), C136 (field filters)
-/
namespace Rez.Props
open Rez Rez.Serial Rez.Spec.Serial

namespace SerialLemmas

theorem mapM_text (l : List Str) : (l.map Value.str).mapM text = some l := by
  induction l with
  | nil => rfl
  | cons s l ih => rw [List.map_cons, List.mapM_cons, ih]; rfl

theorem array_texts (l : List Str) : array text (ofTexts l) = some l := mapM_text l

theorem array_arrays (l : List (List Str)) : array (array text) (.arr (l.map ofTexts)) = some l := by
  show (l.map ofTexts).mapM (array text) = some l
  induction l with
  | nil => rfl
  | cons v l ih => rw [List.map_cons, List.mapM_cons, ih, array_texts]; rfl

theorem optional_text (o : Option Str) : optional text (ofText o) = some o := by cases o <;> rfl

theorem optional_flag (o : Option Bool) : optional flag (ofFlag o) = some o := by cases o <;> rfl

theorem optional_number (bits : Nat) {o : Option Int} (h : ∀ n, o = some n → -(2 ^ bits : Int) ≤ n ∧ n < (2 ^ bits : Int)) :
    optional (number bits) (ofNumber o) = some o := by
  cases o with
  | none => rfl
  | some n => 
    show Option.map some (if -(2 ^ bits : Int) ≤ n ∧ n < (2 ^ bits : Int) then some n else none) = _
    rw [if_pos (h n rfl)]
    rfl

theorem optional_version {o : Option Version} (h : ∀ v, o = some v → Version.parse v.asStr = some v) :
    optional versionText (ofVersion o) = some o := by
  cases o with
  | none => rfl
  | some v =>
    show Option.map some (Version.parse v.asStr) = _
    rw [h v rfl]
    rfl

theorem table_tests (l : List (Str × Str)) : table (.obj (l.map fun t => (t.1, .str t.2))) = some l := by
  show (l.map fun t => (t.1, Value.str t.2)).mapM entry = some l
  induction l with
  | nil => rfl
  | cons t l ih => rw [List.map_cons, List.mapM_cons, ih]; rfl

theorem keys_serialize (p : Pkg) : mkeys (serialize p) = known.dropLast := rfl

theorem known_nodup : known.Nodup := by decide

theorem nodup_serialize (p : Pkg) : (mkeys (serialize p)).Nodup := by
  rw [keys_serialize]; decide

theorem field_of {α : Type} {m : Fields} {k : Str} {v : Value} {f : Value → Option α} {d a : α} (h : mget m k = some v)
    (hf : f v = some a) : field m k f d = some a := by
  unfold field; rw [h]; exact hf

theorem field_none {α : Type} {m : Fields} {k : Str} {f : Value → Option α} {d : α} (h : mget m k = none) :
    field m k f d = some d := by
  unfold field; rw [h]

/-- Reading the fields of a package, nulls possibly left out. -/
theorem fromMap_of {p : Pkg} (h : Made p) (m : Fields) (hk : ∀ k ∈ mkeys m, k ∈ mkeys (serialize p)) (hn : (mkeys m).Nodup)
    (hm : ∀ k v, mget (serialize p) k = some v → mget m k = some v ∨ (mget m k = none ∧ v = .null)) :
    fromMap m = some (written p) := by
  have hkn : ((mkeys m).all fun k => known.contains k) = true := by
    rw [List.all_eq_true]
    intro k hkm
    have := hk k hkm
    rw [keys_serialize] at this
    rw [List.contains_iff_mem]
    exact List.dropLast_subset _ this
  have hopt : ∀ {α : Type} {k : Str} {v : Value} {f : Value → Option α} {o : Option α}, mget (serialize p) k = some v →
      optional f v = some o → field m k (optional f) none = some o := by
    intro α k v f o hv hf
    rcases hm k v hv with h1 | ⟨h1, rfl⟩
    · exact field_of h1 hf
    · rw [field_none h1]
      exact hf
  have hreq : ∀ {α : Type} {k : Str} {v : Value} {f : Value → Option α} {d a : α}, mget (serialize p) k = some v → v ≠ .null →
      f v = some a → field m k f d = some a := by
    intro α k v f d a hv hne hf
    rcases hm k v hv with h1 | ⟨_, h1⟩
    · exact field_of h1 hf
    · exact absurd h1 hne
  have hname : mget m c!"name" = some (.str p.name) := by
    rcases hm c!"name" (.str p.name) rfl with h1 | ⟨_, h1⟩
    · exact h1
    · cases h1
  have hdev : mget m c!"is_dev_package" = none := by
    rw [mget_none_iff]
    intro hmem
    have := hk _ hmem
    rw [keys_serialize] at this
    revert this
    decide
  unfold fromMap
  rw [hkn]
  simp only [Bool.not_true, Bool.false_eq_true, if_false, hn, not_true]
  rw [hname, hopt (k := c!"version") rfl (optional_version h.version), hopt (k := c!"description") rfl (optional_text _),
    hreq (k := c!"authors") rfl (by simp [ofTexts]) (array_texts _), hreq (k := c!"requires") rfl (by simp [ofTexts]) (array_texts _),
    hreq (k := c!"build_requires") rfl (by simp [ofTexts]) (array_texts _),
    hreq (k := c!"private_build_requires") rfl (by simp [ofTexts]) (array_texts _),
    hreq (k := c!"variants") rfl (by simp) (array_arrays _), hreq (k := c!"tools") rfl (by simp [ofTexts]) (array_texts _),
    hopt (k := c!"commands") rfl (optional_text _), hopt (k := c!"build_command") rfl (optional_text _),
    hopt (k := c!"build_system") rfl (optional_text _), hopt (k := c!"pre_commands") rfl (optional_text _),
    hopt (k := c!"post_commands") rfl (optional_text _), hopt (k := c!"pre_test_commands") rfl (optional_text _),
    hopt (k := c!"pre_build_commands") rfl (optional_text _), hreq (k := c!"tests") rfl (by simp) (table_tests _),
    hopt (k := c!"requires_rez_version") rfl (optional_text _), hopt (k := c!"uuid") rfl (optional_text _),
    hopt (k := c!"help") rfl (optional_text _), hopt (k := c!"relocatable") rfl (optional_flag _),
    hopt (k := c!"cachable") rfl (optional_flag _), hopt (k := c!"timestamp") rfl (optional_number 63 h.timestamp),
    hopt (k := c!"revision") rfl (optional_text _), hopt (k := c!"changelog") rfl (optional_text _),
    hopt (k := c!"release_message") rfl (optional_text _), hopt (k := c!"previous_version") rfl (optional_version h.previous),
    hopt (k := c!"previous_revision") rfl (optional_text _), hopt (k := c!"vcs") rfl (optional_text _),
    hopt (k := c!"format_version") rfl (optional_number 31 h.formatVersion), hopt (k := c!"base") rfl (optional_text _),
    hopt (k := c!"has_plugins") rfl (optional_flag _), hreq (k := c!"plugin_for") rfl (by simp [ofTexts]) (array_texts _),
    hopt (k := c!"hashed_variants") rfl (optional_flag _), hopt (k := c!"preprocess") rfl (optional_text _),
    field_none (f := optional flag) (d := none) hdev]
  rfl

theorem fields_serialize (p : Pkg) (k : Str) :
    mget ((serialize p).foldl (fun m e => mset m e.1 e.2) []) k = mget (serialize p) k := by
  have : ∀ (l : Fields) (m : Fields), (mkeys l).Nodup → mget (l.foldl (fun m e => mset m e.1 e.2) m) k =
      (mget l k).orElse fun _ => mget m k := by
    intro l
    induction l with
    | nil => intro m _; rfl
    | cons e l ih =>
      intro m hn
      have hn' : e.1 ∉ mkeys l ∧ (mkeys l).Nodup := List.nodup_cons.mp hn
      rw [List.foldl_cons, ih _ hn'.2, mget_mset]
      by_cases he : k = e.1
      · have hnone : mget l k = none := (mget_none_iff l k).mpr (he ▸ hn'.1)
        rw [hnone, if_pos he]
        obtain ⟨k', v⟩ := e
        simp only at he
        subst he
        simp [mget]
      · rw [if_neg he]
        obtain ⟨k', v⟩ := e
        have hne : ¬ k' = k := fun h => he h.symm
        have : mget ((k', v) :: l) k = mget l k := by simp [mget, hne]
        rw [this]
  rw [this _ _ (nodup_serialize p)]
  cases mget (serialize p) k <;> rfl

theorem fields_obj (l : Fields) : fields (.obj l) = some (l.foldl (fun m e => mset m e.1 e.2) []) := rfl

theorem filterMap_text (l : List Str) : (l.map Value.str).filterMap text = l := by
  induction l with
  | nil => rfl
  | cons s l ih => simp [text, ih]

theorem filterMap_variant (l : List (List Str)) : (l.map ofTexts).filterMap variantOf = l := by
  induction l with
  | nil => rfl
  | cons v l ih =>
    have : variantOf (ofTexts v) = some v := congrArg some (filterMap_text v)
    rw [List.map_cons, List.filterMap_cons, this, ih]

/-- Reading the nine fields. -/
theorem fromData_of (alnum : Char → Bool) {p : Pkg} (h : Made p) (m : Fields) (hm : ∀ k, mget m k = mget (serialize p) k) :
    fromData alnum m = if p.validate alnum then some (basic p) else none := by
  have hv : versionOf m = some p.version := by
    unfold versionOf
    rw [hm]
    have : mget (serialize p) c!"version" = some (ofVersion p.version) := rfl
    rw [this]
    cases hpv : p.version with
    | none => rfl
    | some v =>
      show Option.map some (Version.parse v.asStr) = _
      rw [h.version v hpv]
      rfl
  have hd : (mget m c!"description").bind text = p.description := by
    rw [hm]
    have : mget (serialize p) c!"description" = some (ofText p.description) := rfl
    rw [this]
    cases p.description <;> rfl
  have ht : ∀ k l, mget (serialize p) k = some (ofTexts l) → textsOf m k = l := by
    intro k l hk
    unfold textsOf
    rw [hm, hk]
    exact filterMap_text l
  have hvar : variantsOf m = p.variants := by
    unfold variantsOf
    rw [hm]
    exact filterMap_variant p.variants
  have hn : (mget m c!"name").bind text = some p.name := by rw [hm]; rfl
  unfold fromData
  rw [hn, hv, hd, hvar, ht c!"authors" p.authors rfl, ht c!"requires" p.requires rfl, ht c!"build_requires" p.buildRequires rfl,
    ht c!"private_build_requires" p.privateBuildRequires rfl, ht c!"tools" p.tools rfl]
  rfl

theorem mget_filter_some {m : Fields} (hn : (mkeys m).Nodup) {k : Str} {v : Value} (h : mget m k = some v) :
    mget (m.filter notNull) k = some v ∨ (mget (m.filter notNull) k = none ∧ v = .null) := by
  have hmem := mget_some_mem h
  have hn' : (mkeys (m.filter notNull)).Nodup := List.Nodup.sublist (List.Sublist.map _ List.filter_sublist) hn
  by_cases hv : notNull (k, v) = true
  · left
    exact mget_of_mem hn' (List.mem_filter.mpr ⟨hmem, hv⟩)
  · right
    constructor
    · rw [mget_none_iff]
      intro hk
      obtain ⟨⟨k', w⟩, he, hkk⟩ := List.mem_map.mp hk
      simp only at hkk
      subst hkk
      have h1 := mget_of_mem hn (List.mem_filter.mp he).1
      rw [h] at h1
      cases h1
      exact hv (List.mem_filter.mp he).2
    · unfold notNull at hv
      cases v <;> simp_all

/-! Codecs that read what they have written exist. -/

def encNat (n : Nat) : Str := List.replicate n '1' ++ ['0']

def encStr (s : Str) : Str := encNat s.length ++ s

mutual
def encV : Value → Str
  | .null => ['n']
  | .bool true => ['t']
  | .bool false => ['f']
  | .num (.ofNat n) => 'p' :: encNat n
  | .num (.negSucc n) => 'm' :: encNat n
  | .str s => 's' :: encStr s
  | .arr l => 'a' :: encL l
  | .obj l => 'o' :: encO l
def encL : List Value → Str
  | [] => ['.']
  | v :: l => ',' :: (encV v ++ encL l)
def encO : List (Str × Value) → Str
  | [] => ['.']
  | (k, v) :: l => ',' :: (encStr k ++ (encV v ++ encO l))
end

theorem encNat_inj {m n : Nat} {x y : Str} (h : encNat m ++ x = encNat n ++ y) : m = n ∧ x = y := by
  induction m generalizing n with
  | zero =>
    cases n with
    | zero => simpa [encNat] using h
    | succ n => simp [encNat, List.replicate_succ] at h
  | succ m ih =>
    cases n with
    | zero => simp [encNat, List.replicate_succ] at h
    | succ n =>
      have : encNat m ++ x = encNat n ++ y := by simpa [encNat, List.replicate_succ] using h
      obtain ⟨h1, h2⟩ := ih this
      exact ⟨congrArg _ h1, h2⟩

theorem encStr_inj {s t x y : Str} (h : encStr s ++ x = encStr t ++ y) : s = t ∧ x = y := by
  unfold encStr at h
  rw [List.append_assoc, List.append_assoc] at h
  obtain ⟨h1, h2⟩ := encNat_inj h
  exact List.append_inj h2 h1

mutual
theorem encV_inj : ∀ (v w : Value) (x y : Str), encV v ++ x = encV w ++ y → v = w ∧ x = y
  | .null, w, x, y, h => by
    cases w with
    | null => simpa [encV] using h
    | bool b => cases b <;> simp [encV] at h
    | num n => cases n <;> simp [encV] at h
    | str _ | arr _ | obj _ => simp [encV] at h
  | .bool a, w, x, y, h => by
    cases w with
    | bool b => cases a <;> cases b <;> simpa [encV] using h
    | num n => cases a <;> cases n <;> simp [encV] at h
    | null | str _ | arr _ | obj _ => cases a <;> simp [encV] at h
  | .num m, w, x, y, h => by
    cases w with
    | bool b => cases m <;> cases b <;> simp [encV] at h
    | num n =>
      cases m <;> cases n <;> simp only [encV, List.cons_append, List.cons.injEq, Char.reduceEq, false_and, true_and] at h
      · obtain ⟨rfl, h2⟩ := encNat_inj h; exact ⟨rfl, h2⟩
      · obtain ⟨rfl, h2⟩ := encNat_inj h; exact ⟨rfl, h2⟩
    | null | str _ | arr _ | obj _ => cases m <;> simp [encV] at h
  | .str s, w, x, y, h => by
    cases w with
    | bool b => cases b <;> simp [encV] at h
    | num n => cases n <;> simp [encV] at h
    | str t =>
      simp only [encV, List.cons_append, List.cons.injEq, true_and] at h
      obtain ⟨rfl, h2⟩ := encStr_inj h; exact ⟨rfl, h2⟩
    | null | arr _ | obj _ => simp [encV] at h
  | .arr l, w, x, y, h => by
    cases w with
    | bool b => cases b <;> simp [encV] at h
    | num n => cases n <;> simp [encV] at h
    | arr k =>
      simp only [encV, List.cons_append, List.cons.injEq, true_and] at h
      obtain ⟨rfl, h2⟩ := encL_inj l k x y h; exact ⟨rfl, h2⟩
    | null | str _ | obj _ => simp [encV] at h
  | .obj l, w, x, y, h => by
    cases w with
    | bool b => cases b <;> simp [encV] at h
    | num n => cases n <;> simp [encV] at h
    | obj k =>
      simp only [encV, List.cons_append, List.cons.injEq, true_and] at h
      obtain ⟨rfl, h2⟩ := encO_inj l k x y h; exact ⟨rfl, h2⟩
    | null | str _ | arr _ => simp [encV] at h
theorem encL_inj : ∀ (l k : List Value) (x y : Str), encL l ++ x = encL k ++ y → l = k ∧ x = y
  | [], k, x, y, h => by
    cases k with
    | nil => simpa [encL] using h
    | cons _ _ => simp [encL] at h
  | v :: l, k, x, y, h => by
    cases k with
    | nil => simp [encL] at h
    | cons w k =>
      simp only [encL, List.cons_append, List.cons.injEq, true_and, List.append_assoc] at h
      obtain ⟨rfl, h2⟩ := encV_inj v w _ _ h
      obtain ⟨rfl, h3⟩ := encL_inj l k _ _ h2
      exact ⟨rfl, h3⟩
theorem encO_inj : ∀ (l k : List (Str × Value)) (x y : Str), encO l ++ x = encO k ++ y → l = k ∧ x = y
  | [], k, x, y, h => by
    cases k with
    | nil => simpa [encO] using h
    | cons e _ => simp [encO] at h
  | (a, v) :: l, k, x, y, h => by
    cases k with
    | nil => simp [encO] at h
    | cons e k =>
      obtain ⟨b, w⟩ := e
      simp only [encO, List.cons_append, List.cons.injEq, true_and, List.append_assoc] at h
      obtain ⟨rfl, h1⟩ := encStr_inj h
      obtain ⟨rfl, h2⟩ := encV_inj v w _ _ h1
      obtain ⟨rfl, h3⟩ := encO_inj l k _ _ h2
      exact ⟨rfl, h3⟩
end

theorem encV_injective : Function.Injective encV := by
  intro v w h
  exact (encV_inj v w [] [] (by rw [h])).1

open Classical in
/-- The value that is written so. -/
noncomputable def decV (s : Str) : Option Value := if h : ∃ v, encV v = s then some h.choose else none

theorem decV_encV (v : Value) : decV (encV v) = some v := by
  have h : ∃ w, encV w = encV v := ⟨v, rfl⟩
  unfold decV
  rw [dif_pos h]
  exact congrArg some (encV_injective h.choose_spec)

/-- Codecs for the examples. -/
noncomputable def demo : Codecs where
  json := fun _ v => encV v
  readJson := decV
  yaml := fun _ v => encV v
  readYaml := decV
  toml := fun m => some (encV (.obj (m.filter notNull)))
  readToml := fun s => (decV s).bind document
  bincode := fun l => encV (.arr l)
  readBincode := fun s => (decV s).bind fun v => match v with
    | .arr l => some l
    | _ => none
  gzip := fun _ s => s
  gunzip := some
  python := fun _ => none

theorem demo_ok : CodecsOk demo :=
  ⟨fun _ _ _ => decV_encV _, fun _ _ _ _ => decV_encV _, fun _ _ => decV_encV _, fun _ _ _ => decV_encV _,
    fun p s _ h => by
      cases h
      show (decV (encV _)).bind document = _
      rw [decV_encV]; rfl,
    fun l => by
      show (decV (encV (.arr l))).bind _ = _
      rw [decV_encV]; rfl,
    fun _ _ => rfl⟩

/-- A package for the examples. -/
def box : Pkg :=
  { Pkg.new c!"box" with
    version := Version.parse c!"1.2", description := some c!"A \"small\" box", authors := [c!"Ann", c!"Bo"], requires := [c!"python-3"],
    buildRequires := [c!"cmake"], variants := [[c!"maya-2024", c!"linux"], [c!"maya-2025"]], tools := [c!"box"], timestamp := some 7,
    commands := some c!"env.X = 1\n\nif X:\n    stop()\n", tests := [(c!"unit", c!"pytest")] }

theorem box_made : Made box :=
  ⟨fun v h => by have := C04_round_trip c!"1.2" v h; exact this, fun _ h => (by cases h), fun n h => (by cases h; decide),
    fun _ h => (by cases h), (by decide)⟩

end SerialLemmas
open SerialLemmas

/-! ## C134 -/

/-- C134 is false for JSON and YAML files with metadata, which is the default: no package that is saved can be loaded. -/
theorem C134_metadata_false (c : Codecs) (hc : CodecsOk c) (alnum : Char → Bool) (metadata : Value) (now : Str) (p : Pkg) (hp : Made p)
    (path : Str) (f : Format) (hf : formatOf path = some f) (hk : f = .json ∨ f = .jsonGz ∨ f = .yaml ∨ f = .yamlGz) :
    ∃ s, save c metadata now none p f = some s ∧ load c alnum path s = .err := by
  have hfields : ∀ v : Value, v = container metadata p → (fields v).bind (fromData alnum) = none := by
    rintro v rfl
    rfl
  have hfilt : filterFields Options.new p = p := rfl
  rcases hk with rfl | rfl | rfl | rfl
  · refine ⟨_, rfl, ?_⟩
    unfold load
    rw [hf]
    show result (((c.readJson (c.json true (container metadata p))).bind fields).bind (fromData alnum)) = _
    rw [hc.jsonMeta true metadata p hp]
    rfl
  · refine ⟨_, rfl, ?_⟩
    unfold load
    rw [hf]
    simp only [reduceCtorEq, if_false, Format.compressed, if_true]
    rw [hc.gzip]
    show result (((c.readJson (c.json true (container metadata p))).bind fields).bind (fromData alnum)) = _
    rw [hc.jsonMeta true metadata p hp]
    rfl
  · refine ⟨_, rfl, ?_⟩
    unfold load
    rw [hf]
    show result (((c.readYaml (c.yaml false (container metadata p))).bind fields).bind (fromData alnum)) = _
    rw [hc.yamlMeta metadata p hp]
    rfl
  · refine ⟨_, rfl, ?_⟩
    unfold load
    rw [hf]
    simp only [reduceCtorEq, if_false, Format.compressed, if_true]
    rw [hc.gzip]
    show result (((c.readYaml (c.yaml false (container metadata p))).bind fields).bind (fromData alnum)) = _
    rw [hc.yamlMeta metadata p hp]
    rfl

example : ∃ s, save demo .null [] none box .yaml = some s ∧ load demo (fun _ => true) c!"a/package.yaml" s = .err :=
  C134_metadata_false demo demo_ok _ .null [] box box_made c!"a/package.yaml" .yaml rfl (by simp)

/-- C134: JSON and YAML files without metadata give back nine fields of every valid package; invalid ones cannot be
loaded.  Missing: indented YAML, and the other fields. -/
theorem C134_plain_partial (c : Codecs) (hc : CodecsOk c) (alnum : Char → Bool) (metadata : Value) (now : Str) (p : Pkg) (hp : Made p)
    (path : Str) (f : Format) (hf : formatOf path = some f) (o : Options) (ho : o.metadata = false) (hi : o.includeOnly = none)
    (he : o.exclude = none) (hk : f = .json ∨ f = .jsonGz ∨ (f = .yaml ∨ f = .yamlGz) ∧ o.pretty = false) :
    ∃ s, save c metadata now (some o) p f = some s ∧
      load c alnum path s = if p.validate alnum then .ok (basic p) else .err := by
  have hfilt : filterFields o p = p := by unfold filterFields; rw [hi, he]; rfl
  have hdoc : documentOf metadata o (filterFields o p) = .obj (serialize p) := by
    unfold documentOf; rw [ho, hfilt]; rfl
  have hread : ∀ v : Option Value, v = some (.obj (serialize p)) →
      result ((v.bind fields).bind (fromData alnum)) = if p.validate alnum then .ok (basic p) else .err := by
    rintro v rfl
    rw [Option.bind_some, fields_obj, Option.bind_some, fromData_of alnum hp _ (fields_serialize p)]
    cases p.validate alnum <;> rfl
  rcases hk with rfl | rfl | ⟨rfl | rfl, hpr⟩
  · refine ⟨_, rfl, ?_⟩
    unfold load
    rw [hf]
    refine hread (c.readJson _) ?_
    show c.readJson (c.json o.pretty (documentOf metadata o (filterFields o p))) = _
    rw [hdoc]
    exact hc.json o.pretty p hp
  · refine ⟨_, rfl, ?_⟩
    unfold load
    rw [hf]
    simp only [reduceCtorEq, if_false, Format.compressed, if_true]
    rw [hc.gzip]
    refine hread (c.readJson _) ?_
    show c.readJson (c.json o.pretty (documentOf metadata o (filterFields o p))) = _
    rw [hdoc]
    exact hc.json o.pretty p hp
  · refine ⟨_, rfl, ?_⟩
    unfold load
    rw [hf]
    refine hread (c.readYaml _) ?_
    show c.readYaml (c.yaml (o.pretty && !o.metadata) (documentOf metadata o (filterFields o p))) = _
    rw [hdoc, hpr]
    exact hc.yaml p hp
  · refine ⟨_, rfl, ?_⟩
    unfold load
    rw [hf]
    simp only [reduceCtorEq, if_false, Format.compressed, if_true]
    rw [hc.gzip]
    refine hread (c.readYaml _) ?_
    show c.readYaml (c.yaml (o.pretty && !o.metadata) (documentOf metadata o (filterFields o p))) = _
    rw [hdoc, hpr]
    exact hc.yaml p hp

example : ∃ s, save demo .null [] (some Options.minimal) box .jsonGz = some s ∧
    load demo (fun _ => true) c!"a/package.json.gz" s = .ok (basic box) := by
  obtain ⟨s, hs, hl⟩ := C134_plain_partial demo demo_ok (fun _ => true) .null [] box box_made c!"a/package.json.gz" .jsonGz rfl
    Options.minimal rfl rfl rfl (by simp)
  exact ⟨s, hs, by rw [hl, if_pos (by decide)]⟩

/-- C134: the text of a package in JSON or YAML gives back the same nine fields. -/
theorem C134_text_partial (c : Codecs) (hc : CodecsOk c) (alnum : Char → Bool) (now : Str) (p : Pkg) (hp : Made p) (f : Format)
    (hk : f = .json ∨ f = .jsonGz ∨ f = .yaml ∨ f = .yamlGz) :
    ∃ s, saveString c now p f = some s ∧ loadText c alnum s f = if p.validate alnum then .ok (basic p) else .err := by
  have hread : ∀ v : Option Value, v = some (.obj (serialize p)) →
      result ((v.bind fields).bind (fromData alnum)) = if p.validate alnum then .ok (basic p) else .err := by
    rintro v rfl
    rw [Option.bind_some, fields_obj, Option.bind_some, fromData_of alnum hp _ (fields_serialize p)]
    cases p.validate alnum <;> rfl
  rcases hk with rfl | rfl | rfl | rfl
  · exact ⟨_, rfl, hread _ (hc.json true p hp)⟩
  · exact ⟨_, rfl, hread _ (hc.json true p hp)⟩
  · exact ⟨_, rfl, hread _ (hc.yaml p hp)⟩
  · exact ⟨_, rfl, hread _ (hc.yaml p hp)⟩

example : ∃ s, saveString demo [] box .yaml = some s ∧ loadText demo (fun _ => true) s .yaml = .ok (basic box) := by
  obtain ⟨s, hs, hl⟩ := C134_text_partial demo demo_ok (fun _ => true) [] box box_made .yaml (by simp)
  exact ⟨s, hs, by rw [hl, if_pos (by decide)]⟩

/-- C134 is false for the other fields: two packages that differ in their commands are the same once loaded. -/
theorem C134_commands_false (c : Codecs) (hc : CodecsOk c) (alnum : Char → Bool) (ha : alnum 'a' = true) (now : Str) :
    ∃ (p : Pkg) (s : Str), Made p ∧ p.commands = some c!"env.X = 1" ∧ saveString c now p .json = some s ∧
      loadText c alnum s .json = .ok (Pkg.new c!"a") := by
  have hm : Made { Pkg.new c!"a" with commands := some c!"env.X = 1" } :=
    ⟨fun _ h => (by cases h), fun _ h => (by cases h), fun _ h => (by cases h), fun _ h => (by cases h), List.nodup_nil⟩
  obtain ⟨s, hs, hl⟩ := C134_text_partial c hc alnum now _ hm .json (Or.inl rfl)
  refine ⟨_, s, hm, rfl, hs, ?_⟩
  rw [hl]
  simp [Pkg.validate, Pkg.new, basic, ha]

/-- C134: a binary file gives back every field but `commands_function`, `config`, `is_dev_package`, `filepath` and
`includes`. -/
theorem C134_binary_partial (c : Codecs) (hc : CodecsOk c) (alnum : Char → Bool) (metadata : Value) (now : Str) (o : Option Options)
    (p : Pkg) (hp : Made p) (path : Str) (hf : formatOf path = some .binary) :
    ∃ s, save c metadata now o p .binary = some s ∧ load c alnum path s = .ok (written p) := by
  refine ⟨_, rfl, ?_⟩
  unfold load
  rw [hf]
  show result (((c.readJson _).bind document).bind fromMap) = _
  rw [hc.json false p hp]
  show result (fromMap (serialize p)) = _
  rw [fromMap_of hp (serialize p) (fun k hk => hk) (nodup_serialize p) fun k v h => Or.inl h]
  rfl

example : ∃ s, save demo .null [] none box .binary = some s ∧ load demo (fun _ => true) c!"a/package.bin" s = .ok (written box) :=
  C134_binary_partial demo demo_ok _ .null [] none box box_made c!"a/package.bin" rfl

/-- C134: a TOML file, if it can be written, gives back the same fields. -/
theorem C134_toml_partial (c : Codecs) (hc : CodecsOk c) (alnum : Char → Bool) (metadata : Value) (now : Str) (o : Options)
    (hi : o.includeOnly = none) (he : o.exclude = none) (p : Pkg) (hp : Made p) (path : Str) (hf : formatOf path = some .toml)
    (s : Str) (hs : save c metadata now (some o) p .toml = some s) : load c alnum path s = .ok (written p) := by
  have hfilt : filterFields o p = p := by unfold filterFields; rw [hi, he]; rfl
  have ht : c.toml (serialize p) = some s := by
    unfold save saveText at hs
    rw [Option.getD_some] at hs
    simp only [reduceCtorEq, if_false, Format.compressed, Bool.false_eq_true] at hs
    rw [hfilt] at hs
    cases hts : c.toml (serialize p) with
    | none => rw [hts] at hs; cases hs
    | some t => rw [hts] at hs; exact hs
  unfold load
  rw [hf]
  show result ((c.readToml s).bind fromMap) = _
  rw [hc.toml p s hp ht]
  show result (fromMap _) = _
  rw [fromMap_of hp _ ?_ ?_ ?_]
  · rfl
  · intro k hk
    obtain ⟨e, he, rfl⟩ := List.mem_map.mp hk
    exact List.mem_map.mpr ⟨e, (List.mem_filter.mp he).1, rfl⟩
  · exact List.Nodup.sublist (List.Sublist.map _ List.filter_sublist) (nodup_serialize p)
  · exact fun k v h => mget_filter_some (nodup_serialize p) h

example : ∃ s, save demo .null [] (some Options.new) box .toml = some s ∧
    load demo (fun _ => true) c!"a/package.toml" s = .ok (written box) :=
  ⟨_, rfl, C134_toml_partial demo demo_ok _ .null [] Options.new rfl rfl box box_made c!"a/package.toml" rfl _ rfl⟩

/-- C134: a binary or TOML file is refused if it has a field that packages do not have, a field twice, no name, or a value that
does not fit the field (here: a version that is none). -/
theorem C134_strict (c : Codecs) (alnum : Char → Bool) (path s : Str) (m : Fields)
    (hf : formatOf path = some .binary ∧ c.readJson s = some (.obj m) ∨ formatOf path = some .toml ∧ c.readToml s = some m)
    (h : (∃ k ∈ mkeys m, k ∉ known) ∨ ¬ (mkeys m).Nodup ∨ c!"name" ∉ mkeys m ∨
      ∃ t, mget m c!"version" = some (.str t) ∧ Version.parse t = none) : load c alnum path s = .err := by
  have hm : fromMap m = none := by
    unfold fromMap
    by_cases h1 : (!((mkeys m).all fun k => known.contains k)) = true
    · rw [if_pos h1]
    · rw [if_neg h1]
      by_cases h2 : ¬ (mkeys m).Nodup
      · rw [if_pos h2]
      · rw [if_neg h2]
        rcases h with ⟨k, hk, hkn⟩ | h | h | ⟨t, ht, hp⟩
        · exfalso
          refine h1 ?_
          rw [Bool.not_eq_true', Bool.eq_false_iff]
          intro hall
          have := List.all_eq_true.mp hall k hk
          rw [List.contains_iff_mem] at this
          exact hkn this
        · exact absurd h h2
        · rw [(mget_none_iff m _).mpr h]
          rfl
        · have : field m c!"version" (optional versionText) none = none := by
            unfold field
            rw [ht]
            show Option.map some (Version.parse t) = none
            rw [hp]
            rfl
          rw [this]
          cases (mget m c!"name").bind text <;> rfl
  unfold load
  rcases hf with ⟨h1, h2⟩ | ⟨h1, h2⟩
  · rw [h1]
    show result (((c.readJson s).bind document).bind fromMap) = _
    rw [h2]
    show result (fromMap m) = _
    rw [hm]
    rfl
  · rw [h1]
    show result ((c.readToml s).bind fromMap) = _
    rw [h2]
    show result (fromMap m) = _
    rw [hm]
    rfl

example : load demo (fun _ => true) c!"a/package.bin" (encV (.obj [(c!"name", .str c!"a"), (c!"nane", .str c!"b")])) = .err :=
  C134_strict demo _ _ _ _ (Or.inl ⟨rfl, decV_encV _⟩) (Or.inl ⟨c!"nane", by decide, by decide⟩)

/-- C134 is false for binary text: none can be loaded, as one field more is read than is written. -/
theorem C134_binary_text_false (c : Codecs) (hc : CodecsOk c) (alnum : Char → Bool) (now : Str) (p : Pkg) :
    ∃ s, saveString c now p .binary = some s ∧ loadText c alnum s .binary = .err := by
  refine ⟨_, rfl, ?_⟩
  show result ((c.readBincode _).bind fromSeq) = _
  rw [hc.bincode]
  rfl

namespace SerialLemmas

/-- A tag, and the plain text before and after it. -/
structure Seg where
  lead : Str
  tag : Str
  trail : Str

def Seg.text (g : Seg) : Str := g.lead ++ ('<' :: (g.tag ++ ['>'])) ++ g.trail

def Seg.Ok (g : Seg) : Prop := '<' ∉ g.lead ∧ '<' ∉ g.tag ∧ '>' ∉ g.tag ∧ '<' ∉ g.trail

theorem tag_prefix {t u r : Str} (ht : '>' ∉ t) (hu : '>' ∉ u) (h : (t ++ ['>']) <+: (u ++ ['>'] ++ r)) : t = u := by
  induction t generalizing u with
  | nil =>
    cases u with
    | nil => rfl
    | cons c u =>
      obtain ⟨x, hx⟩ := h
      simp only [List.nil_append, List.cons_append, List.cons.injEq] at hx
      rw [← hx.1] at hu
      exact absurd (List.mem_cons_self ..) hu
  | cons c t ih =>
    cases u with
    | nil =>
      obtain ⟨x, hx⟩ := h
      simp only [List.nil_append, List.cons_append, List.cons.injEq] at hx
      rw [hx.1] at ht
      exact absurd (List.mem_cons_self ..) ht
    | cons d u =>
      obtain ⟨x, hx⟩ := h
      simp only [List.cons_append, List.cons.injEq] at hx
      rw [hx.1, ih (fun h => ht (List.mem_cons_of_mem _ h)) (fun h => hu (List.mem_cons_of_mem _ h)) ⟨x, hx.2⟩]

theorem splitOnce_here (pat : Str) (c : Char) (r : Str) : splitOnce (c :: pat) (c :: pat ++ r) = some ([], r) := by
  have : (c :: pat).isPrefixOf (c :: (pat ++ r)) = true := by simp [List.isPrefixOf_iff_prefix]
  rw [List.cons_append, splitOnce, if_pos this]
  simp

theorem splitOnce_other {g : Seg} (hg : g.Ok) {t : Str} (ht : '>' ∉ t) (hne : g.tag ≠ t) (r : Str) :
    splitOnce ('<' :: (t ++ ['>'])) (g.text ++ r) =
      (splitOnce ('<' :: (t ++ ['>'])) r).map fun x => (g.text ++ x.1, x.2) := by
  obtain ⟨h1, h2, h3, h4⟩ := hg
  have hrest : '<' ∉ g.tag ++ ['>'] ++ g.trail := by simp [h2, h4]
  have hno : ('<' :: (t ++ ['>'])).isPrefixOf ('<' :: (g.tag ++ ['>'] ++ g.trail ++ r)) = false := by
    rw [Bool.eq_false_iff]
    intro h
    rw [List.isPrefixOf_iff_prefix] at h
    obtain ⟨x, hx⟩ := h
    simp only [List.cons_append, List.cons.injEq, true_and] at hx
    refine hne (tag_prefix (r := g.trail ++ r) ht h3 ⟨x, ?_⟩).symm
    simpa using hx
  have he : g.text ++ r = g.lead ++ ('<' :: (g.tag ++ ['>'] ++ g.trail ++ r)) := by simp [Seg.text]
  rw [he, splitOnce_skip h1, splitOnce, hno]
  simp only [Bool.false_eq_true, if_false]
  rw [splitOnce_skip hrest]
  cases splitOnce ('<' :: (t ++ ['>'])) r with
  | none => rfl
  | some x => simp [Seg.text]

/-- Looking for a tag finds the first one. -/
theorem splitOnce_tag {pre : List Seg} (hp : ∀ g ∈ pre, g.Ok) {g : Seg} (hg : g.Ok) (hn : ∀ g' ∈ pre, g'.tag ≠ g.tag) (r : Str) :
    splitOnce ('<' :: (g.tag ++ ['>'])) (pre.flatMap Seg.text ++ (g.text ++ r)) =
      some (pre.flatMap Seg.text ++ g.lead, g.trail ++ r) := by
  induction pre with
  | nil =>
    obtain ⟨h1, h2, h3, h4⟩ := hg
    have he : g.text ++ r = g.lead ++ ('<' :: (g.tag ++ ['>']) ++ (g.trail ++ r)) := by simp [Seg.text]
    rw [List.flatMap_nil, List.nil_append, he, splitOnce_skip h1, splitOnce_here]
    simp
  | cons a pre ih =>
    rw [List.flatMap_cons, List.append_assoc, splitOnce_other (hp a (List.mem_cons_self ..)) hg.2.2.1 (hn a (List.mem_cons_self ..)),
      ih (fun g h => hp g (List.mem_cons_of_mem _ h)) (fun g h => hn g (List.mem_cons_of_mem _ h))]
    simp

theorem splitOnce_notag {pre : List Seg} (hp : ∀ g ∈ pre, g.Ok) {t : Str} (ht : '>' ∉ t) (hn : ∀ g ∈ pre, g.tag ≠ t) :
    splitOnce ('<' :: (t ++ ['>'])) (pre.flatMap Seg.text) = none := by
  induction pre with
  | nil => rfl
  | cons a pre ih =>
    rw [List.flatMap_cons, splitOnce_other (hp a (List.mem_cons_self ..)) ht (hn a (List.mem_cons_self ..)),
      ih (fun g h => hp g (List.mem_cons_of_mem _ h)) (fun g h => hn g (List.mem_cons_of_mem _ h))]
    rfl

/-- One element on a line. -/
def element (lead tag body : Str) : List Seg := [⟨lead, tag, body⟩, ⟨[], '/' :: tag, c!"\n"⟩]

/-- The tags of an XML file. -/
def front (o : Options) : List Seg :=
  (if o.pretty then [⟨[], c!"?xml version=\"1.0\" encoding=\"UTF-8\"?", c!"\n"⟩] else []) ++ [⟨[], c!"package", c!"\n"⟩]

def middle (k : Str) : Option Str → List Seg
  | none => []
  | some s => element c!"  " k s

def group (k e : Str) (l : List Str) : List Seg :=
  if l.isEmpty then [] else ⟨c!"  ", k, c!"\n"⟩ :: l.flatMap (element c!"    " e) ++ [⟨c!"  ", '/' :: k, c!"\n"⟩]

def back (p : Pkg) : List Seg :=
  group c!"authors" c!"author" p.authors ++ (group c!"requires" c!"requirement" p.requires ++ [⟨[], c!"/package", c!"\n"⟩])

def segs (o : Options) (p : Pkg) : List Seg :=
  front o ++ (element c!"  " c!"name" p.name ++ (middle c!"version" (p.version.map Version.asStr) ++
    (middle c!"description" p.description ++ back p)))

theorem group_text (k e : Str) (l : List Str) : (group k e l).flatMap Seg.text =
    if l.isEmpty then [] else c!"  <" ++ k ++ c!">\n" ++ l.flatMap (fun a => c!"    <" ++ e ++ c!">" ++ a ++ c!"</" ++ e ++ c!">\n") ++
      c!"  </" ++ k ++ c!">\n" := by
  unfold group
  cases l.isEmpty with
  | true => rfl
  | false =>
    have : (l.flatMap (element c!"    " e)).flatMap Seg.text =
        l.flatMap (fun a => c!"    <" ++ e ++ c!">" ++ a ++ c!"</" ++ e ++ c!">\n") := by
      rw [List.flatMap_assoc]
      congr 1
      funext a
      simp [element, Seg.text]
    simp only [Bool.false_eq_true, if_false, List.cons_append, List.flatMap_cons, List.flatMap_append, this, List.flatMap_nil]
    simp [Seg.text]

theorem middle_text (k : Str) (o : Option Str) : (middle k o).flatMap Seg.text =
    o.elim [] fun s => c!"  <" ++ k ++ c!">" ++ s ++ c!"</" ++ k ++ c!">\n" := by
  cases o with
  | none => rfl
  | some s => simp [middle, element, Seg.text]

theorem segs_text (o : Options) (p : Pkg) : (segs o p).flatMap Seg.text = toXml o p := by
  have hf : (front o).flatMap Seg.text =
      (if o.pretty then c!"<?xml version=\"1.0\" encoding=\"UTF-8\"?>\n" else []) ++ c!"<package>\n" := by
    unfold front; cases o.pretty <;> rfl
  have hn : (element c!"  " c!"name" p.name).flatMap Seg.text = c!"  <name>" ++ p.name ++ c!"</name>\n" := by
    simp [element, Seg.text]
  have hl : [(⟨[], c!"/package", c!"\n"⟩ : Seg)].flatMap Seg.text = c!"</package>\n" := by simp [Seg.text]
  unfold segs back toXml
  rw [List.flatMap_append, List.flatMap_append, List.flatMap_append, List.flatMap_append, List.flatMap_append, List.flatMap_append,
    hf, hn, hl, group_text, group_text, middle_text, middle_text]
  have hv : ∀ v : Option Version, ((v.map Version.asStr).elim [] fun s => c!"  <" ++ c!"version" ++ c!">" ++ s ++ c!"</" ++ c!"version" ++ c!">\n") =
      v.elim [] fun v => c!"  <version>" ++ v.asStr ++ c!"</version>\n" := by
    intro v; cases v <;> simp
  rw [hv]
  simp only [List.append_assoc]
  congr 4

theorem seg_ok {l t r : Str} (h1 : '<' ∉ l) (h2 : '<' ∉ t) (h3 : '>' ∉ t) (h4 : '<' ∉ r) : Seg.Ok ⟨l, t, r⟩ := ⟨h1, h2, h3, h4⟩

theorem group_ok {k e : Str} {l : List Str} (hk : '<' ∉ k ∧ '>' ∉ k) (he : '<' ∉ e ∧ '>' ∉ e) (hl : ∀ s ∈ l, '<' ∉ s) :
    ∀ g ∈ group k e l, g.Ok ∧ g.tag ∈ [k, e, '/' :: k, '/' :: e] := by
  intro g hg
  unfold group at hg
  split at hg
  · simp at hg
  · rw [List.cons_append, List.mem_cons, List.mem_append, List.mem_singleton] at hg
    rcases hg with rfl | hg | rfl
    · exact ⟨seg_ok (by decide) hk.1 hk.2 (by decide), by simp⟩
    · obtain ⟨s, hs, hg⟩ := List.mem_flatMap.mp hg
      simp only [element, List.mem_cons, List.not_mem_nil, or_false] at hg
      rcases hg with rfl | rfl
      · exact ⟨seg_ok (by decide) he.1 he.2 (hl s hs), by simp⟩
      · exact ⟨seg_ok (by decide) (by simp [he.1]) (by simp [he.2]) (by decide), by simp⟩
    · exact ⟨seg_ok (by decide) (by simp [hk.1]) (by simp [hk.2]) (by decide), by simp⟩

theorem middle_ok {k : Str} {o : Option Str} (hk : '<' ∉ k ∧ '>' ∉ k) (ho : ∀ s ∈ o, '<' ∉ s) :
    ∀ g ∈ middle k o, g.Ok ∧ g.tag ∈ [k, '/' :: k] := by
  intro g hg
  cases o with
  | none => simp [middle] at hg
  | some s =>
    simp only [middle, element, List.mem_cons, List.not_mem_nil, or_false] at hg
    rcases hg with rfl | rfl
    · exact ⟨seg_ok (by decide) hk.1 hk.2 (ho s rfl), by simp⟩
    · exact ⟨seg_ok (by decide) (by simp [hk.1]) (by simp [hk.2]) (by decide), by simp⟩

theorem front_ok (o : Options) : ∀ g ∈ front o, g.Ok ∧ g.tag ∈ [c!"?xml version=\"1.0\" encoding=\"UTF-8\"?", c!"package"] := by
  intro g hg
  unfold front at hg
  cases h : o.pretty <;>
  · simp only [h, Bool.false_eq_true, if_false, if_true, List.nil_append, List.cons_append, List.mem_cons, List.not_mem_nil, or_false] at hg
    rcases hg with rfl | rfl <;> exact ⟨⟨by decide, by decide, by decide, by decide⟩, by simp⟩

/-- What is between a tag and its end is the body. -/
theorem between {pre : List Seg} {l t body tr : Str} (hp : ∀ g ∈ pre, g.Ok) (hg : Seg.Ok ⟨l, t, body⟩) (htr : '<' ∉ tr)
    (hn : ∀ g ∈ pre, g.tag ≠ t) (hn' : ∀ g ∈ pre, g.tag ≠ '/' :: t) (post : List Seg) :
    let doc := (pre ++ (⟨l, t, body⟩ :: ⟨[], '/' :: t, tr⟩ :: post)).flatMap Seg.text
    ∃ i j, indexOf ('<' :: (t ++ ['>'])) doc = some i ∧ indexOf ('<' :: ('/' :: t ++ ['>'])) doc = some j ∧
      slice doc (i + (t.length + 2)) j = .ok body := by
  intro doc
  have hg2 : Seg.Ok ⟨[], '/' :: t, tr⟩ := ⟨by simp, by simp [hg.2.1], by simp [hg.2.2.1], htr⟩
  have h1 : doc = pre.flatMap Seg.text ++ ((⟨l, t, body⟩ : Seg).text ++ ((⟨[], '/' :: t, tr⟩ : Seg).text ++ post.flatMap Seg.text)) := by
    simp [doc]
  have h2 : doc = (pre ++ [(⟨l, t, body⟩ : Seg)]).flatMap Seg.text ++ ((⟨[], '/' :: t, tr⟩ : Seg).text ++ post.flatMap Seg.text) := by
    simp [doc]
  have e1 := splitOnce_tag hp hg hn ((⟨[], '/' :: t, tr⟩ : Seg).text ++ post.flatMap Seg.text)
  rw [← h1] at e1
  have e2 := splitOnce_tag (pre := pre ++ [(⟨l, t, body⟩ : Seg)]) (g := ⟨[], '/' :: t, tr⟩) (by
      intro g h
      rcases List.mem_append.mp h with h | h
      · exact hp g h
      · rw [List.mem_singleton] at h; subst h; exact hg) hg2 (by
      intro g h
      rcases List.mem_append.mp h with h | h
      · exact hn' g h
      · rw [List.mem_singleton] at h; subst h
        intro hh
        have := congrArg List.length hh
        simp at this) (post.flatMap Seg.text)
  rw [← h2] at e2
  refine ⟨(pre.flatMap Seg.text ++ l).length, ((pre ++ [(⟨l, t, body⟩ : Seg)]).flatMap Seg.text ++ []).length, ?_, ?_, ?_⟩
  · unfold indexOf; rw [e1]; rfl
  · unfold indexOf; rw [e2]; rfl
  · have hlen : ((pre ++ [(⟨l, t, body⟩ : Seg)]).flatMap Seg.text ++ []).length =
        (pre.flatMap Seg.text ++ l).length + (t.length + 2) + body.length := by
      rw [List.append_nil, List.flatMap_append, List.flatMap_cons, List.flatMap_nil, List.append_nil]
      simp only [Seg.text, List.length_append, List.length_cons, List.length_nil]
      omega
    unfold slice
    rw [hlen, if_pos (Nat.le_add_right _ _)]
    have hdoc : doc = (pre.flatMap Seg.text ++ l ++ ('<' :: (t ++ ['>']))) ++ (body ++ ((⟨[], '/' :: t, tr⟩ : Seg).text ++ post.flatMap Seg.text)) := by
      rw [h1]; simp [Seg.text]
    have hl2 : (pre.flatMap Seg.text ++ l).length + (t.length + 2) = (pre.flatMap Seg.text ++ l ++ ('<' :: (t ++ ['>']))).length := by
      simp only [List.length_append, List.length_cons, List.length_nil]
    rw [Nat.add_sub_cancel_left, hl2, hdoc, List.drop_left, List.take_left]

theorem missing {l : List Seg} (hp : ∀ g ∈ l, g.Ok) {t : Str} (ht : '>' ∉ t) (hn : ∀ g ∈ l, g.tag ≠ t) :
    indexOf ('<' :: (t ++ ['>'])) (l.flatMap Seg.text) = none := by
  unfold indexOf; rw [splitOnce_notag hp ht hn]; rfl

end SerialLemmas

/-- C134: an XML file gives back name, version and description, as long as no text in it has a `<`. -/
theorem C134_xml_partial (o : Options) (p : Pkg) (hp : Made p) (hw : Without '<' (xmlTexts p)) :
    fromXml (toXml o p) = .ok (heading p) := by
  have hname : '<' ∉ p.name := hw _ (by simp [xmlTexts])
  have hver : ∀ s ∈ p.version.map Version.asStr, '<' ∉ s := by
    intro s hs
    exact hw s (by simp only [xmlTexts, List.mem_append, Option.mem_toList]; tauto)
  have hdesc : ∀ s ∈ p.description, '<' ∉ s := by
    intro s hs
    exact hw s (by simp only [xmlTexts, List.mem_append, Option.mem_toList]; tauto)
  have hf := front_ok o
  have hv := middle_ok (k := c!"version") (by decide) hver
  have hd := middle_ok (k := c!"description") (by decide) hdesc
  have hn := middle_ok (k := c!"name") (o := some p.name) (by decide) (by intro s hs; cases hs; exact hname)
  have hb : ∀ g ∈ back p, g.Ok ∧ g.tag ∈ [c!"authors", c!"author", c!"/authors", c!"/author", c!"requires", c!"requirement",
      c!"/requires", c!"/requirement", c!"/package"] := by
    intro g hg
    unfold back at hg
    rw [List.mem_append, List.mem_append, List.mem_singleton] at hg
    rcases hg with hg | hg | rfl
    · have := group_ok (k := c!"authors") (e := c!"author") (by decide) (by decide) (fun s hs => hw s (by simp [xmlTexts, hs])) g hg
      refine ⟨this.1, ?_⟩
      have := this.2
      simp only [List.mem_cons, List.not_mem_nil, or_false] at this ⊢
      tauto
    · have := group_ok (k := c!"requires") (e := c!"requirement") (by decide) (by decide) (fun s hs => hw s (by simp [xmlTexts, hs])) g hg
      refine ⟨this.1, ?_⟩
      have := this.2
      simp only [List.mem_cons, List.not_mem_nil, or_false] at this ⊢
      tauto
    · exact ⟨⟨by decide, by decide, by decide, by decide⟩, by simp⟩
  have hout : ∀ {l : List Str} {t : Str} {g : Seg}, g.tag ∈ l → t ∉ l → g.tag ≠ t := by
    intro l t g h1 h2 h3
    exact h2 (h3 ▸ h1)
  -- the name
  obtain ⟨i, j, h1, h2, h3⟩ := between (pre := front o) (l := c!"  ") (t := c!"name") (body := p.name) (tr := c!"\n")
    (fun g h => (hf g h).1) (seg_ok (by decide) (by decide) (by decide) hname) (by decide) (fun g h => hout (hf g h).2 (by decide))
    (fun g h => hout (hf g h).2 (by decide))
    (middle c!"version" (p.version.map Version.asStr) ++ (middle c!"description" p.description ++ back p))
  have hdoc := segs_text o p
  have e1 : (front o ++ (⟨c!"  ", c!"name", p.name⟩ :: ⟨[], '/' :: c!"name", c!"\n"⟩ ::
      (middle c!"version" (p.version.map Version.asStr) ++ (middle c!"description" p.description ++ back p)))) = segs o p := rfl
  rw [e1, hdoc] at h1 h2 h3
  -- the version
  have hver' : xmlVersion (toXml o p) = .ok p.version := by
    unfold xmlVersion
    cases hpv : p.version with
    | none =>
      have : indexOf c!"<version>" (toXml o p) = none := by
        rw [← hdoc]
        refine missing (t := c!"version") ?_ (by decide) ?_
        · intro g hg
          simp only [segs, hpv, Option.map_none, middle, List.nil_append, List.mem_append] at hg
          rcases hg with h | h | h | h
          · exact (hf g h).1
          · exact (hn g h).1
          · exact (hd g h).1
          · exact (hb g h).1
        · intro g hg
          simp only [segs, hpv, Option.map_none, middle, List.nil_append, List.mem_append] at hg
          rcases hg with h | h | h | h
          · exact hout (hf g h).2 (by decide)
          · exact hout (hn g h).2 (by decide)
          · exact hout (hd g h).2 (by decide)
          · exact hout (hb g h).2 (by decide)
      rw [this]
    | some v =>
      obtain ⟨i, j, h1, h2, h3⟩ := between (pre := front o ++ element c!"  " c!"name" p.name) (l := c!"  ") (t := c!"version")
        (body := v.asStr) (tr := c!"\n")
        (fun g h => (List.mem_append.mp h).elim (fun h => (hf g h).1) (fun h => (hn g h).1))
        (seg_ok (by decide) (by decide) (by decide) (hver _ (by rw [hpv]; rfl))) (by decide)
        (fun g h => (List.mem_append.mp h).elim (fun h => hout (hf g h).2 (by decide)) (fun h => hout (hn g h).2 (by decide)))
        (fun g h => (List.mem_append.mp h).elim (fun h => hout (hf g h).2 (by decide)) (fun h => hout (hn g h).2 (by decide)))
        (middle c!"description" p.description ++ back p)
      have e2 : (front o ++ element c!"  " c!"name" p.name ++ (⟨c!"  ", c!"version", v.asStr⟩ :: ⟨[], '/' :: c!"version", c!"\n"⟩ ::
          (middle c!"description" p.description ++ back p))) = segs o p := by
        unfold segs
        rw [hpv, List.append_assoc]
        rfl
      rw [e2, hdoc] at h1 h2 h3
      have h1' : indexOf c!"<version>" (toXml o p) = some i := h1
      have h2' : indexOf c!"</version>" (toXml o p) = some j := h2
      have h3' : slice (toXml o p) (i + 9) j = .ok v.asStr := h3
      rw [h1', h2']
      simp only
      rw [h3']
      simp only
      rw [hp.version v hpv]
  -- the description
  have hdesc' : xmlDescription (toXml o p) = .ok p.description := by
    unfold xmlDescription
    cases hpd : p.description with
    | none =>
      have : indexOf c!"<description>" (toXml o p) = none := by
        rw [← hdoc]
        refine missing (t := c!"description") ?_ (by decide) ?_
        · intro g hg
          simp only [segs, hpd, middle, List.nil_append, List.mem_append] at hg
          rcases hg with h | h | h | h
          · exact (hf g h).1
          · exact (hn g h).1
          · exact (hv g h).1
          · exact (hb g h).1
        · intro g hg
          simp only [segs, hpd, middle, List.nil_append, List.mem_append] at hg
          rcases hg with h | h | h | h
          · exact hout (hf g h).2 (by decide)
          · exact hout (hn g h).2 (by decide)
          · exact hout (hv g h).2 (by decide)
          · exact hout (hb g h).2 (by decide)
      rw [this]
    | some d =>
      have hpre : ∀ g ∈ front o ++ (element c!"  " c!"name" p.name ++ middle c!"version" (p.version.map Version.asStr)), g.Ok ∧
          g.tag ≠ c!"description" ∧ g.tag ≠ c!"/description" := by
        intro g h
        rcases List.mem_append.mp h with h | h
        · exact ⟨(hf g h).1, hout (hf g h).2 (by decide), hout (hf g h).2 (by decide)⟩
        · rcases List.mem_append.mp h with h | h
          · exact ⟨(hn g h).1, hout (hn g h).2 (by decide), hout (hn g h).2 (by decide)⟩
          · exact ⟨(hv g h).1, hout (hv g h).2 (by decide), hout (hv g h).2 (by decide)⟩
      obtain ⟨i, j, h1, h2, h3⟩ := between
        (pre := front o ++ (element c!"  " c!"name" p.name ++ middle c!"version" (p.version.map Version.asStr))) (l := c!"  ")
        (t := c!"description") (body := d) (tr := c!"\n") (fun g h => (hpre g h).1)
        (seg_ok (by decide) (by decide) (by decide) (hdesc _ (by rw [hpd]; rfl))) (by decide) (fun g h => (hpre g h).2.1) (fun g h => (hpre g h).2.2)
        (back p)
      have e2 : (front o ++ (element c!"  " c!"name" p.name ++ middle c!"version" (p.version.map Version.asStr)) ++
          (⟨c!"  ", c!"description", d⟩ :: ⟨[], '/' :: c!"description", c!"\n"⟩ :: back p)) = segs o p := by
        unfold segs
        rw [hpd, List.append_assoc, List.append_assoc]
        rfl
      rw [e2, hdoc] at h1 h2 h3
      have h1' : indexOf c!"<description>" (toXml o p) = some i := h1
      have h2' : indexOf c!"</description>" (toXml o p) = some j := h2
      have h3' : slice (toXml o p) (i + 13) j = .ok d := h3
      rw [h1', h2']
      simp only
      rw [h3']
  unfold fromXml
  have h1' : indexOf c!"<name>" (toXml o p) = some i := h1
  have h2' : indexOf c!"</name>" (toXml o p) = some j := h2
  have h3' : slice (toXml o p) (i + 6) j = .ok p.name := h3
  rw [h1', h2']
  simp only
  rw [h3', hver', hdesc']
  rfl

example : fromXml (toXml Options.new box) = .ok (heading box) :=
  C134_xml_partial _ box box_made (by unfold Without; decide)

/-- C134 is false for XML files: what a package requires is written and not read; a description that names its tag is cut;
a requirement can be read as a version; and a name that is the end of another tag makes the program panic. -/
theorem C134_xml_false :
    (∃ p : Pkg, p.requires = [c!"python-3"] ∧ fromXml (toXml Options.new p) = .ok (Pkg.new c!"a")) ∧
    (∃ p : Pkg, p.description = some c!"see </description>" ∧
      fromXml (toXml Options.new p) = .ok { Pkg.new c!"a" with description := some c!"see " }) ∧
    (∃ p : Pkg, p.name = c!"a" ∧ p.description = some c!"b" ∧
      fromXml (toXml Options.new p) = .ok { Pkg.new c!"a" with version := Version.parse c!"1", description := some c!"b" } ∧
      p.version = none ∧ p.requires = [c!"<version>1</version>"]) ∧
    ∃ p : Pkg, p.name = c!"</version>" ∧ p.version ≠ none ∧ fromXml (toXml Options.new p) = .panic := by
  refine ⟨⟨{ Pkg.new c!"a" with requires := [c!"python-3"] }, rfl, by decide +kernel⟩,
    ⟨{ Pkg.new c!"a" with description := some c!"see </description>" }, rfl, by decide +kernel⟩,
    ⟨{ Pkg.new c!"a" with description := some c!"b", requires := [c!"<version>1</version>"] }, rfl, rfl, by decide +kernel, rfl, rfl⟩,
    ⟨{ Pkg.new c!"</version>" with version := Version.parse c!"1" }, rfl, by decide +kernel, by decide +kernel⟩⟩

namespace SerialLemmas

theorem splitLast_of (d : Char) (a b : Str) (hb : d ∉ b) : Context.splitLast d (a ++ d :: b) = some (a, b) := by
  unfold Context.splitLast
  rw [RexLemmas.splitChar_two, splitChar_noSep hb]
  have hne := splitChar_ne_nil d a
  rw [List.reverse_append, List.reverse_singleton, List.singleton_append]
  cases hr : (splitChar d a).reverse with
  | nil => exact absurd (List.reverse_eq_nil_iff.mp hr) hne
  | cons p ps =>
    simp only
    rw [← hr, List.reverse_reverse, ContextLemmas.join_split]

theorem extension_of (dir name : Str) (h : '/' ∉ name) : Context.extension (dir ++ '/' :: name) = Context.extension name := by
  unfold Context.extension
  rw [splitLast_of '/' dir name h]
  have : Context.splitLast '/' name = none := by
    unfold Context.splitLast
    rw [splitChar_noSep h]
    rfl
  rw [this]
  rfl

theorem suffix_of {x name : Str} (dir : Str) (h : x.length ≤ name.length) : x.isSuffixOf (dir ++ name) = x.isSuffixOf name := by
  rw [Bool.eq_iff_iff, List.isSuffixOf_iff_suffix, List.isSuffixOf_iff_suffix]
  constructor
  · intro hx
    exact List.suffix_of_suffix_length_le hx (List.suffix_append _ _) h
  · exact fun hx => hx.trans (List.suffix_append _ _)

end SerialLemmas

/-- C134: the file that a format is saved to by default is read in that format, whatever the directory. -/
theorem C134_names (dir : Str) (f : Format) : formatOf (dir ++ '/' :: defaultName f) = some f := by
  have h : ∀ name : Str, '/' ∉ name → 8 ≤ name.length → formatOf (dir ++ '/' :: name) = formatOf name := by
    intro name h1 h2
    have h3 : ∀ x : Str, x.length ≤ 8 → x.isSuffixOf (dir ++ '/' :: name) = x.isSuffixOf name := by
      intro x hx
      have : dir ++ '/' :: name = (dir ++ ['/']) ++ name := by simp
      rw [this, suffix_of _ (by omega)]
    unfold formatOf
    rw [h3 _ (by decide), h3 _ (by decide), h3 _ (by decide), extension_of dir name h1]
  rw [h _ (by cases f <;> decide) (by cases f <;> decide)]
  cases f <;> decide

/-! ## C135 -/

namespace SerialLemmas

theorem literal_plain {s : Str} (h : '"' ∉ s ∧ '\\' ∉ s ∧ '\n' ∉ s ∧ '\r' ∉ s) : Literal s s := by
  induction s with
  | nil => exact .done
  | cons c s ih =>
    simp only [List.mem_cons, not_or] at h
    exact .char (Ne.symm h.1.1) (Ne.symm h.2.1.1) (Ne.symm h.2.2.1.1) (Ne.symm h.2.2.2.1) (ih ⟨h.1.2, h.2.1.2, h.2.2.1.2, h.2.2.2.2⟩)

theorem literal_escaped {s : Str} (h : '\\' ∉ s ∧ '\n' ∉ s ∧ '\r' ∉ s) : Literal (escapeQuotes s) s := by
  induction s with
  | nil => exact .done
  | cons c s ih =>
    simp only [List.mem_cons, not_or] at h
    have ih := ih ⟨h.1.2, h.2.1.2, h.2.2.2⟩
    unfold escapeQuotes at ih ⊢
    rw [List.flatMap_cons]
    by_cases hc : c = '"'
    · subst hc
      exact .quote ih
    · rw [if_neg hc]
      exact .char hc (Ne.symm h.1.1) (Ne.symm h.2.1.1) (Ne.symm h.2.2.1) ih

theorem plain_mem {l : List Str} (h : Plain l) {s : Str} (hs : s ∈ l) : '"' ∉ s ∧ '\\' ∉ s ∧ '\n' ∉ s ∧ '\r' ∉ s :=
  ⟨h.1 s hs, h.2.1 s hs, h.2.2.1 s hs, h.2.2.2 s hs⟩

theorem quoted_plain {s : Str} (h : '"' ∉ s ∧ '\\' ∉ s ∧ '\n' ∉ s ∧ '\r' ∉ s) : Expr (quoted s) (.str s) :=
  .str (literal_plain h)

theorem blank_append {a b : Str} (ha : Blank a) (hb : Blank b) : Blank (a ++ b) := by
  intro c hc
  rcases List.mem_append.mp hc with h | h
  · exact ha c h
  · exact hb c h

theorem blank_dec {a : Str} (h : (a.all fun c => c == ' ' || c == '\n') = true) : Blank a := by
  intro c hc
  have := List.all_eq_true.mp h c hc
  simpa using this

/-- Items that each end with a comma. -/
theorem items_terms {α : Type} (f : α → Str) (g : α → Py) {l : List α} (h : ∀ x ∈ l, Expr (f x) (g x)) {a lead trail : Str}
    (ha : Blank a) (hl : Blank lead) (ht : Blank trail) : Items (a ++ l.flatMap fun x => lead ++ f x ++ ',' :: trail) (l.map g) := by
  induction l generalizing a with
  | nil => rw [List.flatMap_nil, List.append_nil]; exact .none ha
  | cons x l ih =>
    have h1 := ih (fun y hy => h y (List.mem_cons_of_mem _ hy)) ht
    have := Items.more (blank_append ha hl) (h x (List.mem_cons_self ..)) (b := []) (fun c hc => by cases hc) h1
    rw [List.flatMap_cons, List.map_cons]
    simpa using this

/-- Items with commas between them. -/
theorem items_join {α : Type} (f : α → Str) (g : α → Py) {l : List α} (h : ∀ x ∈ l, Expr (f x) (g x)) {a sp b : Str}
    (ha : Blank a) (hs : Blank sp) (hb : Blank b) : Items (a ++ joinWith (',' :: sp) (l.map f) ++ b) (l.map g) := by
  induction l generalizing a with
  | nil =>
    show Items (a ++ [] ++ b) []
    rw [List.append_nil]
    exact .none (blank_append ha hb)
  | cons x l ih =>
    have hx := h x (List.mem_cons_self ..)
    cases l with
    | nil => exact .last ha hx hb
    | cons y l =>
      have h1 := ih (fun y hy => h y (List.mem_cons_of_mem _ hy)) hs
      have := Items.more ha hx (b := []) (fun c hc => by cases hc) h1
      simp only [List.map_cons, joinWith] at this ⊢
      simpa using this

theorem program_append {a b : Str} {l m : List Stmt} (ha : Program a l) (hb : Program b m) : Program (a ++ b) (l ++ m) := by
  induction ha with
  | done => exact hb
  | blank _ ih => exact .blank ih
  | comment ht _ ih => rw [List.append_assoc]; exact .comment ht ih
  | assign h1 h2 h3 _ ih =>
    rw [List.append_assoc]
    exact .assign h1 h2 h3 ih
  | function h1 h2 h3 h4 _ ih =>
    rw [List.append_assoc]
    exact .function h1 h2 h3 h4 ih

/-- A name of a field. -/
def Ident (n : Str) : Prop := (n.all fun c => isAlpha c || c == '_') = true ∧ n ≠ []

theorem program_assign {n t : Str} {e : Py} (hn : Ident n) (h : Expr t e) : Program (n ++ c!" = " ++ t ++ c!"\n") [.assign n e] := by
  have := Program.assign (List.all_eq_true.mp hn.1) hn.2 h .done
  rwa [List.append_nil] at this

theorem program_text {n : Str} {o : Option Str} (hn : Ident n) (h : ∀ s ∈ o, '"' ∉ s ∧ '\\' ∉ s ∧ '\n' ∉ s ∧ '\r' ∉ s) :
    Program (o.elim [] fun s => n ++ c!" = " ++ quoted s ++ c!"\n") (textStmt n o) := by
  cases o with
  | none => exact .done
  | some s => exact program_assign hn (quoted_plain (h s rfl))

theorem program_lines {n : Str} {l : List Str} (hn : Ident n) (h : ∀ s ∈ l, '"' ∉ s ∧ '\\' ∉ s ∧ '\n' ∉ s ∧ '\r' ∉ s) :
    Program (pyLines n l) (listStmt n l) := by
  unfold pyLines listStmt
  cases l with
  | nil => exact .done
  | cons x l =>
    have h1 := items_terms quoted Py.str (fun s hs => quoted_plain (h s hs)) (a := c!"\n") (lead := c!"    ") (trail := c!"\n")
      (blank_dec rfl) (blank_dec rfl) (blank_dec rfl)
    have h2 := program_assign hn (.list h1)
    simp only [List.isEmpty_cons, Bool.false_eq_true, if_false]
    refine cast (congrArg (Program · _) ?_) h2
    have : (fun s => c!"    " ++ quoted s ++ ',' :: c!"\n") = fun s => c!"    \"" ++ s ++ c!"\",\n" := by
      funext s; simp [quoted]
    rw [this]
    simp

theorem items_block {α : Type} (f : α → Str) (g : α → Py) : ∀ (l : List α) (a : Str), Blank a → (∀ s ∈ l, Expr (f s) (g s)) →
    Items (a ++ joinWith c!",\n" (l.map fun r => c!"    " ++ f r) ++ c!"\n") (l.map g) := by
  intro l
  induction l with
  | nil => intro a ha _; exact .none (blank_append (by simpa [joinWith] using ha) (blank_dec rfl))
  | cons y l ih =>
    intro a ha hl
    have hy := hl y (List.mem_cons_self ..)
    cases l with
    | nil =>
      have := Items.last (blank_append ha (blank_dec (a := c!"    ") rfl)) hy (blank_dec (a := c!"\n") rfl)
      simpa [joinWith] using this
    | cons z l =>
      have h1 := ih c!"\n" (blank_dec rfl) fun s hs => hl s (List.mem_cons_of_mem _ hs)
      have := Items.more (blank_append ha (blank_dec (a := c!"    ") rfl)) hy (b := []) (fun c hc => by cases hc) h1
      simp only [List.map_cons, joinWith] at this ⊢
      simpa using this

theorem program_block {n : Str} {l : List Str} (hn : Ident n) (h : ∀ s ∈ l, '"' ∉ s ∧ '\\' ∉ s ∧ '\n' ∉ s ∧ '\r' ∉ s) :
    Program ((pyBlock n l).flatMap (· ++ c!"\n")) (listStmt n l) := by
  unfold pyBlock listStmt
  cases l with
  | nil => exact .done
  | cons x l =>
    have h1 := items_block quoted Py.str (x :: l) c!"\n" (blank_dec rfl) fun s hs => quoted_plain (h s hs)
    have h2 := program_assign hn (.list h1)
    simp only [List.isEmpty_cons, Bool.false_eq_true, if_false]
    refine cast (congrArg (Program · _) ?_) h2
    simp

theorem variant_expr {v : List Str} (h : ∀ s ∈ v, '"' ∉ s ∧ '\\' ∉ s ∧ '\n' ∉ s ∧ '\r' ∉ s) :
    Expr (c!"[" ++ joinWith c!", " (v.map quoted) ++ c!"]") (.list (v.map .str)) := by
  have h1 := items_join quoted Py.str (fun s hs => quoted_plain (h s hs)) (a := []) (sp := c!" ") (b := [])
    (blank_dec rfl) (blank_dec rfl) (blank_dec rfl)
  have := Expr.list h1
  simpa using this

theorem ident_dec {n : Str} (h : ((n.all fun c => isAlpha c || c == '_') && !n.isEmpty) = true) : Ident n := by
  rw [Bool.and_eq_true] at h
  refine ⟨h.1, ?_⟩
  rintro rfl
  simp at h

end SerialLemmas

/-- C135: what `save_to_python` writes says what the package is, as far as it is written, if no text has quotes,
backslashes or line breaks. -/
theorem C135_python_partial (now : Str) (o : Options) (p : Pkg) (hn : '\n' ∉ now) (hp : Plain (savedTexts p)) :
    Program (toPython now o p) (saved p) := by
  have hm : ∀ {s : Str}, s ∈ savedTexts p → '"' ∉ s ∧ '\\' ∉ s ∧ '\n' ∉ s ∧ '\r' ∉ s := fun hs => plain_mem hp hs
  have h0 : Program (if o.metadata && o.timestamps then c!"# Generated by rez-next serializer at " ++ now ++ c!"\n# Do not edit manually\n\n" else []) [] := by
    split
    · have h1 : Program (c!"# Do not edit manually\n" ++ c!"\n") [] := Program.comment (t := c!" Do not edit manually") (by decide) (.blank .done)
      have h2 := Program.comment (t := c!" Generated by rez-next serializer at " ++ now) (by
        rw [List.mem_append, not_or]
        exact ⟨by decide, hn⟩) h1
      simpa using h2
    · exact .done
  have h1 : Program (c!"name = \"" ++ p.name ++ c!"\"\n") [.assign c!"name" (.str p.name)] := by
    have := program_text (n := c!"name") (o := some p.name) (ident_dec rfl) (by
      intro s hs; cases hs; exact hm (by simp [savedTexts]))
    simpa [quoted, textStmt] using this
  have h2 : Program (p.version.elim [] fun v => c!"version = \"" ++ v.asStr ++ c!"\"\n") (textStmt c!"version" (p.version.map Version.asStr)) := by
    have := program_text (n := c!"version") (o := p.version.map Version.asStr) (ident_dec rfl) (by
      intro s hs; exact hm (by simp only [savedTexts, List.mem_append, Option.mem_toList]; tauto))
    cases hv : p.version with
    | none => exact .done
    | some v => rw [hv] at this; simpa [quoted] using this
  have h3 : Program (p.description.elim [] fun d => c!"description = \"" ++ d ++ c!"\"\n") (textStmt c!"description" p.description) := by
    have := program_text (n := c!"description") (o := p.description) (ident_dec rfl) (by
      intro s hs; exact hm (by simp only [savedTexts, List.mem_append, Option.mem_toList]; tauto))
    cases hv : p.description with
    | none => exact .done
    | some v => rw [hv] at this; simpa [quoted] using this
  have h4 := program_lines (n := c!"authors") (l := p.authors) (ident_dec rfl) fun s hs => hm (by simp [savedTexts, hs])
  have h5 := program_lines (n := c!"requires") (l := p.requires) (ident_dec rfl) fun s hs => hm (by simp [savedTexts, hs])
  have h6 := program_lines (n := c!"build_requires") (l := p.buildRequires) (ident_dec rfl) fun s hs => hm (by simp [savedTexts, hs])
  have h8 := program_lines (n := c!"tools") (l := p.tools) (ident_dec rfl) fun s hs => hm (by simp [savedTexts, hs])
  have h7 : Program (if p.variants.isEmpty then [] else c!"variants = [\n" ++ p.variants.flatMap pyVariant ++ c!"]\n") (variantStmt p.variants) := by
    unfold variantStmt
    cases hv : p.variants.isEmpty with
    | true => exact .done
    | false =>
      have hx : ∀ v ∈ p.variants, Expr (c!"[" ++ joinWith c!", " (v.map quoted) ++ c!"]") (.list (v.map .str)) := by
        intro v hv
        exact variant_expr fun s hs => hm (by
          simp only [savedTexts, List.mem_append]
          exact Or.inl (Or.inr (List.mem_flatten.mpr ⟨v, hv, hs⟩)))
      have i1 := items_terms (l := p.variants) _ (fun v : List Str => Py.list (v.map Py.str)) hx (a := c!"\n") (lead := c!"    ") (trail := c!"\n")
        (blank_dec rfl) (blank_dec rfl) (blank_dec rfl)
      have i2 := program_assign (n := c!"variants") (ident_dec rfl) (.list i1)
      simp only [Bool.false_eq_true, if_false]
      refine cast (congrArg (Program · _) ?_) i2
      have : (fun v : List Str => c!"    " ++ (c!"[" ++ joinWith c!", " (v.map quoted) ++ c!"]") ++ ',' :: c!"\n") = pyVariant := by
        funext v
        have hq : (fun s => c!"\"" ++ s ++ c!"\"") = quoted := rfl
        rw [pyVariant, hq]
        simp
      rw [this]
      simp
  have := program_append (program_append (program_append (program_append (program_append (program_append (program_append
    (program_append h0 h1) h2) h3) h4) h5) h6) h7) h8
  refine cast (congr (congrArg Program ?_) ?_) this
  · simp only [toPython, List.append_assoc]
  · simp only [saved, List.nil_append, List.append_assoc]

/-- A package without quotes. -/
def SerialLemmas.bag : Pkg := { box with description := some c!"A bag" }

theorem SerialLemmas.bag_plain : Plain (savedTexts bag) := by
  unfold Plain Without
  exact ⟨by decide, by decide, by decide, by decide⟩

example : Program (toPython c!"noon" Options.new bag) (saved bag) := C135_python_partial _ _ bag (by decide) bag_plain

namespace SerialLemmas

theorem join_lines {l : List Str} (h : l ≠ []) : joinWith c!"\n" l ++ c!"\n" = l.flatMap (· ++ c!"\n") := by
  induction l with
  | nil => exact absurd rfl h
  | cons x l ih =>
    cases l with
    | nil => simp [joinWith]
    | cons y l =>
      have := ih (by simp)
      rw [joinWith, List.flatMap_cons, ← this]
      simp

theorem linesOf_clean {s l : Str} (h : l ∈ linesOf s) : '\n' ∉ l := by
  unfold linesOf at h
  rcases List.mem_append.1 h with h | h
  · obtain ⟨x, hx, rfl⟩ := List.mem_map.mp h
    have hn := RexLemmas.splitChar_mem (List.dropLast_subset _ hx)
    split
    · exact fun hc => hn (List.dropLast_subset _ hc)
    · exact hn
  · have := List.mem_of_mem_filter h
    rw [Option.mem_toList] at this
    exact RexLemmas.splitChar_mem (List.mem_of_mem_getLast? this)

theorem program_function {n : Str} {o : Option Str} (hn : Ident n) (h : HasBody o) :
    Program ((pyFunction n o).flatMap (· ++ c!"\n")) (functionStmt n o) := by
  cases o with
  | none => exact .done
  | some s =>
    have hb := h s rfl
    have hw : Without '\n' (bodyOf s) := by
      intro l hl
      obtain ⟨x, hx, rfl⟩ := List.mem_map.mp hl
      split
      · simp
      · exact linesOf_clean hx
    have hp := Program.blank (Program.function (List.all_eq_true.mp hn.1) hn.2 hb hw .done)
    refine cast (congrArg (Program · _) ?_) hp
    have hi : indented (bodyOf s) =
        ((linesOf s).map fun l => if (trim l).isEmpty then [] else c!"    " ++ l).flatMap (· ++ c!"\n") := by
      unfold indented bodyOf
      rw [List.flatMap_map, List.flatMap_map]
      congr 1
      funext l
      by_cases ht : (trim l).isEmpty = true
      · simp [ht]
      · have hl : l ≠ [] := by rintro rfl; exact ht rfl
        simp [ht, hl]
    show '\n' :: (c!"def " ++ n ++ c!"():\n" ++ indented (bodyOf s) ++ []) = ((c!"\ndef " ++ n ++ c!"():") :: _).flatMap _
    rw [hi, List.flatMap_cons]
    simp

theorem program_escaped {n : Str} {o : Option Str} (hn : Ident n) (h : ∀ s ∈ o, '\\' ∉ s ∧ '\n' ∉ s ∧ '\r' ∉ s) :
    Program ((o.elim [] fun d => [n ++ c!" = " ++ quoted (escapeQuotes d)]).flatMap (· ++ c!"\n")) (textStmt n o) := by
  cases o with
  | none => exact .done
  | some s =>
    have := program_assign hn (.str (literal_escaped (h s rfl)))
    simpa [quoted, textStmt] using this

theorem program_plain {n : Str} {o : Option Str} (hn : Ident n) (h : ∀ s ∈ o, '"' ∉ s ∧ '\\' ∉ s ∧ '\n' ∉ s ∧ '\r' ∉ s) :
    Program ((o.elim [] fun d => [n ++ c!" = " ++ quoted d]).flatMap (· ++ c!"\n")) (textStmt n o) := by
  cases o with
  | none => exact .done
  | some s =>
    have := program_assign hn (quoted_plain (h s rfl))
    simpa [quoted, textStmt] using this

theorem program_inline {n : Str} {l : List Str} (f : Str → Str) (hn : Ident n) (h : ∀ s ∈ l, Expr (f s) (.str s)) :
    Program ((if l.isEmpty then [] else [n ++ c!" = [" ++ joinWith c!", " (l.map f) ++ c!"]"]).flatMap (· ++ c!"\n")) (listStmt n l) := by
  unfold listStmt
  cases hl : l.isEmpty with
  | true => exact .done
  | false =>
    have h1 := items_join f Py.str h (a := []) (sp := c!" ") (b := []) (blank_dec rfl) (blank_dec rfl) (blank_dec rfl)
    have := program_assign hn (.list h1)
    simpa using this

end SerialLemmas

/-- C135: what `to_package_py` writes says what the package is, as far as it is written: quotes in the description and in
authors are escaped.  The other texts must be plain; there must be no flags and no tests, and no function without a body. -/
theorem C135_package_py_partial (p : Pkg) (hr : Plain (rawTexts p)) (he : Without '\\' (escapedTexts p)) (hl : Without '\n' (escapedTexts p))
    (hc : Without '\r' (escapedTexts p)) (hrel : p.relocatable = none) (hcach : p.cachable = none) (ht : p.tests = [])
    (h1 : HasBody p.commands) (h2 : HasBody p.preCommands) (h3 : HasBody p.postCommands) :
    Program (toPackagePy p ++ c!"\n") (described p) := by
  have hm : ∀ {s : Str}, s ∈ rawTexts p → '"' ∉ s ∧ '\\' ∉ s ∧ '\n' ∉ s ∧ '\r' ∉ s := fun hs => plain_mem hr hs
  have hx : ∀ {s : Str}, s ∈ escapedTexts p → '\\' ∉ s ∧ '\n' ∉ s ∧ '\r' ∉ s := fun hs => ⟨he _ hs, hl _ hs, hc _ hs⟩
  have q1 : Program ([c!"name = " ++ quoted p.name].flatMap (· ++ c!"\n")) [.assign c!"name" (.str p.name)] := by
    have := program_plain (n := c!"name") (o := some p.name) (ident_dec rfl) (by
      intro s hs; cases hs; exact hm (by simp [rawTexts]))
    simpa [textStmt] using this
  have q2 : Program ((p.version.elim [] fun v => [c!"version = " ++ quoted v.asStr]).flatMap (· ++ c!"\n"))
      (textStmt c!"version" (p.version.map Version.asStr)) := by
    have := program_plain (n := c!"version") (o := p.version.map Version.asStr) (ident_dec rfl) (by
      intro s hs; exact hm (by simp only [rawTexts, List.mem_append, Option.mem_toList]; tauto))
    cases hv : p.version with
    | none => exact .done
    | some v => rw [hv] at this; simpa using this
  have q3 := program_escaped (n := c!"description") (o := p.description) (ident_dec rfl) (by
    intro s hs; exact hx (by simp only [escapedTexts, List.mem_append, Option.mem_toList]; tauto))
  have q4 := program_inline (n := c!"authors") (l := p.authors) (fun a => quoted (escapeQuotes a)) (ident_dec rfl) fun s hs =>
    .str (literal_escaped (hx (by simp [escapedTexts, hs])))
  have q5 := program_block (n := c!"requires") (l := p.requires) (ident_dec rfl) fun s hs => hm (by simp [rawTexts, hs])
  have q6 := program_block (n := c!"build_requires") (l := p.buildRequires) (ident_dec rfl) fun s hs => hm (by simp [rawTexts, hs])
  have q7 := program_block (n := c!"private_build_requires") (l := p.privateBuildRequires) (ident_dec rfl) fun s hs => hm (by simp [rawTexts, hs])
  have q8 : Program ((if p.variants.isEmpty then []
      else [c!"variants = [\n" ++ joinWith c!",\n" (p.variants.map fun v => c!"    [" ++ joinWith c!", " (v.map quoted) ++ c!"]") ++ c!"\n]"]).flatMap
        (· ++ c!"\n")) (variantStmt p.variants) := by
    unfold variantStmt
    cases hv : p.variants.isEmpty with
    | true => exact .done
    | false =>
      have hx : ∀ v ∈ p.variants, Expr (c!"[" ++ joinWith c!", " (v.map quoted) ++ c!"]") (.list (v.map .str)) := by
        intro v hv
        exact variant_expr fun s hs => hm (by
          simp only [rawTexts, List.mem_append]
          exact Or.inl (Or.inl (Or.inr (List.mem_flatten.mpr ⟨v, hv, hs⟩))))
      have i1 := items_block _ (fun v : List Str => Py.list (v.map Py.str)) p.variants c!"\n" (blank_dec rfl) hx
      have i2 := program_assign (n := c!"variants") (ident_dec rfl) (.list i1)
      simp only [Bool.false_eq_true, if_false]
      refine cast (congrArg (Program · _) ?_) i2
      simp
  have q9 := program_inline (n := c!"tools") (l := p.tools) quoted (ident_dec rfl) fun s hs => quoted_plain (hm (by simp [rawTexts, hs]))
  have q10 := program_plain (n := c!"uuid") (o := p.uuid) (ident_dec rfl) (by
    intro s hs; exact hm (by simp only [rawTexts, List.mem_append, Option.mem_toList]; tauto))
  have q11 := program_function (n := c!"commands") (ident_dec rfl) h1
  have q12 := program_function (n := c!"pre_commands") (ident_dec rfl) h2
  have q13 := program_function (n := c!"post_commands") (ident_dec rfl) h3
  have := program_append (program_append (program_append (program_append (program_append (program_append (program_append
    (program_append (program_append (program_append (program_append (program_append q1 q2) q3) q4) q5) q6) q7) q8) q9) q10) q11) q12) q13
  refine cast (congr (congrArg Program ?_) ?_) this
  · unfold toPackagePy
    rw [join_lines (by simp [pyParts])]
    unfold pyParts
    rw [hrel, hcach, ht]
    simp only [List.flatMap_append, Option.elim, List.isEmpty_nil, if_true, List.append_nil, List.flatMap_nil]
    rfl
  · simp only [described, List.append_assoc]

example : Program (toPackagePy { box with tests := [] } ++ c!"\n") (described { box with tests := [] }) :=
  C135_package_py_partial _ (by unfold Plain Without; exact ⟨by decide, by decide, by decide, by decide⟩) (by unfold Without; decide)
    (by unfold Without; decide) (by unfold Without; decide) rfl rfl rfl (by intro s hs; cases hs; exact ⟨c!"env.X = 1", by decide, by decide⟩)
    (fun _ h => (by cases h)) (fun _ h => (by cases h))

/-- C135 is false for other texts: one requirement that has a quote is written like two. -/
theorem C135_injection_false :
    ∃ p q : Pkg, p.requires = [c!"a\",\n    \"b"] ∧ q.requires = [c!"a", c!"b"] ∧ toPackagePy p = toPackagePy q ∧
      ∀ now o, toPython now o p = toPython now o q := by
  refine ⟨{ Pkg.new c!"x" with requires := [c!"a\",\n    \"b"] }, { Pkg.new c!"x" with requires := [c!"a", c!"b"] }, rfl, rfl,
    by decide +kernel, ?_⟩
  intro now o
  simp [toPython, pyLines, Pkg.new]

/-- C135 is false for backslashes: a description that ends with one is written as an open string, and two are read as one. -/
theorem C135_backslash_false :
    (∃ p : Pkg, p.description = some c!"C:\\" ∧ c!"description = \"C:\\\"" ∈ pyParts p ∧ ¬ ∃ e, Expr c!"\"C:\\\"" e) ∧
    ∃ p : Pkg, p.description = some c!"a\\\\b" ∧
      Program (toPackagePy p ++ c!"\n") [.assign c!"name" (.str c!"x"), .assign c!"description" (.str c!"a\\b")] := by
  refine ⟨⟨{ Pkg.new c!"x" with description := some c!"C:\\" }, rfl, by decide +kernel, ?_⟩,
    ⟨{ Pkg.new c!"x" with description := some c!"a\\\\b" }, rfl, ?_⟩⟩
  · rintro ⟨e, he⟩
    generalize hs : c!"\"C:\\\"" = t at he
    cases he with
    | @str s m h =>
      have hs' : s = c!"C:\\" := by
        have : c!"C:\\" ++ ['"'] = s ++ ['"'] := by simpa using hs
        exact (List.append_inj_left' this rfl).symm
      subst hs'
      cases h with
      | char _ _ _ _ h =>
        cases h with
        | char _ _ _ _ h =>
          cases h with
          | char _ h2 _ _ h => exact h2 rfl
    | single _ => simp at hs
    | true => simp at hs
    | false => simp at hs
    | list _ => simp at hs
  · have h1 := program_assign (n := c!"name") (ident_dec rfl) (quoted_plain (s := c!"x") (by decide))
    have h2 := program_assign (n := c!"description") (ident_dec rfl) (.str (s := c!"a\\\\b") (m := c!"a\\b")
      (.char (by decide) (by decide) (by decide) (by decide) (.backslash (.char (by decide) (by decide) (by decide) (by decide) .done))))
    exact program_append h1 h2

/-- C135 is false for flags: `true` is no Python. -/
theorem C135_bool_false :
    ∃ p : Pkg, p.relocatable = some true ∧ c!"relocatable = true" ∈ pyParts p ∧ ¬ ∃ e, Expr c!"true" e := by
  refine ⟨{ Pkg.new c!"x" with relocatable := some true }, rfl, by decide +kernel, ?_⟩
  rintro ⟨e, he⟩
  generalize hs : c!"true" = t at he
  cases he <;> simp at hs

/-- C135 is false for tests: what they run is not written; for functions that are empty, which are written without a body; and
for most other fields. -/
theorem C135_lost_false :
    (∃ p q : Pkg, p.tests = [(c!"t", c!"pytest")] ∧ q.tests = [(c!"t", c!"true")] ∧ toPackagePy p = toPackagePy q) ∧
    (∃ p : Pkg, p.commands = some [] ∧ toPackagePy p = c!"name = \"x\"\n\ndef commands():") ∧
    (∃ p : Pkg, p.help = some c!"https://x" ∧ p.hashedVariants = some true ∧ toPackagePy p = toPackagePy (Pkg.new c!"x")) ∧
    ∃ p : Pkg, p.commands = some c!"env.X = 1" ∧ p.privateBuildRequires = [c!"gcc"] ∧ ∀ now o, toPython now o p = toPython now o (Pkg.new c!"x") :=
  ⟨⟨{ Pkg.new c!"x" with tests := [(c!"t", c!"pytest")] }, { Pkg.new c!"x" with tests := [(c!"t", c!"true")] }, rfl, rfl, rfl⟩,
    ⟨{ Pkg.new c!"x" with commands := some [] }, rfl, by decide +kernel⟩,
    ⟨{ Pkg.new c!"x" with help := some c!"https://x", hashedVariants := some true }, rfl, rfl, rfl⟩,
    ⟨{ Pkg.new c!"x" with commands := some c!"env.X = 1", privateBuildRequires := [c!"gcc"] }, rfl, rfl, fun _ _ => rfl⟩⟩

/-! ## C136 -/

namespace SerialLemmas

theorem fold_exclude (l : List Str) (p : Pkg) : l.foldl excludeField p =
    { p with
      description := if c!"description" ∈ l then none else p.description
      help := if c!"help" ∈ l then none else p.help
      authors := if c!"authors" ∈ l then [] else p.authors
      tools := if c!"tools" ∈ l then [] else p.tools } := by
  induction l generalizing p with
  | nil => simp
  | cons k l ih =>
    rw [List.foldl_cons, ih]
    unfold excludeField
    by_cases h1 : k = c!"description"
    · subst h1; simp
    · by_cases h2 : k = c!"help"
      · subst h2; simp
      · by_cases h3 : k = c!"authors"
        · subst h3; simp
        · by_cases h4 : k = c!"tools"
          · subst h4; simp
          · simp [h1, h2, h3, h4, Ne.symm h1, Ne.symm h2, Ne.symm h3, Ne.symm h4]

theorem fold_include (p : Pkg) (l : List Str) (q : Pkg) : l.foldl (includeField p) q =
    { q with
      version := if c!"version" ∈ l then p.version else q.version
      description := if c!"description" ∈ l then p.description else q.description
      authors := if c!"authors" ∈ l then p.authors else q.authors
      requires := if c!"requires" ∈ l then p.requires else q.requires
      buildRequires := if c!"build_requires" ∈ l then p.buildRequires else q.buildRequires
      variants := if c!"variants" ∈ l then p.variants else q.variants
      tools := if c!"tools" ∈ l then p.tools else q.tools } := by
  induction l generalizing q with
  | nil => simp
  | cons k l ih =>
    rw [List.foldl_cons, ih]
    unfold includeField
    by_cases h1 : k = c!"version"
    · subst h1; simp
    · by_cases h2 : k = c!"description"
      · subst h2; simp
      · by_cases h3 : k = c!"authors"
        · subst h3; simp
        · by_cases h4 : k = c!"requires"
          · subst h4; simp
          · by_cases h5 : k = c!"build_requires"
            · subst h5; simp
            · by_cases h6 : k = c!"variants"
              · subst h6; simp
              · by_cases h7 : k = c!"tools"
                · subst h7; simp
                · simp [h1, h2, h3, h4, h5, h6, h7, Ne.symm h1, Ne.symm h2, Ne.symm h3, Ne.symm h4, Ne.symm h5, Ne.symm h6, Ne.symm h7]

theorem save_filtered (c : Codecs) (metadata : Value) (now : Str) (o : Options) (p q : Pkg) (f : Format) (hf : f ≠ .binary)
    (h : filterFields o p = q) : save c metadata now (some o) p f = save c metadata now (some (unfiltered o)) q f := by
  have hq : filterFields (unfiltered o) q = q := rfl
  unfold save
  rw [if_neg hf, if_neg hf]
  have : saveText c metadata now o p f = saveText c metadata now (unfiltered o) q f := by
    unfold saveText
    rw [h, hq]
    rfl
  simp only [Option.getD_some]
  rw [this]
  rfl

end SerialLemmas

/-- C136, partial: without `include_fields`, what is saved is the package without the excluded fields, if they are
description, help, authors or tools. -/
theorem C136_exclude_partial (c : Codecs) (metadata : Value) (now : Str) (o : Options) (p : Pkg) (f : Format) (hf : f ≠ .binary)
    (hi : o.includeOnly = none) :
    save c metadata now (some o) p f = save c metadata now (some (unfiltered o)) (dropped o p) f := by
  refine save_filtered c metadata now o p _ f hf ?_
  have hk : ∀ k, kept o k ↔ k ∉ o.exclude.getD [] := by
    intro k
    unfold kept excluded
    rw [hi]
    cases o.exclude <;> simp
  unfold filterFields
  rw [hi]
  simp only
  rw [fold_exclude]
  unfold dropped
  simp only [hk]
  congr 1 <;> split <;> simp_all

/-- C136, partial: with `include_fields`, what is saved is the package with these fields and no others, if they are name, version,
description, authors, requires, build_requires, variants or tools; of those excluded as well, description, authors and tools
are left out. -/
theorem C136_include_partial (c : Codecs) (metadata : Value) (now : Str) (o : Options) (p : Pkg) (f : Format) (hf : f ≠ .binary)
    (l : List Str) (hi : o.includeOnly = some l) :
    save c metadata now (some o) p f = save c metadata now (some (unfiltered o)) (chosen o l p) f := by
  refine save_filtered c metadata now o p _ f hf ?_
  have hk : ∀ k, kept o k ↔ k ∉ o.exclude.getD [] ∧ k ∈ l := by
    intro k
    unfold kept excluded
    rw [hi]
    cases o.exclude <;> simp
  unfold filterFields
  rw [hi]
  simp only
  rw [fold_include, fold_exclude]
  unfold chosen Pkg.new
  simp only [hk]
  congr 1 <;> (repeat' split) <;> simp_all

example : chosen { Options.new with includeOnly := some [c!"version", c!"tools"], exclude := some [c!"tools"] } [c!"version", c!"tools"] box =
    { Pkg.new c!"box" with version := Version.parse c!"1.2" } := by
  simp [chosen, kept, excluded, box, Pkg.new]

/-- C136 is false for other fields: a requirement cannot be excluded, the help cannot be kept; and binary files have all fields. -/
theorem C136_false (c : Codecs) (metadata : Value) (now : Str) (p : Pkg) :
    (∀ f, save c metadata now (some { Options.new with exclude := some [c!"requires"] }) p f = save c metadata now none p f) ∧
    (∀ f, f ≠ .binary → save c metadata now (some { Options.new with includeOnly := some [c!"help"] }) p f =
      save c metadata now none (Pkg.new p.name) f) ∧
    ∀ o, save c metadata now o p .binary = save c metadata now none p .binary := by
  refine ⟨?_, ?_, fun o => rfl⟩
  · intro f
    cases f <;> rfl
  · intro f hf
    cases f <;> first | rfl | exact absurd rfl hf

end Rez.Props
