import Verif.Spec.PyPackage
import Verif.Props.Serialization
/-!
# C242: packages as Python objects
-/
namespace Rez.Props
open Rez Rez.Serial Rez.Spec.Serial Rez.Spec.PyPackage
open Rez.PyPackage (fromDict toDict toPy integer entries unlessEmpty conflictText reqEq reqHash listLines variantLines descriptionLines
  flagLines linesBefore linesAfter)

namespace PyPackageLemmas

theorem field_iff {α : Type} {d : Fields} {k : Str} {f : Value → Option α} {R : Value → α → Prop} (h : ∀ v x, f v = some x ↔ R v x)
    (new x : α) : field d k f new = some x ↔ Given d k R new x := by
  unfold field Given
  cases mget d k with
  | none => simp [eq_comm]
  | some v => simp [h]

theorem text_iff (v : Value) (x : Option Str) : (text v).map some = some x ↔ Text v x := by
  cases v <;> simp [text, Text, eq_comm]

theorem flag_iff (v : Value) (x : Option Bool) : (flag v).map some = some x ↔ Flag v x := by
  cases v <;> simp [flag, Flag, eq_comm]

theorem vers_iff (v : Value) (x : Option Version) : (versionText v).map some = some x ↔ Vers v x := by
  cases v <;> simp [versionText, Vers, eq_comm]

theorem number_iff (bits : Nat) (v : Value) (x : Option Int) : (integer bits v).map some = some x ↔ Number bits v x := by
  cases v with
  | bool b => cases b <;> simp [integer, Number, eq_comm]
  | num n =>
    simp only [integer, number, Number]
    split
    · rename_i h
      simp only [Option.map_some, Option.some.injEq, Value.num.injEq, reduceCtorEq, false_and, or_false]
      constructor
      · rintro rfl; exact ⟨n, rfl, rfl, h⟩
      · rintro ⟨m, rfl, rfl, _⟩; rfl
    · rename_i h
      simp only [Option.map_none, reduceCtorEq, false_iff]
      rintro (⟨m, hm, -, hr⟩ | ⟨hm, -⟩ | ⟨hm, -⟩)
      · cases hm; exact h hr
      · cases hm
      · cases hm
  | _ => simp [integer, number, Number]

theorem mapM_iff {α : Type} {f : Value → Option α} {g : α → Value} (h : ∀ v x, f v = some x ↔ v = g x) (l : List Value) (x : List α) :
    l.mapM f = some x ↔ l = x.map g := by
  induction l generalizing x with
  | nil => cases x <;> simp
  | cons v l ih =>
    cases x with
    | nil =>
      simp only [List.mapM_cons, List.map_nil, reduceCtorEq, iff_false]
      cases l.mapM f <;> cases f v <;> simp
    | cons y x =>
      simp only [List.mapM_cons, List.map_cons, List.cons.injEq, ← ih, ← h]
      cases l.mapM f <;> cases f v <;> simp

theorem array_iff {α : Type} {f : Value → Option α} {g : α → Value} (h : ∀ v x, f v = some x ↔ v = g x) (v : Value) (x : List α) :
    array f v = some x ↔ v = .arr (x.map g) := by
  cases v with
  | arr l => rw [array, mapM_iff h]; simp
  | _ => simp [array]

theorem text_eq (v : Value) (x : Str) : text v = some x ↔ v = .str x := by cases v <;> simp [text]

theorem texts_iff (v : Value) (x : List Str) : array text v = some x ↔ Texts v x := array_iff text_eq v x

theorem lists_iff (v : Value) (x : List (List Str)) : array (array text) v = some x ↔ Lists v x := array_iff texts_iff v x

theorem entry_iff (e : Str × Value) (x : Str × Str) : entry e = some x ↔ e = (x.1, .str x.2) := by
  obtain ⟨k, v⟩ := e
  obtain ⟨a, b⟩ := x
  cases v <;> simp [entry, text]

theorem table_iff (v : Value) (x : List (Str × Str)) : table v = some x ↔ Table v x := by
  cases v with
  | obj l =>
    unfold table Table
    simp only [Value.obj.injEq]
    induction l generalizing x with
    | nil => cases x <;> simp
    | cons v l ih =>
      cases x with
      | nil =>
        simp only [List.mapM_cons, List.map_nil, reduceCtorEq, iff_false]
        cases l.mapM entry <;> cases entry v <;> simp
      | cons y x =>
        simp only [List.mapM_cons, List.map_cons, List.cons.injEq, ← ih, ← entry_iff]
        cases l.mapM entry <;> cases entry v <;> simp
  | _ => simp [table, Table]

end PyPackageLemmas
open PyPackageLemmas

set_option maxRecDepth 100000 in
/-- C242: a dictionary gives the package that it describes, and is refused if it describes none. -/
theorem C242_from_dict (d : Fields) (p : Pkg) : fromDict d = some p ↔ Describes d p := by
  constructor
  · intro h
    obtain ⟨_, h0, h⟩ := Option.bind_eq_some_iff.1 h
    obtain ⟨_, h0, h0'⟩ := Option.bind_eq_some_iff.1 h0
    rw [text_eq] at h0'
    subst h0'
    obtain ⟨_, h1, h⟩ := Option.bind_eq_some_iff.1 h
    obtain ⟨_, h2, h⟩ := Option.bind_eq_some_iff.1 h
    obtain ⟨_, h3, h⟩ := Option.bind_eq_some_iff.1 h
    obtain ⟨_, h4, h⟩ := Option.bind_eq_some_iff.1 h
    obtain ⟨_, h5, h⟩ := Option.bind_eq_some_iff.1 h
    obtain ⟨_, h6, h⟩ := Option.bind_eq_some_iff.1 h
    obtain ⟨_, h7, h⟩ := Option.bind_eq_some_iff.1 h
    obtain ⟨_, h8, h⟩ := Option.bind_eq_some_iff.1 h
    obtain ⟨_, h9, h⟩ := Option.bind_eq_some_iff.1 h
    obtain ⟨_, h10, h⟩ := Option.bind_eq_some_iff.1 h
    obtain ⟨_, h11, h⟩ := Option.bind_eq_some_iff.1 h
    obtain ⟨_, h12, h⟩ := Option.bind_eq_some_iff.1 h
    obtain ⟨_, h13, h⟩ := Option.bind_eq_some_iff.1 h
    obtain ⟨_, h14, h⟩ := Option.bind_eq_some_iff.1 h
    obtain ⟨_, h15, h⟩ := Option.bind_eq_some_iff.1 h
    obtain ⟨_, h16, h⟩ := Option.bind_eq_some_iff.1 h
    obtain ⟨_, h17, h⟩ := Option.bind_eq_some_iff.1 h
    obtain ⟨_, h18, h⟩ := Option.bind_eq_some_iff.1 h
    obtain ⟨_, h19, h⟩ := Option.bind_eq_some_iff.1 h
    obtain ⟨_, h20, h⟩ := Option.bind_eq_some_iff.1 h
    obtain ⟨_, h21, h⟩ := Option.bind_eq_some_iff.1 h
    obtain ⟨_, h22, h⟩ := Option.bind_eq_some_iff.1 h
    obtain ⟨_, h23, h⟩ := Option.bind_eq_some_iff.1 h
    obtain ⟨_, h24, h⟩ := Option.bind_eq_some_iff.1 h
    obtain ⟨_, h25, h⟩ := Option.bind_eq_some_iff.1 h
    obtain ⟨_, h26, h⟩ := Option.bind_eq_some_iff.1 h
    obtain ⟨_, h27, h⟩ := Option.bind_eq_some_iff.1 h
    obtain ⟨_, h28, h⟩ := Option.bind_eq_some_iff.1 h
    obtain ⟨_, h29, h⟩ := Option.bind_eq_some_iff.1 h
    obtain ⟨_, h30, h⟩ := Option.bind_eq_some_iff.1 h
    obtain ⟨_, h31, h⟩ := Option.bind_eq_some_iff.1 h
    cases h
    exact ⟨h0, (field_iff vers_iff _ _).1 h1, (field_iff text_iff _ _).1 h2, (field_iff texts_iff _ _).1 h3, (field_iff texts_iff _ _).1 h4, (field_iff texts_iff _ _).1 h5, (field_iff texts_iff _ _).1 h6, (field_iff lists_iff _ _).1 h7, (field_iff texts_iff _ _).1 h8, (field_iff text_iff _ _).1 h9, (field_iff text_iff _ _).1 h10, (field_iff (number_iff _) _ _).1 h11, (field_iff flag_iff _ _).1 h12, (field_iff flag_iff _ _).1 h13, (field_iff (number_iff _) _ _).1 h14, (field_iff text_iff _ _).1 h15, (field_iff text_iff _ _).1 h16, (field_iff text_iff _ _).1 h17, (field_iff text_iff _ _).1 h18, (field_iff flag_iff _ _).1 h19, (field_iff text_iff _ _).1 h20, (field_iff flag_iff _ _).1 h21, (field_iff texts_iff _ _).1 h22, (field_iff text_iff _ _).1 h23, (field_iff text_iff _ _).1 h24, (field_iff text_iff _ _).1 h25, (field_iff text_iff _ _).1 h26, (field_iff text_iff _ _).1 h27, (field_iff text_iff _ _).1 h28, (field_iff text_iff _ _).1 h29, (field_iff table_iff _ _).1 h30, (field_iff table_iff _ _).1 h31,
      rfl, rfl, rfl, rfl, rfl, rfl, rfl, rfl⟩
  · rintro ⟨h0, h1, h2, h3, h4, h5, h6, h7, h8, h9, h10, h11, h12, h13, h14, h15, h16, h17, h18, h19, h20, h21, h22, h23, h24, h25, h26, h27, h28, h29, h30, h31, e1, e2, e3, e4, e5, e6, e7, e8⟩
    refine Option.bind_eq_some_iff.2 ⟨_, Option.bind_eq_some_iff.2 ⟨_, h0, rfl⟩, ?_⟩
    refine Option.bind_eq_some_iff.2 ⟨_, (field_iff vers_iff _ _).2 h1, ?_⟩
    refine Option.bind_eq_some_iff.2 ⟨_, (field_iff text_iff _ _).2 h2, ?_⟩
    refine Option.bind_eq_some_iff.2 ⟨_, (field_iff texts_iff _ _).2 h3, ?_⟩
    refine Option.bind_eq_some_iff.2 ⟨_, (field_iff texts_iff _ _).2 h4, ?_⟩
    refine Option.bind_eq_some_iff.2 ⟨_, (field_iff texts_iff _ _).2 h5, ?_⟩
    refine Option.bind_eq_some_iff.2 ⟨_, (field_iff texts_iff _ _).2 h6, ?_⟩
    refine Option.bind_eq_some_iff.2 ⟨_, (field_iff lists_iff _ _).2 h7, ?_⟩
    refine Option.bind_eq_some_iff.2 ⟨_, (field_iff texts_iff _ _).2 h8, ?_⟩
    refine Option.bind_eq_some_iff.2 ⟨_, (field_iff text_iff _ _).2 h9, ?_⟩
    refine Option.bind_eq_some_iff.2 ⟨_, (field_iff text_iff _ _).2 h10, ?_⟩
    refine Option.bind_eq_some_iff.2 ⟨_, (field_iff (number_iff _) _ _).2 h11, ?_⟩
    refine Option.bind_eq_some_iff.2 ⟨_, (field_iff flag_iff _ _).2 h12, ?_⟩
    refine Option.bind_eq_some_iff.2 ⟨_, (field_iff flag_iff _ _).2 h13, ?_⟩
    refine Option.bind_eq_some_iff.2 ⟨_, (field_iff (number_iff _) _ _).2 h14, ?_⟩
    refine Option.bind_eq_some_iff.2 ⟨_, (field_iff text_iff _ _).2 h15, ?_⟩
    refine Option.bind_eq_some_iff.2 ⟨_, (field_iff text_iff _ _).2 h16, ?_⟩
    refine Option.bind_eq_some_iff.2 ⟨_, (field_iff text_iff _ _).2 h17, ?_⟩
    refine Option.bind_eq_some_iff.2 ⟨_, (field_iff text_iff _ _).2 h18, ?_⟩
    refine Option.bind_eq_some_iff.2 ⟨_, (field_iff flag_iff _ _).2 h19, ?_⟩
    refine Option.bind_eq_some_iff.2 ⟨_, (field_iff text_iff _ _).2 h20, ?_⟩
    refine Option.bind_eq_some_iff.2 ⟨_, (field_iff flag_iff _ _).2 h21, ?_⟩
    refine Option.bind_eq_some_iff.2 ⟨_, (field_iff texts_iff _ _).2 h22, ?_⟩
    refine Option.bind_eq_some_iff.2 ⟨_, (field_iff text_iff _ _).2 h23, ?_⟩
    refine Option.bind_eq_some_iff.2 ⟨_, (field_iff text_iff _ _).2 h24, ?_⟩
    refine Option.bind_eq_some_iff.2 ⟨_, (field_iff text_iff _ _).2 h25, ?_⟩
    refine Option.bind_eq_some_iff.2 ⟨_, (field_iff text_iff _ _).2 h26, ?_⟩
    refine Option.bind_eq_some_iff.2 ⟨_, (field_iff text_iff _ _).2 h27, ?_⟩
    refine Option.bind_eq_some_iff.2 ⟨_, (field_iff text_iff _ _).2 h28, ?_⟩
    refine Option.bind_eq_some_iff.2 ⟨_, (field_iff text_iff _ _).2 h29, ?_⟩
    refine Option.bind_eq_some_iff.2 ⟨_, (field_iff table_iff _ _).2 h30, ?_⟩
    refine Option.bind_eq_some_iff.2 ⟨_, (field_iff table_iff _ _).2 h31, ?_⟩
    cases p
    simp only at e1 e2 e3 e4 e5 e6 e7 e8
    subst e1 e2 e3 e4 e5 e6 e7 e8
    rfl

namespace PyPackageLemmas

theorem mget_absent {l : List (Str × Option Value)} {k : Str} (h : k ∉ l.map (·.1)) : mget l k = none := by
  induction l with
  | nil => rfl
  | cons e l ih =>
    obtain ⟨a, b⟩ := e
    simp only [List.map_cons, List.mem_cons, not_or] at h
    rw [mget, if_neg (Ne.symm h.1)]
    exact ih h.2

theorem mget_filterMap (l : List (Str × Option Value)) (h : (l.map (·.1)).Nodup) (k : Str) :
    mget (l.filterMap fun e => e.2.map fun v => (e.1, v)) k = (mget l k).join := by
  induction l with
  | nil => rfl
  | cons e l ih =>
    obtain ⟨j, o⟩ := e
    rw [List.map_cons, List.nodup_cons] at h
    have ih := ih h.2
    cases o with
    | none =>
      rw [List.filterMap_cons_none (by rfl), ih, mget]
      by_cases hj : j = k
      · subst hj
        have : mget l j = none := mget_absent h.1
        simp [this]
      · simp [hj]
    | some v =>
      rw [List.filterMap_cons_some (by rfl : _ = some (j, v)), mget, mget, ih]
      by_cases hj : j = k <;> simp [hj]

theorem mget_toDict (p : Pkg) (k : Str) : mget (toDict p) k = (mget (entries p) k).join :=
  mget_filterMap _ (by
    have : (entries p).map (·.1) = (entries (Pkg.new [])).map (·.1) := rfl
    rw [this]
    decide) k

theorem given_texts {d : Fields} {k : Str} {l : List Str} (h : mget d k = unlessEmpty ofTexts l) : Given d k Texts [] l := by
  cases l with
  | nil => exact .inl ⟨h, rfl⟩
  | cons x l => exact .inr ⟨_, h, rfl⟩

theorem given_text {d : Fields} {k : Str} {o : Option Str} (h : mget d k = o.map .str) : Given d k Text none o := by
  cases o with
  | none => exact .inl ⟨h, rfl⟩
  | some x => exact .inr ⟨_, h, _, rfl, rfl⟩

theorem given_flag {d : Fields} {k : Str} {o : Option Bool} (h : mget d k = o.map .bool) : Given d k Flag none o := by
  cases o with
  | none => exact .inl ⟨h, rfl⟩
  | some x => exact .inr ⟨_, h, _, rfl, rfl⟩

theorem given_number {d : Fields} {k : Str} {o : Option Int} {bits : Nat} (h : mget d k = o.map .num)
    (hb : ∀ n, o = some n → -(2 ^ bits : Int) ≤ n ∧ n < (2 ^ bits : Int)) : Given d k (Number bits) none o := by
  cases o with
  | none => exact .inl ⟨h, rfl⟩
  | some x => exact .inr ⟨_, h, .inl ⟨x, rfl, rfl, hb x rfl⟩⟩

theorem given_absent {α : Type} {d : Fields} {k : Str} {R : Value → α → Prop} {x : α} (h : mget d k = none) : Given d k R x x :=
  .inl ⟨h, rfl⟩

end PyPackageLemmas

/-- C242: the dictionary of a package describes it, as far as it is told; so the package that it gives has the same dictionary. -/
theorem C242_to_dict (p : Pkg) (h : Made p) : fromDict (toDict p) = some (told p) ∧ toDict (told p) = toDict p := by
  refine ⟨(C242_from_dict _ _).2 ?_, rfl⟩
  constructor
  case name => rw [mget_toDict]; rfl
  case version =>
    have hm : mget (toDict p) c!"version" = p.version.map fun v => .str v.asStr := by rw [mget_toDict]; rfl
    show Given _ _ _ _ p.version
    cases hv : p.version with
    | none => rw [hv] at hm; exact .inl ⟨hm, rfl⟩
    | some v => rw [hv] at hm; exact .inr ⟨_, hm, _, _, rfl, h.version v hv, rfl⟩
  case variants =>
    have hm : mget (toDict p) c!"variants" = unlessEmpty (fun l => .arr (l.map ofTexts)) p.variants := by rw [mget_toDict]; rfl
    show Given _ _ _ _ p.variants
    cases hv : p.variants with
    | nil => rw [hv] at hm; exact .inl ⟨hm, rfl⟩
    | cons v l => rw [hv] at hm; exact .inr ⟨_, hm, rfl⟩
  case timestamp => exact given_number (by rw [mget_toDict]; rfl) h.timestamp
  case formatVersion => exact given_number (by rw [mget_toDict]; rfl) h.formatVersion
  case others => exact ⟨rfl, rfl, rfl, rfl, rfl, rfl, rfl, rfl⟩
  all_goals first
    | exact given_absent (by rw [mget_toDict]; rfl)
    | exact given_text (by rw [mget_toDict]; rfl)
    | exact given_texts (by rw [mget_toDict]; rfl)
    | exact given_flag (by rw [mget_toDict]; rfl)

/-- C242 is false for other attributes: they are not in the dictionary, `help` cannot even be given in one; and a `None` is refused,
although it is what a package without a description has. -/
theorem C242_to_dict_false :
    (∃ p q : Pkg, p.vcs = some c!"git" ∧ q.vcs = none ∧ p.tests ≠ q.tests ∧ toDict p = toDict q) ∧
    (∃ d p, mget d c!"help" = some (.str c!"x") ∧ fromDict d = some p ∧ p.help = none) ∧
    fromDict [(c!"name", .str c!"x"), (c!"description", .null)] = none :=
  ⟨⟨{ Pkg.new c!"x" with vcs := some c!"git", tests := [(c!"t", c!"pytest")] }, Pkg.new c!"x", rfl, rfl, by decide, rfl⟩,
    ⟨[(c!"name", .str c!"x"), (c!"help", .str c!"x")], Pkg.new c!"x", rfl, rfl, rfl⟩, rfl⟩

/-- C242: two packages are equal exactly if they have the same name and their versions the same text, or both none; then they have
the same hash, and look the same. -/
theorem C242_equal {H : Type} (h : List Str → H) (p q : Pkg) :
    (PyPackage.eq p q = true ↔ p.name = q.name ∧ p.version.map Version.asStr = q.version.map Version.asStr) ∧
    (PyPackage.eq p q = true → PyPackage.hash h p = PyPackage.hash h q ∧ PyPackage.show p = PyPackage.show q) := by
  have e : PyPackage.eq p q = true ↔ p.name = q.name ∧ p.version.map Version.asStr = q.version.map Version.asStr := by
    simp [PyPackage.eq]
  refine ⟨e, fun he => ?_⟩
  obtain ⟨h1, h2⟩ := e.1 he
  refine ⟨by rw [PyPackage.hash, PyPackage.hash, h1, h2], ?_⟩
  unfold PyPackage.show
  cases hp : p.version <;> cases hq : q.version <;> simp_all

/-- C242: packages that are not equal may look the same; those that are equal may need different things; and versions that are equal
may have different texts. -/
theorem C242_equal_false :
    (∃ p q : Pkg, PyPackage.show p = PyPackage.show q ∧ PyPackage.eq p q = false) ∧
    (∃ p q : Pkg, PyPackage.eq p q = true ∧ p.requires ≠ q.requires) ∧
    ∃ (p q : Pkg) (v w : Version), p.name = q.name ∧ p.version = some v ∧ q.version = some w ∧ v.eqv w = true ∧ PyPackage.eq p q = false := by
  refine ⟨⟨Pkg.new c!"a-1", { Pkg.new c!"a" with version := Version.parse c!"1" }, by decide +kernel, by decide +kernel⟩,
    ⟨Pkg.new c!"a", { Pkg.new c!"a" with requires := [c!"b"] }, by decide, by decide⟩, ?_⟩
  have h1 : ∃ v, Version.parse c!"1.0" = some v := ⟨_, rfl⟩
  have h2 : ∃ v, Version.parse c!"1-0" = some v := ⟨_, rfl⟩
  obtain ⟨v, hv⟩ := h1
  obtain ⟨w, hw⟩ := h2
  refine ⟨{ Pkg.new c!"a" with version := some v }, { Pkg.new c!"a" with version := some w }, v, w, rfl, rfl, rfl, ?_, ?_⟩
  · have : ((Version.parse c!"1.0").bind fun v => (Version.parse c!"1-0").map fun w => v.eqv w) = some true := by decide +kernel
    simpa [hv, hw] using this
  · have : ((Version.parse c!"1.0").bind fun v => (Version.parse c!"1-0").map fun w =>
        PyPackage.eq { Pkg.new c!"a" with version := some v } { Pkg.new c!"a" with version := some w }) = some false := by decide +kernel
    simpa [hv, hw] using this

/-- C242: two requirements are equal exactly if they are the same; then they have the same hash. -/
theorem C242_requirements {H : Type} (h : List Str → Bool → Bool → H) (r s : PackageRequirement) :
    (reqEq r s = true ↔ r = s) ∧ (reqEq r s = true → reqHash h r = reqHash h s) := by
  have e : reqEq r s = true ↔ r = s := by
    cases r; cases s
    simp only [reqEq, Bool.and_eq_true, beq_iff_eq, PackageRequirement.mk.injEq]
    tauto
  exact ⟨e, fun he => by rw [e.1 he]⟩

/-- C242: the conflict of a requirement that is read as it is shown is read as that requirement, as a conflict. -/
theorem C242_conflict (r : PackageRequirement) (h : PackageRequirement.parse r.display = .ok r) :
    PackageRequirement.parse (conflictText r) = .ok { r with conflict := true } := by
  unfold conflictText
  cases hc : r.conflict with
  | true => rw [if_pos rfl, h]; cases r; simp_all
  | false =>
    rw [if_neg (by simp)]
    have hs : stripConflict r.display = (r.display, false) := by
      generalize r.display = t at h
      unfold stripConflict
      split
      · rename_i s
        exfalso
        simp only [PackageRequirement.parse, stripConflict] at h
        split at h
        · cases h
        · split at h
          · cases h
          · simp only [Outcome.ok.injEq] at h
            rw [← h] at hc
            simp at hc
      · rfl
    have h2 := h
    rw [PackageRequirement.parse, hs] at h2
    have hs' : stripConflict (c!"!" ++ r.display) = (r.display, true) := rfl
    rw [PackageRequirement.parse, hs']
    simp only at h2 ⊢
    split at h2
    · cases h2
    · split at h2
      · cases h2
      · simp only [Outcome.ok.injEq] at h2 ⊢
        exact congrArg (fun q : PackageRequirement => { q with conflict := true }) h2

/-- C242: the conflict of a weak requirement is not shown as one that is weak. -/
theorem C242_conflict_false : ∃ r s : PackageRequirement, PackageRequirement.parse (conflictText r) = .ok s ∧ s.display ≠ conflictText r :=
  ⟨⟨c!"a", none, true, false⟩, ⟨c!"a", none, true, true⟩, by decide +kernel, by decide⟩

namespace PyPackageLemmas

/-- Lines, each with its end. -/
def ends (l : List Str) : Str := l.flatMap (· ++ c!"\n")

theorem ends_append (a b : List Str) : ends (a ++ b) = ends a ++ ends b := List.flatMap_append

theorem ends_list {n : Str} {l : List Str} (hn : SerialLemmas.Ident n) (h : ∀ s ∈ l, '"' ∉ s ∧ '\\' ∉ s ∧ '\n' ∉ s ∧ '\r' ∉ s) :
    Program (ends (listLines n l)) (listStmt n l) := by
  match l with
  | [] => exact .done
  | [x] =>
    have i : Items (quoted x) [.str x] := by
      have := Items.last (a := []) (b := []) (fun c hc => by cases hc) (SerialLemmas.quoted_plain (h x (by simp))) (fun c hc => by cases hc)
      simpa using this
    have := Program.blank (SerialLemmas.program_assign hn (.list i))
    refine cast (congrArg (Program · _) ?_) this
    simp [ends, listLines]
  | x :: y :: l =>
    have := SerialLemmas.program_lines hn h
    refine cast (congrArg (Program · _) ?_) (Program.blank this)
    have e : listLines n (x :: y :: l) = [[], n ++ c!" = ["] ++ (x :: y :: l).map (fun x => c!"    " ++ quoted x ++ c!",") ++ [c!"]"] := rfl
    rw [pyLines, e]
    simp [ends, quoted, List.flatMap_map]

theorem items_trail {l : List Py} : ∀ {s b : Str}, Items s l → Blank b → Items (s ++ b) l := by
  induction l with
  | nil =>
    intro s b h hb
    cases h with
    | none h => exact .none (SerialLemmas.blank_append h hb)
  | cons e l ih =>
    intro s b h hb
    cases h with
    | last ha he hb' => rw [List.append_assoc]; exact .last ha he (SerialLemmas.blank_append hb' hb)
    | more ha he hb' hi =>
      have := Items.more ha he hb' (ih hi hb)
      simpa using this

theorem variant_item {v : List Str} (h : ∀ s ∈ v, '"' ∉ s ∧ '\\' ∉ s ∧ '\n' ∉ s ∧ '\r' ∉ s) :
    ∃ t, Expr t (.list (v.map .str)) ∧ ends (variantLines v) = c!"    " ++ t ++ ',' :: c!"\n" := by
  have many : v.length ≠ 1 → variantLines v = [c!"    ["] ++ v.map (fun x => c!"        " ++ quoted x ++ c!",") ++ [c!"    ],"] := by
    intro hl
    unfold variantLines
    split
    · exact absurd rfl hl
    · rfl
  by_cases hl : v.length = 1
  · obtain ⟨x, rfl⟩ := List.length_eq_one_iff.mp hl
    refine ⟨_, SerialLemmas.variant_expr h, ?_⟩
    simp [ends, variantLines, joinWith]
  · have i := SerialLemmas.items_terms quoted Py.str (l := v) (fun s hs => SerialLemmas.quoted_plain (h s hs)) (a := c!"\n")
      (lead := c!"        ") (trail := c!"\n") (SerialLemmas.blank_dec rfl) (SerialLemmas.blank_dec rfl) (SerialLemmas.blank_dec rfl)
    refine ⟨_, .list (items_trail i (SerialLemmas.blank_dec (a := c!"    ") rfl)), ?_⟩
    rw [many hl]
    simp [ends, List.flatMap_map]

theorem ends_variants {l : List (List Str)} (h : ∀ v ∈ l, ∀ s ∈ v, '"' ∉ s ∧ '\\' ∉ s ∧ '\n' ∉ s ∧ '\r' ∉ s) :
    Program (ends (if l.isEmpty then [] else [[], c!"variants = ["] ++ l.flatMap variantLines ++ [c!"]"])) (variantStmt l) := by
  unfold variantStmt
  cases hl : l.isEmpty with
  | true => exact .done
  | false =>
    have items : ∀ (l : List (List Str)), (∀ v ∈ l, ∀ s ∈ v, '"' ∉ s ∧ '\\' ∉ s ∧ '\n' ∉ s ∧ '\r' ∉ s) → ∀ a, Blank a →
        Items (a ++ ends (l.flatMap variantLines)) (l.map fun v => .list (v.map .str)) := by
      intro l
      induction l with
      | nil => intro _ a ha; exact .none (by simpa [ends] using ha)
      | cons v l ih =>
        intro hv a ha
        obtain ⟨t, ht, e⟩ := variant_item (hv v (by simp))
        have h1 := ih (fun w hw => hv w (List.mem_cons_of_mem _ hw)) c!"\n" (SerialLemmas.blank_dec rfl)
        have h2 := Items.more (SerialLemmas.blank_append ha (SerialLemmas.blank_dec (a := c!"    ") rfl)) ht (b := [])
          (fun c hc => by cases hc) h1
        rw [List.flatMap_cons, ends_append, e, List.map_cons]
        simpa using h2
    have i := items l h c!"\n" (SerialLemmas.blank_dec rfl)
    have := Program.blank (SerialLemmas.program_assign (n := c!"variants") (SerialLemmas.ident_dec rfl) (.list i))
    simp only [Bool.false_eq_true, if_false]
    refine cast (congrArg (Program · _) ?_) this
    simp [ends]

theorem ends_flag {n : Str} (o : Option Bool) (hn : SerialLemmas.Ident n) : Program (ends (flagLines n o)) (flagStmt n o) := by
  cases o with
  | none => exact .done
  | some b =>
    cases b with
    | true =>
      have := Program.blank (SerialLemmas.program_assign hn .true)
      simpa [ends, flagLines, flagStmt] using this
    | false =>
      have := Program.blank (SerialLemmas.program_assign hn .false)
      simpa [ends, flagLines, flagStmt] using this

theorem ends_commands {o : Option Str} (h : HasBody o) :
    Program (ends (o.elim [] fun s => [[], c!"def commands():"] ++ (linesOf s).map fun l => if (trim l).isEmpty then [] else c!"    " ++ l))
      (functionStmt c!"commands" o) := by
  have := SerialLemmas.program_function (n := c!"commands") (SerialLemmas.ident_dec rfl) h
  cases o with
  | none => exact .done
  | some s =>
    refine cast (congrArg (Program · _) ?_) this
    simp [ends, pyFunction]

theorem ends_before (p : Pkg) (hp : Plain (writtenTexts p)) : Program (ends (linesBefore p)) (stmtsBefore p) := by
  have hm : ∀ {s : Str}, s ∈ writtenTexts p → '"' ∉ s ∧ '\\' ∉ s ∧ '\n' ∉ s ∧ '\r' ∉ s := fun hs => SerialLemmas.plain_mem hp hs
  have q1 : Program (ends [c!"name = " ++ quoted p.name]) [.assign c!"name" (.str p.name)] := by
    have := SerialLemmas.program_plain (n := c!"name") (o := some p.name) (SerialLemmas.ident_dec rfl) (by
      intro s hs; cases hs; exact hm (by simp [writtenTexts]))
    simpa [textStmt, ends] using this
  have q2 : Program (ends (p.version.elim [] fun v => [c!"version = " ++ quoted v.asStr]))
      (textStmt c!"version" (p.version.map Version.asStr)) := by
    have := SerialLemmas.program_plain (n := c!"version") (o := p.version.map Version.asStr) (SerialLemmas.ident_dec rfl) (by
      intro s hs; exact hm (by simp only [writtenTexts, List.mem_append, Option.mem_toList]; tauto))
    cases hv : p.version with
    | none => exact .done
    | some v => rw [hv] at this; simpa [ends] using this
  have := SerialLemmas.program_append q1 q2
  rw [← ends_append] at this
  exact this

theorem ends_after (p : Pkg) (hp : Plain (writtenTexts p)) (hb : HasBody p.commands) : Program (ends (linesAfter p)) (stmtsAfter p) := by
  have hm : ∀ {s : Str}, s ∈ writtenTexts p → '"' ∉ s ∧ '\\' ∉ s ∧ '\n' ∉ s ∧ '\r' ∉ s := fun hs => SerialLemmas.plain_mem hp hs
  have q1 := ends_list (n := c!"authors") (l := p.authors) (SerialLemmas.ident_dec rfl) fun s hs => hm (by simp [writtenTexts, hs])
  have q2 := ends_list (n := c!"requires") (l := p.requires) (SerialLemmas.ident_dec rfl) fun s hs => hm (by simp [writtenTexts, hs])
  have q3 := ends_list (n := c!"build_requires") (l := p.buildRequires) (SerialLemmas.ident_dec rfl) fun s hs => hm (by simp [writtenTexts, hs])
  have q4 := ends_variants (l := p.variants) fun v hv s hs => hm (by
    simp only [writtenTexts, List.mem_append]
    exact Or.inl (Or.inl (Or.inr (List.mem_flatten.mpr ⟨v, hv, hs⟩))))
  have q5 := ends_list (n := c!"tools") (l := p.tools) (SerialLemmas.ident_dec rfl) fun s hs => hm (by simp [writtenTexts, hs])
  have q6 := ends_commands hb
  have q7 := ends_flag (n := c!"relocatable") p.relocatable (SerialLemmas.ident_dec rfl)
  have q8 := ends_flag (n := c!"cachable") p.cachable (SerialLemmas.ident_dec rfl)
  have q9 : Program (ends (p.uuid.elim [] fun u => [[], c!"uuid = " ++ quoted u])) (textStmt c!"uuid" p.uuid) := by
    have := SerialLemmas.program_plain (n := c!"uuid") (o := p.uuid) (SerialLemmas.ident_dec rfl) (by
      intro s hs; exact hm (by simp only [writtenTexts, List.mem_append, Option.mem_toList]; tauto))
    cases hv : p.uuid with
    | none => exact .done
    | some v => rw [hv] at this; exact .blank (by simpa [ends] using this)
  have := SerialLemmas.program_append (SerialLemmas.program_append (SerialLemmas.program_append (SerialLemmas.program_append
    (SerialLemmas.program_append (SerialLemmas.program_append (SerialLemmas.program_append (SerialLemmas.program_append q1 q2) q3) q4) q5) q6)
    q7) q8) q9
  simp only [← ends_append] at this
  exact this

theorem toPy_ends (p : Pkg) : toPy p ++ c!"\n" = ends (linesBefore p) ++ ends (descriptionLines p.description) ++ ends (linesAfter p) := by
  unfold toPy
  rw [SerialLemmas.join_lines (by simp [linesBefore]), ← ends_append, ← ends_append]
  rfl

end PyPackageLemmas

/-- C242: the text made for `package.py` says what the package is, as far as it is written, if the description has at most 40 bytes,
no backslashes and no line breaks, the other texts no quotes either, and the commands a line that is not blank.  Flags are written as
Python has them. -/
theorem C242_python (p : Pkg) (hp : Plain (writtenTexts p)) (hb : HasBody p.commands)
    (hd : ∀ d, p.description = some d → byteLen d ≤ 40 ∧ '\\' ∉ d ∧ '\n' ∉ d ∧ '\r' ∉ d) :
    Program (toPy p ++ c!"\n") (stmtsBefore p ++ textStmt c!"description" p.description ++ stmtsAfter p) := by
  have q : Program (ends (descriptionLines p.description)) (textStmt c!"description" p.description) := by
    have := SerialLemmas.program_escaped (n := c!"description") (o := p.description) (SerialLemmas.ident_dec rfl)
      (fun s hs => (hd s hs).2)
    cases hv : p.description with
    | none => exact .done
    | some d =>
      rw [hv] at this
      have hl : ¬ byteLen d > 40 := by have := (hd d hv).1; omega
      simpa [ends, descriptionLines, hl] using this
  rw [toPy_ends]
  exact SerialLemmas.program_append (SerialLemmas.program_append (ends_before p hp) q) (ends_after p hp hb)

/-- C242: a longer description stands between lines of its own, after a line break and before another: these become part of it. -/
theorem C242_long (p : Pkg) (hp : Plain (writtenTexts p)) (hb : HasBody p.commands) (d : Str) (hd : p.description = some d)
    (hl : byteLen d > 40) :
    ∃ a b, Program a (stmtsBefore p) ∧ Program b (stmtsAfter p) ∧
      toPy p ++ c!"\n" = a ++ c!"\n" ++ c!"description = \"\"\"" ++ (c!"\n" ++ d ++ c!"\n") ++ c!"\"\"\"\n" ++ b := by
  refine ⟨_, _, ends_before p hp, ends_after p hp hb, ?_⟩
  rw [toPy_ends, hd]
  simp [ends, descriptionLines, hl]

/-- C242 is false for other texts and attributes: one author with quotes is written like two, and private requirements are lost. -/
theorem C242_python_false :
    (∃ p q : Pkg, p.authors = [c!"a\",\n    \"b", c!"c"] ∧ q.authors = [c!"a", c!"b", c!"c"] ∧ toPy p = toPy q) ∧
    ∃ p q : Pkg, p.privateBuildRequires ≠ q.privateBuildRequires ∧ toPy p = toPy q :=
  ⟨⟨{ Pkg.new c!"x" with authors := [c!"a\",\n    \"b", c!"c"] }, { Pkg.new c!"x" with authors := [c!"a", c!"b", c!"c"] }, rfl, rfl,
      by decide +kernel⟩,
    ⟨{ Pkg.new c!"x" with privateBuildRequires := [c!"gcc"] }, Pkg.new c!"x", by decide, rfl⟩⟩

/-- A package with two variants. -/
def PyPackageLemmas.kit : Pkg :=
  { name := c!"kit", version := Version.parse c!"1.2", description := some c!"A \"kit\"", authors := [c!"Ann"],
    requires := [c!"a", c!"b-1"], variants := [[c!"x"], [c!"y", c!"z"]], relocatable := some true, uuid := some c!"u",
    commands := some c!"env.X = 1" }

example : Program (toPy kit ++ c!"\n") (stmtsBefore kit ++ textStmt c!"description" kit.description ++ stmtsAfter kit) :=
  C242_python kit (by unfold Plain Without; exact ⟨by decide +kernel, by decide +kernel, by decide +kernel, by decide +kernel⟩)
    (by intro s hs; cases hs; exact ⟨c!"env.X = 1", by decide, by decide⟩)
    (by intro d hd; cases hd; decide +kernel)
example : Made kit := ⟨by intro v hv; have : Version.parse c!"1.2" = some v := hv; have e := this; revert e; cases this; decide +kernel,
  fun _ h => (by cases h), fun _ h => (by cases h), fun _ h => (by cases h), by decide⟩
example : PackageRequirement.parse (⟨c!"a", some c!"1", false, false⟩ : PackageRequirement).display = .ok ⟨c!"a", some c!"1", false, false⟩ := by
  decide +kernel
example : Describes [(c!"name", .str c!"x"), (c!"timestamp", .bool true)] { Pkg.new c!"x" with timestamp := some 1 } :=
  (C242_from_dict _ _).1 rfl

end Rez.Props
