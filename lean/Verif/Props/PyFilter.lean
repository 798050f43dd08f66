import Verif.Spec.PyFilter
import Verif.Props.RuleFilter
/-!
# C246: package filters from Python
-/
namespace Rez.Props
open Rez Rez.RuleFilter Rez.Spec.RuleFilter Rez.PyFilter Rez.Spec.PyFilter RuleFilterLemmas

namespace PyFilterLemmas

/-- The additions of calls. -/
def addOf (e : Engine) : Call → Option Add
  | .exclusion t => (parseRule e t).map Add.exclusion
  | .inclusion t => (parseRule e t).map Add.inclusion

def adds (e : Engine) (calls : List Call) : List Add := calls.filterMap (addOf e)

theorem after_eq (e : Engine) (calls : List Call) : after e calls = build (adds e calls) := by
  induction calls using List.reverseRecOn with
  | nil => rfl
  | append_singleton cs c ih =>
    have h1 : after e (cs ++ [c]) = (call e (after e cs) c).1 := by simp [after]
    rw [h1, ih]
    unfold adds
    rw [List.filterMap_append]
    cases c with
    | exclusion t =>
      cases hp : parseRule e t with
      | none => simp [addOf, call, hp]
      | some r => simp [addOf, call, hp, build_snoc]
    | inclusion t =>
      cases hp : parseRule e t with
      | none => simp [addOf, call, hp]
      | some r => simp [addOf, call, hp, build_snoc]

theorem mem_adds_excl {e : Engine} {calls : List Call} {r : Rule} :
    Add.exclusion r ∈ adds e calls ↔ ∃ t, Call.exclusion t ∈ calls ∧ parseRule e t = some r := by
  unfold adds
  rw [List.mem_filterMap]
  constructor
  · rintro ⟨c, hc, hr⟩
    cases c with
    | exclusion t =>
      simp only [addOf, Option.map_eq_some_iff, Add.exclusion.injEq, exists_eq_right] at hr
      exact ⟨t, hc, hr⟩
    | inclusion t => simp [addOf] at hr
  · rintro ⟨t, ht, hr⟩
    exact ⟨_, ht, by simp [addOf, hr]⟩

theorem mem_adds_incl {e : Engine} {calls : List Call} {r : Rule} :
    Add.inclusion r ∈ adds e calls ↔ ∃ t, Call.inclusion t ∈ calls ∧ parseRule e t = some r := by
  unfold adds
  rw [List.mem_filterMap]
  constructor
  · rintro ⟨c, hc, hr⟩
    cases c with
    | exclusion t => simp [addOf] at hr
    | inclusion t =>
      simp only [addOf, Option.map_eq_some_iff, Add.inclusion.injEq, exists_eq_right] at hr
      exact ⟨t, hc, hr⟩
  · rintro ⟨t, ht, hr⟩
    exact ⟨_, ht, by simp [addOf, hr]⟩

theorem adds_read (e : Engine) (calls : List Call) : ∀ a ∈ adds e calls, ∃ txt, parseRule e txt = some a.rule := by
  intro a ha
  cases a with
  | exclusion r => obtain ⟨t, _, h⟩ := mem_adds_excl.mp ha; exact ⟨t, h⟩
  | inclusion r => obtain ⟨t, _, h⟩ := mem_adds_incl.mp ha; exact ⟨t, h⟩

theorem filteredOut_iff (e : Engine) (calls : List Call) (p : Pkg) : FilteredOut e (adds e calls) p ↔ LeftOut e calls p := by
  unfold FilteredOut LeftOut Matches
  have hx : (∃ r, Add.exclusion r ∈ adds e calls ∧ r.apply e p = true) ↔
      ∃ t, Call.exclusion t ∈ calls ∧ ∃ r, parseRule e t = some r ∧ r.apply e p = true := by
    constructor
    · rintro ⟨r, hr, hm⟩
      obtain ⟨t, ht, hp⟩ := mem_adds_excl.mp hr
      exact ⟨t, ht, r, hp, hm⟩
    · rintro ⟨t, ht, r, hp, hm⟩
      exact ⟨r, mem_adds_excl.mpr ⟨t, ht, hp⟩, hm⟩
  have hi : (∃ r, Add.inclusion r ∈ adds e calls ∧ r.apply e p = true) ↔
      ∃ t, Call.inclusion t ∈ calls ∧ ∃ r, parseRule e t = some r ∧ r.apply e p = true := by
    constructor
    · rintro ⟨r, hr, hm⟩
      obtain ⟨t, ht, hp⟩ := mem_adds_incl.mp hr
      exact ⟨t, ht, r, hp, hm⟩
    · rintro ⟨t, ht, r, hp, hm⟩
      exact ⟨r, mem_adds_incl.mpr ⟨t, ht, hp⟩, hm⟩
  rw [hx, hi]

theorem text_some {x : Serial.Value} {s : Str} : Serial.text x = some s ↔ x = .str s := by
  cases x <;> simp [Serial.text]

theorem version_some {x : Serial.Value} {v : Version} : Serial.versionText x = some v ↔ ∃ t, x = .str t ∧ Version.parse t = some v := by
  cases x <;> simp [Serial.versionText]

theorem field_some {α : Type} {d : Serial.Fields} {k : Str} {f : Serial.Value → Option α} {o : Option α} :
    Serial.field d k (fun v => (f v).map some) none = some o ↔
      (mget d k = none ∧ o = none) ∨ ∃ x a, mget d k = some x ∧ f x = some a ∧ o = some a := by
  unfold Serial.field
  cases h : mget d k with
  | none => simp [eq_comm]
  | some x =>
    simp only [Option.map_eq_some_iff, reduceCtorEq, false_and, false_or, Option.some.injEq]
    constructor
    · rintro ⟨a, ha, rfl⟩; exact ⟨x, a, rfl, ha, rfl⟩
    · rintro ⟨_, a, rfl, ha, rfl⟩; exact ⟨a, ha, rfl⟩

theorem toPackage_iff {d : Serial.Fields} {p : Pkg} : toPackage d = some p ↔ Describes d p := by
  unfold toPackage
  simp only [Option.bind_eq_bind, Option.bind_eq_some_iff, Option.pure_def, Option.some.injEq, text_some, field_some, version_some]
  constructor
  · rintro ⟨name, ⟨x, hx, rfl⟩, version, hv, description, hd, timestamp, ht, rfl⟩
    refine ⟨hx, ?_, ?_, ht, rfl, rfl, rfl⟩
    · rcases hv with h | ⟨x, a, hx, ⟨t, rfl, ht⟩, rfl⟩
      · exact .inl h
      · exact .inr ⟨t, a, hx, ht, rfl⟩
    · rcases hd with h | ⟨x, a, hx, rfl, rfl⟩
      · exact .inl h
      · exact .inr ⟨a, hx, rfl⟩
  · intro h
    refine ⟨_, ⟨_, h.name, rfl⟩, p.base.version, ?_, p.description, ?_, p.base.timestamp, h.timestamp, ?_⟩
    · rcases h.version with h | ⟨t, v, h1, h2, h3⟩
      · exact .inl h
      · exact .inr ⟨_, v, h1, ⟨t, rfl, h2⟩, h3⟩
    · rcases h.description with h | ⟨t, h1, h2⟩
      · exact .inl h
      · exact .inr ⟨_, t, h1, rfl, h2⟩
    · obtain ⟨h1, h2, h3⟩ := h.nothingElse
      obtain ⟨⟨a, b, c, d, e, f⟩, g⟩ := p
      simp only at h1 h2 h3
      subst h1 h2 h3
      rfl

end PyFilterLemmas
open PyFilterLemmas

/-- **C246.** A package described by a dictionary is excluded just if an exclusion that was added matches it and no inclusion that
was added does; it is included in all other cases. -/
theorem C246_answers (e : Engine) (calls : List Call) (d : Serial.Fields) (p : Pkg) (h : Describes d p) :
    ((excludes e (after e calls) d).isSome = true ↔ LeftOut e calls p) ∧
    (includes e (after e calls) d = true ↔ ¬ LeftOut e calls p) := by
  obtain ⟨h1, h2⟩ := C56_text_exact e (adds e calls) (adds_read e calls) p
  rw [filteredOut_iff] at h1 h2
  unfold excludes includes
  rw [toPackage_iff.mpr h, after_eq]
  exact ⟨by rw [← h1]; simp, h2⟩

/-- **C246.** A dictionary that describes no package is neither excluded nor included, by any filter. -/
theorem C246_unreadable (e : Engine) (f : PackageFilter) (d : Serial.Fields) (h : ¬ ∃ p, Describes d p) :
    excludes e f d = none ∧ includes e f d = false := by
  have hn : toPackage d = none := by
    cases hp : toPackage d with
    | none => rfl
    | some p => exact absurd ⟨p, toPackage_iff.mp hp⟩ h
  unfold excludes includes
  rw [hn]
  exact ⟨rfl, rfl⟩

/-- **C246.** What is returned for an excluded package names the first exclusion that matches it. -/
theorem C246_rule (e : Engine) (calls : List Call) (d : Serial.Fields) (p : Pkg) (h : Describes d p) (s : Str)
    (hs : excludes e (after e calls) d = some s) :
    ∃ t r before_ after_, calls = before_ ++ Call.exclusion t :: after_ ∧ parseRule e t = some r ∧ r.apply e p = true ∧
      (∀ t', Call.exclusion t' ∈ before_ → ¬ Matches e t' p) ∧ s = r.toPod.1 ++ c!":" ++ r.toPod.2 := by
  have hx : ∀ r ∈ excl (adds e calls), podMatches e p r.toPod = r.apply e p := by
    intro r hr
    obtain ⟨txt, ht⟩ := adds_read e calls _ (mem_excl.mp hr)
    exact podMatches_of (reread ht) p
  unfold excludes at hs
  rw [toPackage_iff.mpr h, after_eq, build_eq] at hs
  simp only [Option.bind_some, Option.map_eq_some_iff] at hs
  obtain ⟨pod, hpod, rfl⟩ := hs
  unfold PackageFilter.excludes at hpod
  simp only at hpod
  generalize (List.map Rule.toPod (incl (adds e calls))).any (podMatches e p) = b at hpod
  -- walk along the calls
  induction calls with
  | nil => simp [adds, excl] at hpod
  | cons c cs ih =>
    have shape : (excl (adds e (c :: cs)) = excl (adds e cs) ∧ ∀ t, c = Call.exclusion t → parseRule e t = none) ∨
        ∃ t r, c = Call.exclusion t ∧ parseRule e t = some r ∧ excl (adds e (c :: cs)) = r :: excl (adds e cs) := by
      cases c with
      | exclusion t =>
        cases hp : parseRule e t with
        | none =>
          refine .inl ⟨by simp [adds, addOf, hp], ?_⟩
          intro t' ht'
          cases ht'
          exact hp
        | some r => exact .inr ⟨t, r, rfl, hp, by simp [adds, addOf, hp, excl]⟩
      | inclusion t =>
        refine .inl ⟨?_, by intro t' ht'; cases ht'⟩
        cases hp : parseRule e t with
        | none => simp [adds, addOf, hp]
        | some r => simp [adds, addOf, hp, excl]
    rcases shape with ⟨he, hnone⟩ | ⟨t, r, rfl, hp, he⟩
    · rw [he] at hpod hx
      obtain ⟨t, r, b1, a1, rfl, h2, h3, h4, h5⟩ := ih hx hpod
      refine ⟨t, r, c :: b1, a1, rfl, h2, h3, ?_, h5⟩
      intro t' ht'
      rcases List.mem_cons.mp ht' with ht' | ht'
      · rintro ⟨r', hr', _⟩
        rw [hnone t' ht'.symm] at hr'
        cases hr'
      · exact h4 t' ht'
    · rw [he] at hpod hx
      rw [List.map_cons, List.find?_cons] at hpod
      split at hpod
      · rename_i hm
        cases hpod
        rw [Bool.and_eq_true] at hm
        exact ⟨t, r, [], cs, rfl, hp, by rw [← hx r (List.mem_cons_self ..)]; exact hm.1, by simp, rfl⟩
      · rename_i hm
        obtain ⟨t', r', b1, a1, rfl, h2, h3, h4, h5⟩ := ih (fun r hr => hx r (List.mem_cons_of_mem _ hr)) hpod
        refine ⟨t', r', _ :: b1, a1, rfl, h2, h3, ?_, h5⟩
        intro t'' ht''
        rcases List.mem_cons.mp ht'' with heq | ht''
        · cases heq
          rintro ⟨r'', hr'', hap⟩
          rw [hp] at hr''
          cases hr''
          have hb : b = false := by
            have := List.find?_some hpod
            simp only [Bool.and_eq_true, Bool.not_eq_true'] at this
            exact this.2
          rw [hx r (List.mem_cons_self ..), hap, hb] at hm
          cases hm
        · exact h4 t'' ht''

/-- **C246.** Adding a rule fails just if its text is bad, and then the filter is as before. -/
theorem C246_bad (e : Engine) (f : PackageFilter) (t : Str) (c : Call) (hc : c = .exclusion t ∨ c = .inclusion t) :
    ((call e f c).2 = false ↔ parseRule e t = none) ∧ ((call e f c).2 = false → (call e f c).1 = f) := by
  rcases hc with rfl | rfl
  · cases h : parseRule e t <;> simp [call, h]
  · cases h : parseRule e t <;> simp [call, h]

/-- **C246.** A filter written as a dictionary is read back as the same filter. -/
theorem C246_pod (e : Engine) (calls : List Call) :
    PyFilter.fromPod e (PyFilter.toPod (after e calls)) = some (after e calls) := by
  have h := C57_text_partial e (adds e calls) (fun a ha => .inr (adds_read e calls a ha))
  rw [← after_eq] at h
  generalize after e calls = f at h ⊢
  have : ((mget (PyFilter.toPod f) c!"exclusions").getD [], (mget (PyFilter.toPod f) c!"inclusions").getD []) = f.toPod := by
    obtain ⟨x, i⟩ := f
    cases x <;> cases i <;> simp [PyFilter.toPod, PackageFilter.toPod, mget]
  unfold PyFilter.fromPod
  rw [this]
  exact h

/-- **C246**, that what is not included is excluded: false of a dictionary without a name. -/
theorem C246_neither_false (e : Engine) (f : PackageFilter) : excludes e f [] = none ∧ includes e f [] = false := ⟨rfl, rfl⟩

/-- Calls with a bad rule, an exclusion and an inclusion. -/
def pyFilterCalls : List Call := [.exclusion c!"nonsense(", .exclusion c!"after(5)", .inclusion c!"before(9)"]

/-- A dictionary with a time. -/
def pyFilterDict : Serial.Fields := [(c!"name", .str c!"a"), (c!"timestamp", .num 20)]

theorem PyFilterLemmas.demo : Describes pyFilterDict ⟨⟨c!"a", none, [], [], [], some 20⟩, none⟩ := toPackage_iff.mp rfl

example : LeftOut (fun _ => none) pyFilterCalls ⟨⟨c!"a", none, [], [], [], some 20⟩, none⟩ ∧
    excludes (fun _ => none) (after (fun _ => none) pyFilterCalls) pyFilterDict = some c!"after:5" :=
  ⟨(C246_answers _ _ _ _ demo).1.mp (by decide +kernel), by decide +kernel⟩

end Rez.Props
