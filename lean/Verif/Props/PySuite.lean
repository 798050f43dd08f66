import Verif.Spec.PySuite
import Verif.Props.Suite
/-!
# C251: suites from Python
-/
namespace Rez.Props
open Rez Rez.Suite Rez.Spec.Suite Rez.PySuite Rez.Spec.PySuite SuiteLemmas

namespace PySuiteLemmas

theorem parse_some {t : Str} {m : Mode} (h : Mode.parse t = some m) : t.map lowerChar = m.text := by
  unfold Mode.parse at h
  simp only at h
  split at h
  · cases h; assumption
  · split at h
    · cases h; assumption
    · split at h
      · cases h; assumption
      · split at h
        · cases h; assumption
        · cases h

theorem text_mem (m : Mode) : m.text ∈ modes := by cases m <;> decide

theorem parse_none {t : Str} (h : Mode.parse t = none) : t.map lowerChar ∉ modes := by
  unfold Mode.parse at h
  simp only at h
  unfold modes
  split at h
  · cases h
  · split at h
    · cases h
    · split at h
      · cases h
      · split at h
        · cases h
        · simp only [List.mem_cons, List.not_mem_nil, or_false]
          tauto

/-- The four kinds of things that a suite remembers, after one call. -/
theorem step_op (alnum : Char → Bool) (y : Yaml) (x : Suite × Fs) (op : Spec.Suite.Op) (c : Call) (hc : ops [c] = [op]) :
    step alnum y x c = (after x.1 (Spec.Suite.call alnum x.1 op), x.2) := by
  unfold step PySuite.call
  cases c with
  | addContext n r =>
    cases hc
    simp only [Spec.Suite.call]
    cases h : x.1.add alnum n r <;> simp [raise, after, Except.map]
  | removeContext n =>
    cases hc
    simp only [Spec.Suite.call]
    cases h : x.1.remove n <;> simp [raise, after, Except.map]
  | aliasTool c n t =>
    cases hc
    simp only [Spec.Suite.call]
    cases h : x.1.alias c n t <;> simp [raise, after, Except.map]
  | hideTool c t =>
    cases hc
    simp only [Spec.Suite.call]
    cases h : x.1.hide c t <;> simp [raise, after, Except.map]
  | setDescription d => cases hc
  | setMode t => cases hc
  | save p => cases hc

/-- A call on contexts depends on contexts only and changes nothing else. -/
theorem after_rest (alnum : Char → Bool) (s : Suite) (op : Spec.Suite.Op) :
    (after s (Spec.Suite.call alnum s op)).mode = s.mode ∧ (after s (Spec.Suite.call alnum s op)).description = s.description ∧
    (after s (Spec.Suite.call alnum s op)).path = s.path ∧ (after s (Spec.Suite.call alnum s op)).status = s.status := by
  cases op with
  | add n r =>
    simp only [Spec.Suite.call, Suite.add]
    split
    · exact ⟨rfl, rfl, rfl, rfl⟩
    · split <;> exact ⟨rfl, rfl, rfl, rfl⟩
  | remove n =>
    simp only [Spec.Suite.call, Suite.remove]
    split <;> exact ⟨rfl, rfl, rfl, rfl⟩
  | setAlias c n t =>
    simp only [Spec.Suite.call, Suite.alias]
    split <;> exact ⟨rfl, rfl, rfl, rfl⟩
  | hide c t =>
    simp only [Spec.Suite.call, Suite.hide]
    split <;> exact ⟨rfl, rfl, rfl, rfl⟩

theorem after_contexts (alnum : Char → Bool) (s s' : Suite) (op : Spec.Suite.Op) (h : s.contexts = s'.contexts) :
    (after s (Spec.Suite.call alnum s op)).contexts = (after s' (Spec.Suite.call alnum s' op)).contexts := by
  have hg : ∀ n, s.get n = s'.get n := fun n => by unfold Suite.get; rw [h]
  cases op with
  | add n r =>
    simp only [Spec.Suite.call, Suite.add, h]
    split
    · exact h
    · split
      · exact h
      · rfl
  | remove n =>
    simp only [Spec.Suite.call, Suite.remove, h]
    split
    · rfl
    · exact h
  | setAlias c n t =>
    simp only [Spec.Suite.call, Suite.alias, hg]
    split
    · simp only [after, Suite.edit, h]
    · exact h
  | hide c t =>
    simp only [Spec.Suite.call, Suite.hide, hg]
    split
    · simp only [after, Suite.edit, h]
    · exact h

theorem ops_append (a b : List Call) : ops (a ++ b) = ops a ++ ops b := by
  induction a with
  | nil => rfl
  | cons c a ih => cases c <;> simp [ops, ih]

theorem run_snoc (alnum : Char → Bool) (y : Yaml) (x : Suite × Fs) (cs : List Call) (c : Call) :
    run alnum y x (cs ++ [c]) = step alnum y (run alnum y x cs) c := by simp [run]

theorem run_append (alnum : Char → Bool) (y : Yaml) (x : Suite × Fs) (a b : List Call) :
    run alnum y x (a ++ b) = run alnum y (run alnum y x a) b := by simp [run]

theorem lastOf_snoc {α : Type} (f : Call → Option α) (d : α) (cs : List Call) (c : Call) :
    lastOf f d (cs ++ [c]) = (f c).getD (lastOf f d cs) := by
  unfold lastOf
  rw [List.filterMap_append]
  cases h : f c with
  | none => simp [h]
  | some a => simp [h]

theorem step_mode (alnum : Char → Bool) (y : Yaml) (x : Suite × Fs) (t : Str) :
    step alnum y x (.setMode t) = ((Mode.parse t).elim x fun m => ({ x.1 with mode := m }, x.2)) := by
  unfold step PySuite.call
  simp only
  cases Mode.parse t <;> rfl

/-- What is on the disk elsewhere is not touched by a call. -/
theorem step_elsewhere (alnum : Char → Bool) (y : Yaml) (x : Suite × Fs) (c : Call) (p : Str) (hp : pathSet c ≠ some (some p)) :
    mget (step alnum y x c).2 p = mget x.2 p := by
  cases c with
  | addContext n r => rw [step_op alnum y x _ _ rfl]
  | removeContext n => rw [step_op alnum y x _ _ rfl]
  | aliasTool c n t => rw [step_op alnum y x _ _ rfl]
  | hideTool c t => rw [step_op alnum y x _ _ rfl]
  | setDescription d => rfl
  | setMode t =>
    rw [step_mode]
    cases Mode.parse t <;> rfl
  | save q =>
    have hq : p ≠ q := fun h => hp (by rw [h]; rfl)
    show mget (x.1.save y q x.2).2 p = _
    simp only [Suite.save, saveSteps, List.foldl_cons, List.foldl_nil, touch, mget_mset, if_neg hq]

/-- A codec for the examples. -/
def noYaml : Yaml := ⟨fun _ => [], fun _ => none⟩

end PySuiteLemmas
open PySuiteLemmas

/-- C251: the contexts are those of the calls on contexts alone, whatever comes between them; so all that C63 and C64 say of
suites holds of suites from Python. -/
theorem C251_contexts (alnum : Char → Bool) (y : Yaml) (d : Option Str) (fs : Fs) (cs : List Call) :
    (run alnum y (make d, fs) cs).1.contexts = (history alnum (ops cs)).contexts := by
  induction cs using List.reverseRecOn with
  | nil => rfl
  | append_singleton cs c ih =>
    rw [run_snoc, ops_append]
    have hop : ∀ op, ops [c] = [op] → (step alnum y (run alnum y (make d, fs) cs) c).1.contexts = (history alnum (ops cs ++ ops [c])).contexts := by
      intro op hop
      rw [step_op alnum y _ op c hop, hop]
      unfold history
      rw [List.foldl_append, List.foldl_cons, List.foldl_nil]
      exact after_contexts alnum _ _ op ih
    cases c with
    | addContext n r => exact hop _ rfl
    | removeContext n => exact hop _ rfl
    | aliasTool c n t => exact hop _ rfl
    | hideTool c t => exact hop _ rfl
    | setDescription d' => simpa [ops, step, PySuite.call] using ih
    | setMode t =>
      have : ops cs ++ ops [.setMode t] = ops cs := by simp [ops]
      rw [this]
      rw [step_mode]
      cases Mode.parse t <;> exact ih
    | save p => simpa [ops, step, PySuite.call, Suite.save] using ih

/-- C251: the names of the contexts are valid and different, and `len` counts them. -/
theorem C251_names (alnum : Char → Bool) (y : Yaml) (d : Option Str) (fs : Fs) (cs : List Call) :
    (run alnum y (make d, fs) cs).1.names.Nodup ∧ (∀ n ∈ (run alnum y (make d, fs) cs).1.names, Valid alnum n) ∧
    PySuite.len (run alnum y (make d, fs) cs).1 = (run alnum y (make d, fs) cs).1.names.length := by
  have h : (run alnum y (make d, fs) cs).1.names = (history alnum (ops cs)).names := by
    unfold Suite.names; rw [C251_contexts]
  rw [h]
  obtain ⟨h1, h2⟩ := C63_unique_partial alnum (ops cs)
  exact ⟨h1, h2, by rw [← h]; simp [PySuite.len, Suite.names]⟩

/-- C251: the conflict mode that is read is the last that was set to one of the four texts, in lower case, and "error" if there is
none; the description is the last that was set, the first one being that of the constructor; the path is the last that was saved to. -/
theorem C251_attributes (alnum : Char → Bool) (y : Yaml) (d : Option Str) (fs : Fs) (cs : List Call) :
    PySuite.mode (run alnum y (make d, fs) cs).1 = lastOf modeSet c!"error" cs ∧
    (run alnum y (make d, fs) cs).1.description = lastOf descriptionSet d cs ∧
    (run alnum y (make d, fs) cs).1.path = lastOf pathSet none cs := by
  induction cs using List.reverseRecOn with
  | nil => exact ⟨rfl, rfl, rfl⟩
  | append_singleton cs c ih =>
    rw [run_snoc, lastOf_snoc, lastOf_snoc, lastOf_snoc]
    obtain ⟨i1, i2, i3⟩ := ih
    unfold PySuite.mode at i1 ⊢
    have hop : ∀ op, ops [c] = [op] → (step alnum y (run alnum y (make d, fs) cs) c).1.mode.text = lastOf modeSet c!"error" cs ∧
        (step alnum y (run alnum y (make d, fs) cs) c).1.description = lastOf descriptionSet d cs ∧
        (step alnum y (run alnum y (make d, fs) cs) c).1.path = lastOf pathSet none cs := by
      intro op hop
      rw [step_op alnum y _ op c hop]
      obtain ⟨a1, a2, a3, _⟩ := after_rest alnum (run alnum y (make d, fs) cs).1 op
      exact ⟨by rw [← i1, ← a1], by rw [← i2, ← a2], by rw [← i3, ← a3]⟩
    cases c with
    | addContext n r => exact hop _ rfl
    | removeContext n => exact hop _ rfl
    | aliasTool c n t => exact hop _ rfl
    | hideTool c t => exact hop _ rfl
    | setDescription d' => exact ⟨i1, rfl, i3⟩
    | setMode t =>
      rw [step_mode]
      cases hm : Mode.parse t with
      | none =>
        refine ⟨?_, i2, i3⟩
        simp only [modeSet, if_neg (parse_none hm)]
        exact i1
      | some m =>
        refine ⟨?_, i2, i3⟩
        have := parse_some hm
        simp only [modeSet, this, if_pos (text_mem m)]
        rfl
    | save p => exact ⟨i1, i2, rfl⟩

/-- C251: which calls raise, and what: nothing else raises. -/
theorem C251_raises (alnum : Char → Bool) (y : Yaml) (x : Suite × Fs) (c : Call) (e : Exc) :
    Raises alnum y x c e ↔
      match c with
      | .addContext n _ => e = .valueError ∧ (¬ Valid alnum n ∨ n ∈ x.1.names)
      | .removeContext n => e = .keyError ∧ n ∉ x.1.names
      | .aliasTool n _ _ => e = .keyError ∧ n ∉ x.1.names
      | .hideTool n _ => e = .keyError ∧ n ∉ x.1.names
      | .setMode t => e = .valueError ∧ t.map lowerChar ∉ modes
      | .setDescription _ => False
      | .save _ => False := by
  unfold Raises
  cases c with
  | addContext n r =>
    simp only [PySuite.call, Suite.add]
    by_cases h1 : validName alnum n = true
    · by_cases h2 : (x.1.contexts.any fun c => c.name == n) = true
      · have h1' := (valid_iff alnum n).mp h1
        have h2' := (any_iff x.1 n).mp h2
        simp only [h1, h2, Bool.not_true, Bool.false_eq_true, if_false, if_true, raise, Except.map, Except.error.injEq]
        exact ⟨fun h => ⟨h.symm, Or.inr h2'⟩, fun h => h.1.symm⟩
      · have h1' := (valid_iff alnum n).mp h1
        have h2' := fun h => h2 ((any_iff x.1 n).mpr h)
        simp only [h1, h2, Bool.not_true, Bool.false_eq_true, if_false, raise, Except.map, reduceCtorEq, false_iff]
        tauto
    · have h1' := fun h => h1 ((valid_iff alnum n).mpr h)
      rw [if_pos (by simpa using h1)]
      simp only [raise, Except.map, Except.error.injEq]
      exact ⟨fun h => ⟨h.symm, Or.inl h1'⟩, fun h => h.1.symm⟩
  | removeContext n =>
    simp only [PySuite.call, Suite.remove]
    by_cases h2 : (x.1.contexts.any fun c => c.name == n) = true
    · have h2' := (any_iff x.1 n).mp h2
      rw [if_pos h2]
      simp only [raise, Except.map, reduceCtorEq, false_iff]
      tauto
    · have h2' := fun h => h2 ((any_iff x.1 n).mpr h)
      rw [if_neg h2]
      simp only [raise, Except.map, Except.error.injEq]
      exact ⟨fun h => ⟨h.symm, h2'⟩, fun h => h.1.symm⟩
  | aliasTool n a t =>
    simp only [PySuite.call, Suite.alias]
    by_cases h2 : (x.1.get n).isSome = true
    · have h2' := (get_some x.1 n).mp h2
      rw [if_pos h2]
      simp only [raise, Except.map, reduceCtorEq, false_iff]
      tauto
    · have h2' := fun h => h2 ((get_some x.1 n).mpr h)
      rw [if_neg h2]
      simp only [raise, Except.map, Except.error.injEq]
      exact ⟨fun h => ⟨h.symm, h2'⟩, fun h => h.1.symm⟩
  | hideTool n t =>
    simp only [PySuite.call, Suite.hide]
    by_cases h2 : (x.1.get n).isSome = true
    · have h2' := (get_some x.1 n).mp h2
      rw [if_pos h2]
      simp only [raise, Except.map, reduceCtorEq, false_iff]
      tauto
    · have h2' := fun h => h2 ((get_some x.1 n).mpr h)
      rw [if_neg h2]
      simp only [raise, Except.map, Except.error.injEq]
      exact ⟨fun h => ⟨h.symm, h2'⟩, fun h => h.1.symm⟩
  | setDescription d => simp [PySuite.call]
  | setMode t =>
    simp only [PySuite.call]
    cases hm : Mode.parse t with
    | none =>
      simp only [Except.error.injEq]
      exact ⟨fun h => ⟨h.symm, parse_none hm⟩, fun h => h.1.symm⟩
    | some m =>
      simp only [reduceCtorEq, false_iff]
      rintro ⟨_, h⟩
      rw [parse_some hm] at h
      exact h (text_mem m)
  | save p => simp [PySuite.call]

/-- C251: reading the conflict mode and setting it again changes nothing. -/
theorem C251_mode (alnum : Char → Bool) (y : Yaml) (x : Suite × Fs) : PySuite.call alnum y x.1 x.2 (.setMode (PySuite.mode x.1)) = .ok x := by
  unfold PySuite.call PySuite.mode
  simp only [(C107_mode x.1.mode).1]

/-- C251: what was saved to a path is loaded from it, as it was when it was saved, whatever is done with the suite afterwards but
saving it there again. -/
theorem C251_saved (alnum : Char → Bool) (y : Yaml) (x : Suite × Fs) (path : Str) (hy : y.read (y.write x.1.file) = some x.1.file)
    (later : List Call) (hl : ∀ c ∈ later, pathSet c ≠ some (some path)) :
    PySuite.load y (run alnum y x (.save path :: later)).2 path = .ok { x.1 with path := some path, status := .okay } := by
  have hmem : ∀ z : Suite × Fs, mget (run alnum y z later).2 path = mget z.2 path := by
    induction later with
    | nil => intro z; rfl
    | cons c cs ih =>
      intro z
      have : run alnum y z (c :: cs) = run alnum y (step alnum y z c) cs := by simp [run]
      rw [this, ih (fun c' hc => hl c' (List.mem_cons_of_mem _ hc)),
        step_elsewhere alnum y z c path (hl c List.mem_cons_self)]
  have h1 : run alnum y x (.save path :: later) = run alnum y (x.1.save y path x.2) later := by simp [run, step, PySuite.call]
  have h2 := (C107_roundtrip y x.1 hy path x.2).1
  unfold PySuite.load
  have h3 : Suite.load y (run alnum y x (.save path :: later)).2 path = Suite.load y (x.1.save y path x.2).2 path := by
    unfold Suite.load
    rw [h1, hmem]
  rw [h3, h2]
  rfl

/-- C251: loading by path gives the suite of that directory and raises only `IOError`, exactly if there is no file that can be read;
loading by name gives that of the first search path with a suite of the name, and raises `KeyError` if there is none or it is broken. -/
theorem C251_load (y : Yaml) (join : Str → Str → Str) (fs : Fs) (name path : Str) (paths : List Str) :
    (∀ s, PySuite.load y fs path = .ok s ↔ Suite.load y fs path = .ok s) ∧
    (∀ e, PySuite.load y fs path = .error e ↔ e = .ioError ∧ ∀ text, (mget fs path).bind Dir.yaml = some text → y.read text = none) ∧
    (∀ s, loadByName y join fs name paths = .ok s ↔
      ∃ base, (paths.find? fun base => isSuite fs (join base name)) = some base ∧ PySuite.load y fs (join base name) = .ok s) ∧
    ∀ e, loadByName y join fs name paths = .error e → e = .keyError := by
  have hr : ∀ (x : Exc) (r : Except Err Suite) s, raise x r = .ok s ↔ r = .ok s := by
    intro x r s; cases r <;> simp [raise]
  refine ⟨fun s => hr _ _ s, fun e => ?_, fun s => ?_, fun e he => ?_⟩
  · unfold PySuite.load Suite.load
    cases h : (mget fs path).bind Dir.yaml with
    | none => simp [raise, eq_comm]
    | some text =>
      cases h2 : y.read text with
      | none => simp [raise, h2, eq_comm]
      | some f => simp [raise, h2]
  · unfold loadByName
    rw [hr, C108_first]
    cases h : paths.find? fun base => isSuite fs (join base name) with
    | none => simp
    | some base => simp [PySuite.load, hr]
  · unfold loadByName at he
    cases h : loadSuite y join fs name paths with
    | ok s => rw [h] at he; cases he
    | error e' => rw [h] at he; cases he; rfl

/-- C251: tools are given as they are in the suite; only a conflict raises, with `RuntimeError`. -/
theorem C251_tools (iter : List (Str × Str) → List (Str × Str)) (s : Suite) :
    (∀ l, s.tools iter = .ok l → ∃ t, PySuite.tools iter s = .ok t ∧ t.map Prod.fst = mkeys l ∧
      ∀ k n o c p a, (k, n, o, c, p, a) ∈ t ↔
        ∃ u : Tool, (k, u) ∈ l ∧ u.name = n ∧ u.original = o ∧ u.context = c ∧ u.package = p ∧ u.isAlias = a) ∧
    (∀ e, s.tools iter = .error e → PySuite.tools iter s = .error .runtimeError) := by
  unfold PySuite.tools
  constructor
  · intro l hl
    rw [hl]
    refine ⟨_, rfl, by simp [mkeys, Function.comp_def], ?_⟩
    intro k n o c p a
    simp only [List.mem_map, Prod.mk.injEq]
    constructor
    · rintro ⟨⟨k', u⟩, hm, rfl, h⟩
      exact ⟨u, hm, h⟩
    · rintro ⟨u, hm, h⟩
      exact ⟨(k, u), hm, rfl, h⟩
  · intro e he
    rw [he]

/-- C251 is false for the names of tools: `hide_tool` and `alias_tool` take tools that nothing offers. -/
theorem C251_unknown_tool_false :
    ∃ s, PySuite.call isAlpha noYaml (make none) [] (.addContext c!"a" [c!"maya"]) = .ok (s, []) ∧
      (∀ c ∈ s.contexts, ∀ n, offer c n = none) ∧
      ∃ s', PySuite.call isAlpha noYaml s [] (.hideTool c!"a" c!"nothing") = .ok (s', []) := by
  refine ⟨_, rfl, ?_, _, rfl⟩
  intro c hc n
  simp only [make, Suite.new, List.nil_append, List.mem_singleton] at hc
  subst hc
  rfl

-- a suite with two contexts, one refused, a mode in upper case and one refused
example : ∃ s, run isAlpha noYaml (make (some c!"d"), [])
    [.addContext c!"a" [c!"maya"], .addContext c!"a" [], .addContext c!"b" [], .setMode c!"LAST", .setMode c!"none", .save c!"/s",
     .setDescription none, .removeContext c!"c"] = s ∧
    s.1.names = [c!"a", c!"b"] ∧ PySuite.mode s.1 = c!"last" ∧ s.1.description = none ∧ s.1.path = some c!"/s" :=
  ⟨_, rfl, by decide +kernel, by decide +kernel, by decide +kernel, by decide +kernel⟩

end Rez.Props
