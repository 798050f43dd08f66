import Verif.Spec.Lists
import Mathlib.Data.List.Nodup
import Mathlib.Data.List.Dedup
import Mathlib.Data.List.Induction
import Mathlib.Data.List.Perm.Subperm
import Mathlib.Tactic.ByContra
/-!
# Requirement lists, conflict lists (C70) and release hooks (C72)
-/
namespace Rez.Props
open Rez Rez.Lists Rez.Spec.Lists

variable {α : Type}

namespace ListsLemmas

/-- `after`, one call at a time from the end. -/
theorem after_snoc (name : α → Str) (ops : List (Op α)) (op : Op α) :
    after name (ops ++ [op]) = match op with
      | .add x => (after name ops).add name x
      | .remove n => (after name ops).remove n := by
  unfold after
  rw [List.foldl_append]
  cases op <;> rfl

theorem kept_add (name : α → Str) (ops : List (Op α)) (x : α) : kept name (ops ++ [.add x]) = kept name ops ++ [x] := by
  induction ops with
  | nil => rfl
  | cons o ops ih =>
    cases o with
    | add y => simp only [List.cons_append, kept, ih, List.any_append, List.any_cons, List.any_nil, Bool.or_false, List.append_assoc]
    | remove n => simp only [List.cons_append, kept, ih]

theorem kept_remove (name : α → Str) (ops : List (Op α)) (n : Str) :
    kept name (ops ++ [.remove n]) = (kept name ops).filter fun x => name x ≠ n := by
  induction ops with
  | nil => rfl
  | cons o ops ih =>
    cases o with
    | add y =>
      simp only [List.cons_append, kept, ih, List.any_append, List.any_cons, List.any_nil, Bool.or_false, List.filter_append]
      congr 1
      by_cases h : n = name y
      · subst h
        simp only [beq_self_eq_true, Bool.or_true, if_true]
        split <;> simp
      · have h1 : (n == name y) = false := by simpa using h
        have h2 : name y ≠ n := fun e => h e.symm
        simp only [h1, Bool.or_false]
        split <;> simp [h2]
    | remove m => simp only [List.cons_append, kept, ih]

/-- What the map holds. -/
theorem after_spec (name : α → Str) (ops : List (Op α)) :
    (mkeys (after name ops)).Nodup ∧ ∀ n, mget (after name ops) n =
      if (kept name ops).filter (fun x => name x = n) = [] then none
      else some ((kept name ops).filter fun x => name x = n) := by
  induction ops using List.reverseRecOn with
  | nil => exact ⟨List.nodup_nil, fun n => rfl⟩
  | append_singleton ops op ih =>
    obtain ⟨hn, hg⟩ := ih
    rw [after_snoc]
    cases op with
    | add x =>
      refine ⟨nodup_mset hn _ _, fun n => ?_⟩
      simp only [Multi.add, mget_mset, kept_add, List.filter_append]
      by_cases h : n = name x
      · subst h
        rw [if_pos rfl, hg]
        split
        · rename_i h; simp [h]
        · simp
      · rw [if_neg h, hg]
        have : name x ≠ n := fun e => h e.symm
        simp [List.filter_singleton, this]
    | remove m =>
      refine ⟨nodup_mdel hn _, fun n => ?_⟩
      simp only [Multi.remove, mget_mdel, kept_remove, List.filter_filter]
      by_cases h : n = m
      · subst h
        rw [if_pos rfl, if_pos]
        rw [List.filter_eq_nil_iff]
        intro x _
        by_cases hx : name x = n <;> simp [hx]
      · rw [if_neg h, hg]
        have : ((kept name ops).filter fun x => decide (name x = n) && decide (name x ≠ m)) =
            (kept name ops).filter fun x => decide (name x = n) := by
          apply List.filter_congr
          intro x _
          by_cases hx : name x = n
          · subst hx; simp [h]
          · simp [hx]
        rw [this]

/-- A list is its entries grouped by name. -/
theorem grouped (name : α → Str) (l : List α) (m : Multi α) (hn : (mkeys m).Nodup)
    (hg : ∀ n, mget m n = if l.filter (fun x => name x = n) = [] then none else some (l.filter fun x => name x = n)) :
    (m.flatMap Prod.snd).Perm l := by
  induction m generalizing l with
  | nil =>
    have : l = [] := by
      by_contra hne
      obtain ⟨x, hx⟩ := List.exists_mem_of_ne_nil _ hne
      have := hg (name x)
      rw [if_neg] at this
      · simp at this
      · exact fun h => by
          have hm : x ∈ l.filter fun y => name y = name x := by simp [hx]
          rw [h] at hm
          cases hm
    subst this
    exact List.Perm.refl _
  | cons e m ih =>
    obtain ⟨k, v⟩ := e
    have hv : v = l.filter fun x => name x = k := by
      have := hg k
      rw [mget, if_pos rfl] at this
      split at this
      · cases this
      · exact Option.some.inj this
    have hk : k ∉ mkeys m := (List.nodup_cons.mp hn).1
    have hrest : (m.flatMap Prod.snd).Perm (l.filter fun x => !decide (name x = k)) := by
      refine ih _ (List.nodup_cons.mp hn).2 fun n => ?_
      rw [List.filter_filter]
      by_cases hnk : n = k
      · subst hnk
        rw [(mget_none_iff m n).mpr hk, if_pos]
        rw [List.filter_eq_nil_iff]
        intro x _
        by_cases hx : name x = n <;> simp [hx]
      · have h1 := hg n
        rw [mget, if_neg (fun h => hnk h.symm)] at h1
        rw [h1]
        have : (l.filter fun x => decide (name x = n) && !decide (name x = k)) = l.filter fun x => decide (name x = n) := by
          apply List.filter_congr
          intro x _
          by_cases hx : name x = n
          · subst hx; simp [hnk]
          · simp [hx]
        rw [this]
    rw [List.flatMap_cons]
    subst hv
    exact (List.Perm.append_left _ hrest).trans (List.filter_append_perm _ l)

end ListsLemmas
open ListsLemmas

/-- C70: after any calls, the entries of a name are those added and not removed since, in the order of adding; all
entries together are those of all names, whatever the order of the hash map; the list is empty exactly if nothing is
left. -/
theorem C70_entries (name : α → Str) (ops : List (Op α)) (iter : Multi α → Multi α) (hi : ∀ m, (iter m).Perm m) :
    (∀ n, (after name ops).get n = (kept name ops).filter fun x => name x = n) ∧
    ((after name ops).all iter).Perm (kept name ops) ∧
    ((after name ops).isEmpty = true ↔ kept name ops = []) := by
  obtain ⟨hn, hg⟩ := after_spec name ops
  have hperm := grouped name (kept name ops) (after name ops) hn hg
  refine ⟨fun n => ?_, ((hi _).flatMap_right _).trans hperm, ?_⟩
  · unfold Multi.get
    rw [hg]
    split
    · rename_i h; rw [h]; rfl
    · rfl
  · unfold Multi.isEmpty
    rw [List.isEmpty_iff]
    constructor
    · intro h
      rw [h] at hperm
      exact List.perm_nil.mp hperm.symm
    · intro h
      cases hm : after name ops with
      | nil => rfl
      | cons e m =>
        have := hg e.1
        rw [hm, mget, if_pos rfl, h] at this
        simp at this

/-- C70: `len` is the number of different names that have entries. -/
theorem C70_names (name : α → Str) (ops : List (Op α)) :
    (after name ops).len = ((kept name ops).map name).dedup.length := by
  obtain ⟨hn, hg⟩ := after_spec name ops
  unfold Multi.len
  rw [← List.length_map (f := Prod.fst)]
  apply List.Perm.length_eq
  show (mkeys (after name ops)).Perm _
  rw [List.perm_ext_iff_of_nodup hn (List.nodup_dedup _)]
  intro n
  rw [List.mem_dedup]
  rw [← mget_isSome_iff, hg, List.mem_map]
  constructor
  · rintro ⟨v, hv⟩
    split at hv
    · cases hv
    · rename_i hne
      obtain ⟨x, hx⟩ := List.exists_mem_of_ne_nil _ hne
      simp only [List.mem_filter, decide_eq_true_eq] at hx
      exact ⟨x, hx.1, hx.2⟩
  · rintro ⟨x, hx, rfl⟩
    rw [if_neg]
    · exact ⟨_, rfl⟩
    · intro h
      have : x ∈ (kept name ops).filter fun y => name y = name x := by simp [hx]
      rw [h] at this
      cases this

/-- C70, partial: `len` counts the entries if no name has two.  Missing: names with several entries (refuted below). -/
theorem C70_len_partial (name : α → Str) (ops : List (Op α)) (h : ((kept name ops).map name).Nodup) :
    (after name ops).len = (kept name ops).length := by
  rw [C70_names, h.dedup, List.length_map]

/-- C70 is false of `len`: two requirements on one package count as one, and there are always more. -/
theorem C70_len_false (x : Str) (n : Nat) :
    let ops := List.replicate (n + 2) (Op.add x)
    (after id ops).len = 1 ∧ (kept id ops).length = n + 2 := by
  intro ops
  have hk : ∀ k, kept id (List.replicate k (Op.add x)) = List.replicate k x := by
    intro k
    induction k with
    | zero => rfl
    | succ k ih =>
      rw [List.replicate_succ, kept, if_neg, ih]
      · rfl
      · simp
  refine ⟨?_, by rw [hk, List.length_replicate]⟩
  rw [C70_names, hk, List.map_id, List.replicate_succ, List.dedup_cons_of_mem (by simp [List.replicate_succ])]
  induction n with
  | zero => rfl
  | succ n ih =>
    rw [List.replicate_succ, List.dedup_cons_of_mem (by simp [List.replicate_succ])]
    exact ih

-- three requirements on two packages, one removed and added again
example : (after Prod.fst [.add (c!"a", 1), .add (c!"b", 2), .add (c!"a", 3), .remove c!"a", .add (c!"a", 4)]).get c!"a" = [(c!"a", 4)] ∧
    (after Prod.fst [.add (c!"a", 1), .add (c!"b", 2), .add (c!"a", 3)]).get c!"a" = [(c!"a", 1), (c!"a", 3)] ∧
    (after Prod.fst [.add (c!"a", 1), .add (c!"b", 2), .add (c!"a", 3)]).len = 2 := ⟨by rfl, by rfl, by rfl⟩

/-! ## C72 -/

variable {Hook : Type}

namespace ListsLemmas
theorem registered_get (rs : List (Str × (Str → Option Hook))) (n : Str) : mget (registered rs) n = lastRegistered rs n := by
  induction rs with
  | nil => rfl
  | cons e rs ih =>
    obtain ⟨m, f⟩ := e
    rw [registered, lastRegistered, Registry.register, mget_mset, ih]
    by_cases h : m = n
    · rw [if_pos h, if_pos h.symm]
    · rw [if_neg h, if_neg (fun e => h e.symm)]
end ListsLemmas

/-- C72: a hook is created by the factory registered last under the name; a name without one is an error; the types are
the registered names, each once. -/
theorem C72_create (rs : List (Str × (Str → Option Hook))) (name path : Str) :
    (registered rs).create name path = (lastRegistered rs name).bind (· path) ∧
    (registered rs).types.Nodup ∧ (name ∈ (registered rs).types ↔ ∃ f, (name, f) ∈ rs) := by
  refine ⟨?_, ?_, ?_⟩
  · unfold Registry.create
    rw [registered_get]
    cases lastRegistered rs name <;> rfl
  · unfold Registry.types
    induction rs with
    | nil => exact List.nodup_nil
    | cons e rs ih => exact nodup_mset ih _ _
  · unfold Registry.types
    rw [← mget_isSome_iff, registered_get]
    induction rs with
    | nil => simp [lastRegistered]
    | cons e rs ih =>
      obtain ⟨m, f⟩ := e
      rw [lastRegistered]
      by_cases h : m = name
      · subst h; simp
      · have h' : name ≠ m := fun e => h e.symm
        rw [if_neg h, ih]
        simp [h']

/-- C72, partial: if a hook can be created for every requested type, `create_hooks` gives exactly one per type, in order.
Missing: types that are not registered (refuted below). -/
theorem C72_order_partial (rs : List (Str × (Str → Option Hook))) (path : Str) (names : List Str)
    (h : ∀ n ∈ names, ∃ f k, lastRegistered rs n = some f ∧ f path = some k) :
    ((registered rs).createAll path names).map some = names.map fun n => (lastRegistered rs n).bind (· path) := by
  induction names with
  | nil => rfl
  | cons n names ih =>
    obtain ⟨f, k, hf, hk⟩ := h n List.mem_cons_self
    rw [Registry.createAll, (C72_create rs n path).1, hf]
    simp only [Option.bind_some, hk, List.map_cons, hf]
    rw [ih fun m hm => h m (List.mem_cons_of_mem _ hm)]

/-- C72: what `create_hooks` does in general: the types for which no hook can be created are left out, the others keep
their order. -/
theorem C72_skip (rs : List (Str × (Str → Option Hook))) (path : Str) (names : List Str) :
    (registered rs).createAll path names = names.filterMap fun n => (lastRegistered rs n).bind (· path) := by
  induction names with
  | nil => rfl
  | cons n names ih =>
    rw [Registry.createAll, (C72_create rs n path).1, ih]
    cases h : (lastRegistered rs n).bind (· path) <;> simp [h]

/-- C72 is false: a type that is not registered is left out without an error, wherever it stands. -/
theorem C72_unknown_false (rs : List (Str × (Str → Option Hook))) (path name : Str) (h : lastRegistered rs name = none)
    (before after : List Str) :
    (registered rs).createAll path (before ++ name :: after) = (registered rs).createAll path (before ++ after) := by
  rw [C72_skip, C72_skip]
  simp [h]

example : (registered [(c!"mail", fun p => some (c!"new " ++ p)), (c!"web", fun _ => none), (c!"mail", fun p => some p)]).createAll c!"/r"
    [c!"mail", c!"web", c!"sms", c!"mail"] = [c!"new /r", c!"new /r"] := by rfl

end Rez.Props
