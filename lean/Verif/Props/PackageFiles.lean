import Verif.Spec.PackageFiles
import Verif.Props.Rex
import Mathlib.Data.List.Nodup
import Mathlib.Tactic.ByContra
/-!
# Package directories: C119 (copy), C120 (move), C121 (remove)
-/
namespace Rez.Props
open Rez Rez.Files Rez.Spec.Files
open Rez.Spec.Files (Entry.isFile Entry.bytes)

namespace FilesLemmas

/-- The path of a step. -/
def path : Step → Path
  | .mkdir p => p
  | .create p => p
  | .write p _ => p
  | .remove p => p

theorem apply_other (fs : FS) (s : Step) {q : Path} (h : path s ≠ q) : mget (s.apply fs) q = mget fs q := by
  cases s with
  | mkdir p =>
    simp only [Step.apply]
    split
    · rfl
    · rw [mget_mset, if_neg (fun e => h e.symm)]
  | create p => rw [Step.apply, mget_mset, if_neg (fun e => h e.symm)]
  | write p e => rw [Step.apply, mget_mset, if_neg (fun e => h e.symm)]
  | remove p => rw [Step.apply, mget_mdel, if_neg (fun e => h e.symm)]

theorem run_other (fs : FS) (steps : List Step) {q : Path} (h : ∀ s ∈ steps, path s ≠ q) : mget (run fs steps) q = mget fs q := by
  unfold run
  induction steps generalizing fs with
  | nil => rfl
  | cons s steps ih =>
    rw [List.foldl_cons, ih _ fun x hx => h x (List.mem_cons_of_mem _ hx), apply_other fs s (h s List.mem_cons_self)]

theorem run_append (fs : FS) (a b : List Step) : run fs (a ++ b) = run (run fs a) b := by
  unfold run
  rw [List.foldl_append]

theorem nodup_apply {fs : FS} (h : (mkeys fs).Nodup) (s : Step) : (mkeys (s.apply fs)).Nodup := by
  cases s with
  | mkdir p =>
    simp only [Step.apply]
    split
    · exact h
    · exact nodup_mset h _ _
  | create p => exact nodup_mset h _ _
  | write p e => exact nodup_mset h _ _
  | remove p => exact nodup_mdel h _

theorem nodup_run {fs : FS} (h : (mkeys fs).Nodup) (steps : List Step) : (mkeys (run fs steps)).Nodup := by
  unfold run
  induction steps generalizing fs with
  | nil => exact h
  | cons s steps ih => exact ih (nodup_apply h s)

theorem removes_get (fs : FS) (ps : List Path) (q : Path) :
    mget (run fs (ps.map Step.remove)) q = if q ∈ ps then none else mget fs q := by
  unfold run
  induction ps generalizing fs with
  | nil => simp
  | cons p ps ih =>
    rw [List.map_cons, List.foldl_cons, ih, Step.apply, mget_mdel]
    by_cases h1 : q ∈ ps
    · simp [h1]
    · by_cases h2 : q = p
      · simp [h2]
      · simp [h1, h2]

theorem removeTree_get {order : Order} (ho : Lists order) (fs : FS) (p q : Path) :
    mget (run fs (removeTree order fs p)) q = if p <+: q then none else mget fs q := by
  unfold removeTree
  have : (order (fs.filter fun e => p.isPrefixOf e.1)).map (fun e => Step.remove e.1) =
      ((order (fs.filter fun e => p.isPrefixOf e.1)).map Prod.fst).map Step.remove := by
    rw [List.map_map]; rfl
  rw [this, removes_get]
  have hmem : q ∈ (order (fs.filter fun e => p.isPrefixOf e.1)).map Prod.fst ↔ p <+: q ∧ q ∈ mkeys fs := by
    constructor
    · intro h
      obtain ⟨e, he, rfl⟩ := List.mem_map.mp h
      have := List.mem_filter.mp ((ho _).mem_iff.mp he)
      exact ⟨List.isPrefixOf_iff_prefix.mp this.2, List.mem_map_of_mem this.1⟩
    · rintro ⟨h1, h2⟩
      obtain ⟨e, he, rfl⟩ := List.mem_map.mp h2
      exact List.mem_map_of_mem ((ho _).mem_iff.mpr (List.mem_filter.mpr ⟨he, List.isPrefixOf_iff_prefix.mpr h1⟩))
  by_cases h1 : p <+: q
  · by_cases h2 : q ∈ mkeys fs
    · rw [if_pos (hmem.mpr ⟨h1, h2⟩), if_pos h1]
    · rw [if_pos h1]
      split
      · rfl
      · exact (mget_none_iff fs q).mpr h2
  · rw [if_neg h1, if_neg fun h => h1 (hmem.mp h).1]

theorem removeTree_path {order : Order} (ho : Lists order) (fs : FS) (p : Path) :
    ∀ s ∈ removeTree order fs p, p <+: path s := by
  intro s hs
  obtain ⟨e, he, rfl⟩ := List.mem_map.mp hs
  exact List.isPrefixOf_iff_prefix.mp (List.mem_filter.mp ((ho _).mem_iff.mp he)).2

theorem mkdirs_get (fs : FS) (ps : List Path) (q : Path) :
    mget (run fs (ps.map Step.mkdir)) q = if q ∈ ps then some ((mget fs q).getD .dir) else mget fs q := by
  unfold run
  induction ps generalizing fs with
  | nil => simp
  | cons p ps ih =>
    rw [List.map_cons, List.foldl_cons, ih]
    have hstep : mget ((Step.mkdir p).apply fs) q = if q = p then some ((mget fs q).getD .dir) else mget fs q := by
      simp only [Step.apply]
      by_cases h : q = p
      · subst h
        cases hm : mget fs q with
        | none => simp [mget_mset]
        | some e => simp [hm]
      · rw [if_neg h]
        split
        · rfl
        · rw [mget_mset, if_neg h]
    rw [hstep]
    by_cases h1 : q ∈ ps
    · rw [if_pos h1, if_pos (List.mem_cons_of_mem _ h1)]
      split
      · simp
      · rfl
    · by_cases h2 : q = p
      · simp [h1, h2]
      · simp [h1, h2]

theorem mkdirAll_get (fs : FS) (p q : Path) :
    mget (run fs (mkdirAll p)) q = if q <+: p then some ((mget fs q).getD .dir) else mget fs q := by
  unfold mkdirAll
  rw [mkdirs_get]
  by_cases h : q <+: p
  · rw [if_pos h, if_pos ((List.mem_inits q p).mpr h)]
  · rw [if_neg h, if_neg fun hm => h ((List.mem_inits q p).mp hm)]

theorem below_get (fs : FS) (p r : Path) : mget (below fs p) r = if r = [] then none else mget fs (p ++ r) := by
  unfold below
  induction fs with
  | nil => simp [mget]
  | cons e fs ih =>
    obtain ⟨a, v⟩ := e
    by_cases h : (p.isPrefixOf a && a != p) = true
    · rw [List.filter_cons_of_pos (p := fun e : Path × Entry => p.isPrefixOf e.1 && e.1 != p) h, List.map_cons, mget, ih]
      rw [Bool.and_eq_true] at h
      obtain ⟨t, rfl⟩ := List.isPrefixOf_iff_prefix.mp h.1
      have ht : t ≠ [] := by
        intro e
        subst e
        simp at h
      simp only [List.drop_left, mget, List.append_cancel_left_eq]
      by_cases hr : t = r
      · subst hr
        simp [ht]
      · simp [hr]
    · rw [List.filter_cons_of_neg (p := fun e : Path × Entry => p.isPrefixOf e.1 && e.1 != p) h, ih, mget]
      by_cases hr : r = []
      · simp [hr]
      · rw [if_neg hr, if_neg hr]
        by_cases ha : a = p ++ r
        · subst ha
          exfalso
          apply h
          rw [Bool.and_eq_true]
          exact ⟨List.isPrefixOf_iff_prefix.mpr (List.prefix_append _ _), by simpa using hr⟩
        · rw [if_neg ha]

theorem below_nodup {fs : FS} (h : (mkeys fs).Nodup) (p : Path) : (mkeys (below fs p)).Nodup := by
  unfold below mkeys
  rw [List.map_map]
  have h1 : ((fs.filter fun e => p.isPrefixOf e.1 && e.1 != p).map Prod.fst).Nodup :=
    List.Nodup.sublist (List.filter_sublist.map _) h
  have : (fs.filter fun e => p.isPrefixOf e.1 && e.1 != p).map (Prod.fst ∘ fun e => (e.1.drop p.length, e.2)) =
      ((fs.filter fun e => p.isPrefixOf e.1 && e.1 != p).map Prod.fst).map (List.drop p.length) := by
    rw [List.map_map]; rfl
  rw [this]
  refine List.Nodup.map_on ?_ h1
  intro x hx y hy hxy
  have key : ∀ z ∈ (fs.filter fun e => p.isPrefixOf e.1 && e.1 != p).map Prod.fst, p <+: z := by
    intro z hz
    obtain ⟨e, he, rfl⟩ := List.mem_map.mp hz
    have := (List.mem_filter.mp he).2
    rw [Bool.and_eq_true] at this
    exact List.isPrefixOf_iff_prefix.mp this.1
  obtain ⟨s, rfl⟩ := key x hx
  obtain ⟨t, rfl⟩ := key y hy
  simpa using hxy

theorem copyEntry_path (dest : Path) (e : Path × Entry) : ∀ s ∈ copyEntry dest e, path s = dest ++ e.1 := by
  intro s hs
  unfold copyEntry at hs
  cases he : e.2 <;> rw [he] at hs <;> simp at hs
  · subst hs; rfl
  · rcases hs with rfl | rfl <;> rfl
  · subst hs; rfl

theorem copyEntry_get (fs : FS) (dest : Path) (e : Path × Entry) (hs : e.2 ≠ .special) (hfree : mget fs (dest ++ e.1) = none)
    (q : Path) : mget (run fs (copyEntry dest e)) q = if q = dest ++ e.1 then some e.2 else mget fs q := by
  unfold copyEntry
  cases he : e.2 with
  | dir => simp [run, Step.apply, hfree, mget_mset]
  | file c =>
    simp only [run, List.foldl_cons, List.foldl_nil, Step.apply, mget_mset]
    split <;> rfl
  | link t => simp [run, Step.apply, mget_mset]
  | special => exact absurd he hs

theorem copies_get (dest : Path) (es : FS) (hn : (mkeys es).Nodup) (hs : ∀ e ∈ es, e.2 ≠ .special) (fs : FS)
    (hfree : ∀ e ∈ es, mget fs (dest ++ e.1) = none) (r : Path) :
    mget (run fs (es.flatMap (copyEntry dest))) (dest ++ r) = (mget es r).or (mget fs (dest ++ r)) := by
  induction es generalizing fs with
  | nil => rfl
  | cons e es ih =>
    have hn' := List.nodup_cons.mp hn
    have hstep := copyEntry_get fs dest e (hs e List.mem_cons_self) (hfree e List.mem_cons_self)
    rw [List.flatMap_cons, run_append, ih hn'.2 (fun x hx => hs x (List.mem_cons_of_mem _ hx)), hstep]
    · obtain ⟨a, v⟩ := e
      rw [mget]
      by_cases h : a = r
      · subst h
        rw [(mget_none_iff es a).mpr hn'.1]
        simp
      · rw [if_neg h]
        simp [Ne.symm h]
    · intro x hx
      rw [hstep, if_neg]
      · exact hfree x (List.mem_cons_of_mem _ hx)
      · intro heq
        have : x.1 = e.1 := List.append_cancel_left heq
        exact hn'.1 (this ▸ List.mem_map_of_mem hx)

theorem mget_perm_entries {m m' : FS} (h : m.Perm m') (hn : (mkeys m).Nodup) (k : Path) : mget m' k = mget m k := by
  have hn' : (mkeys m').Nodup := (h.map Prod.fst).nodup_iff.mp hn
  cases hg : mget m k with
  | some v => exact mget_of_mem hn' (h.mem_iff.mp (mget_some_mem hg))
  | none =>
    rw [mget_none_iff] at hg ⊢
    exact fun hm => hg ((h.map Prod.fst).mem_iff.mpr hm)

theorem copyTree_get {order : Order} (ho : Lists order) {fs : FS} (hn : (mkeys fs).Nodup) (src dest : Path)
    (hs : ∀ r, mget fs (src ++ r) ≠ some .special) (hfree : ∀ r, r ≠ [] → mget fs (dest ++ r) = none) (r : Path) :
    mget (run fs (copyTree order fs src dest)) (dest ++ r) = if r = [] then mget fs dest else mget fs (src ++ r) := by
  unfold copyTree
  have hperm := ho (below fs src)
  have hnb := below_nodup hn src
  have hno : (mkeys (order (below fs src))).Nodup := (hperm.map Prod.fst).nodup_iff.mpr hnb
  have hmem : ∀ e ∈ order (below fs src), mget (below fs src) e.1 = some e.2 := by
    intro e he
    exact mget_of_mem hnb (hperm.mem_iff.mp he)
  rw [copies_get dest _ hno]
  · rw [mget_perm_entries hperm.symm hnb, below_get]
    by_cases hr : r = []
    · simp [hr]
    · rw [if_neg hr, if_neg hr, hfree r hr]
      simp
  · intro e he hsp
    have := hmem e he
    rw [below_get] at this
    split at this
    · cases this
    · rw [hsp] at this
      exact hs _ this
  · intro e he
    have := hmem e he
    rw [below_get] at this
    split at this
    · cases this
    · rename_i h
      exact hfree _ h

theorem copyTree_path (order : Order) (fs : FS) (src dest : Path) : ∀ s ∈ copyTree order fs src dest, dest <+: path s := by
  intro s hs
  obtain ⟨e, _, he⟩ := List.mem_flatMap.mp hs
  rw [copyEntry_path dest e s he]
  exact List.prefix_append _ _

theorem mkdirAll_path (p : Path) : ∀ s ∈ mkdirAll p, path s <+: p := by
  intro s hs
  obtain ⟨q, hq, rfl⟩ := List.mem_map.mp hs
  exact (List.mem_inits q p).mp hq

theorem below_perm {fs fs' : FS} (hn : (mkeys fs).Nodup) (hn' : (mkeys fs').Nodup) {src : Path}
    (h : ∀ r, mget fs' (src ++ r) = mget fs (src ++ r)) : (below fs' src).Perm (below fs src) := by
  have hb := below_nodup hn src
  have hb' := below_nodup hn' src
  rw [List.perm_ext_iff_of_nodup (List.Nodup.of_map _ hb') (List.Nodup.of_map _ hb)]
  have hg : ∀ r, mget (below fs' src) r = mget (below fs src) r := by
    intro r
    rw [below_get, below_get, h]
  intro e
  constructor
  · intro he
    have := mget_of_mem hb' he
    rw [hg] at this
    exact mget_some_mem this
  · intro he
    have := mget_of_mem hb he
    rw [← hg] at this
    exact mget_some_mem this

theorem sum_perm {a b : List Nat} (h : a.Perm b) : a.sum = b.sum := by
  induction h with
  | nil => rfl
  | cons x _ ih => simp [ih]
  | swap x y l => simp [Nat.add_left_comm]
  | trans _ _ h1 h2 => exact h1.trans h2

theorem prefix_append_cases {α : Type _} {p a b : List α} (h : p <+: a ++ b) : p <+: a ∨ ∃ p', p = a ++ p' ∧ p' <+: b := by
  rcases List.prefix_or_prefix_of_prefix h (List.prefix_append a b) with h' | ⟨t, rfl⟩
  · exact Or.inl h'
  · exact Or.inr ⟨t, rfl, (List.prefix_append_right_inj a).mp h⟩

theorem copyStats_eq {fs fs' : FS} (hn : (mkeys fs).Nodup) (hn' : (mkeys fs').Nodup) {src : Path} (hd : mget fs src = some .dir)
    (h : ∀ r, mget fs' (src ++ r) = mget fs (src ++ r)) :
    (copyStats fs' src).1 = (fs.filter fun e => src.isPrefixOf e.1 && Entry.isFile e.2).length ∧
    (copyStats fs' src).2 = ((fs.filter fun e => src.isPrefixOf e.1).map fun e => Entry.bytes e.2).sum := by
  have hp := below_perm hn hn' h
  unfold copyStats
  have hself : ∀ e ∈ fs, e.1 = src → e.2 = .dir := by
    intro e he hs
    have := mget_of_mem hn he
    rw [hs, hd] at this
    exact (Option.some.inj this).symm
  constructor
  · show ((below fs' src).filter _).length = _
    rw [(hp.filter _).length_eq]
    unfold below
    rw [List.filter_map, List.length_map, List.filter_filter]
    congr 1
    apply List.filter_congr
    intro e he
    obtain ⟨a, v⟩ := e
    by_cases ha : a = src
    · have := hself _ he ha
      simp only at this
      subst this
      simp [Entry.isFile]
    · cases v <;> simp [Entry.isFile, ha]
  · show ((below fs' src).map _).sum = _
    rw [sum_perm (hp.map _)]
    unfold below
    rw [List.map_map]
    clear hd h hp hn hn'
    induction fs with
    | nil => rfl
    | cons e fs ih =>
      have ih := ih fun x hx => hself x (List.mem_cons_of_mem _ hx)
      have he := hself e List.mem_cons_self
      obtain ⟨a, v⟩ := e
      by_cases h1 : src.isPrefixOf a = true
      · by_cases h2 : a = src
        · have := he h2
          simp only at this
          subst this h2
          simpa [Entry.bytes, List.filter_cons] using ih
        · cases v <;> simpa [Entry.bytes, List.filter_cons, h1, h2] using ih
      · simpa [List.filter_cons, h1] using ih

theorem join_component (p : Path) {s : Str} (h : Component s) : join p s = p ++ [s] := by
  unfold join
  rw [splitChar_noSep h.slash]
  have hh : s.head? ≠ some '/' := by
    intro he
    obtain ⟨t, rfl⟩ : ∃ t, s = '/' :: t := by
      cases s with
      | nil => cases he
      | cons c t => simp at he; exact ⟨t, by rw [he]⟩
    exact h.slash List.mem_cons_self
  rw [if_neg hh]
  simp [pushPart, h.filled, h.dots.1, h.dots.2]

theorem join_two (p : Path) {a b : Str} (ha : Component a) (hb : Component b) : join (join p a) b = p ++ [a, b] := by
  rw [join_component p ha, join_component _ hb]
  simp

theorem apart_ne {p q : Path} (h : Apart p q) (r s : Path) : p ++ r ≠ q ++ s := by
  intro he
  rcases List.prefix_or_prefix_of_prefix (List.prefix_append p r) (he ▸ List.prefix_append q s) with h' | h'
  · exact h.1 h'
  · exact h.2 h'

/-- All steps of a copy are at the destination, or make a directory above it. -/
theorem copyInto_paths {order : Order} (ho : Lists order) (fs : FS) (force : Bool) (src dest : Path) :
    ∀ s ∈ (copyInto order fs force src dest).1, dest <+: path s ∨ path s <+: dest := by
  intro s hs
  unfold copyInto at hs
  have hclear : s ∈ (if (mget fs dest).isSome = true then removeTree order fs dest else []) → dest <+: path s := by
    intro h
    split at h
    · exact removeTree_path ho _ _ s h
    · cases h
  simp only at hs
  generalize (if (mget fs dest).isSome = true then removeTree order fs dest else []) = clear at hs hclear
  split at hs
  · cases hs
  · split at hs
    · exact Or.inl (hclear hs)
    · split at hs
      · rcases List.mem_append.mp hs with h | h
        · exact Or.inl (hclear h)
        · exact Or.inr (mkdirAll_path _ s h)
      · rcases List.mem_append.mp hs with h | h
        · rcases List.mem_append.mp h with h | h
          · exact Or.inl (hclear h)
          · exact Or.inr (mkdirAll_path _ s h)
        · exact Or.inl (copyTree_path _ _ _ _ s h)

theorem copy_paths {order : Order} (ho : Lists order) (fs : FS) (paths : List Path) (force : Bool) {name version : Str}
    (destBase : Path) : ∀ s ∈ (copyPackage order fs paths force name version destBase).1,
      join (join destBase name) version <+: path s ∨ path s <+: join (join destBase name) version := by
  intro s hs
  unfold copyPackage at hs
  split at hs
  · cases hs
  · exact copyInto_paths ho _ _ _ _ s hs

/-- A copied directory holds what the source held; nothing outside it changes but missing directories above it. -/
theorem copyInto_ok {order : Order} (ho : Lists order) {fs : FS} (hok : Ok fs) {force : Bool} {src dest : Path} {steps : List Step}
    {c : Copied} (h : copyInto order fs force src dest = (steps, .ok c)) (hdir : mget fs src = some .dir)
    (hd : Apart src dest) (hs : ∀ r, mget fs (src ++ r) ≠ some .special) :
    c.source = src ∧ c.destination = dest ∧ Same fs src (run fs steps) dest ∧
    c.files = (fs.filter fun e => src.isPrefixOf e.1 && Entry.isFile e.2).length ∧
    c.bytes = ((fs.filter fun e => src.isPrefixOf e.1).map fun e => Entry.bytes e.2).sum ∧
    (∀ q, ¬ dest <+: q → ¬ q <+: dest → mget (run fs steps) q = mget fs q) ∧
    (∀ q, q <+: dest → mget (run fs steps) q = some .dir) := by
  unfold copyInto at h
  simp only at h
  generalize hclear : (if (mget fs dest).isSome = true then removeTree order fs dest else []) = clear at *
  split at h
  · simp at h
  rename_i hexists
  split at h
  · simp at h
  rename_i hblocked
  split at h
  · simp at h
  rename_i hsrc
  simp only [Prod.mk.injEq, Except.ok.injEq] at h
  obtain ⟨hsteps, hc⟩ := h
  subst hc
  simp only at hd hs ⊢
  have g1 : ∀ q, mget (run fs clear) q = if dest <+: q then none else mget fs q := by
    intro q
    rw [← hclear]
    by_cases he : (mget fs dest).isSome = true
    · rw [if_pos he, removeTree_get ho]
    · rw [if_neg he]
      show mget fs q = _
      by_cases hq : dest <+: q
      · rw [if_pos hq]
        by_contra hne
        have hsome : (mget fs q).isSome := Option.isSome_iff_ne_none.mpr hne
        by_cases heq : dest = q
        · exact he (heq ▸ hsome)
        · rw [hok.parents q dest hq heq hsome] at he
          exact he rfl
      · rw [if_neg hq]
  have g2 : ∀ q, mget (run (run fs clear) (mkdirAll dest)) q =
      if q <+: dest then some .dir else if dest <+: q then none else mget fs q := by
    intro q
    rw [mkdirAll_get, g1]
    by_cases hq : q <+: dest
    · rw [if_pos hq, if_pos hq]
      have hb : ∀ e, mget (run fs clear) q = some e → e = .dir := by
        intro e he
        by_contra hne
        apply hblocked
        unfold blocked
        rw [List.any_eq_true]
        exact ⟨q, (List.mem_inits q dest).mpr hq, by rw [he]; simpa using hne⟩
      rw [← g1 q]
      cases hm : mget (run fs clear) q with
      | none => rfl
      | some e => rw [hb e hm]; rfl
    · rw [if_neg hq, if_neg hq]
  have hsrcq : ∀ r, mget (run (run fs clear) (mkdirAll dest)) (src ++ r) = mget fs (src ++ r) := by
    intro r
    rw [g2, if_neg, if_neg]
    · rintro ⟨t, ht⟩
      exact apart_ne hd r t ht.symm
    · intro hp
      exact hd.1 ((List.prefix_append src r).trans hp)
  have hdestq : ∀ r, r ≠ [] → mget (run (run fs clear) (mkdirAll dest)) (dest ++ r) = none := by
    intro r hr
    rw [g2, if_neg, if_pos (List.prefix_append _ _)]
    intro hp
    have := hp.length_le
    rw [List.length_append] at this
    exact hr (List.length_eq_zero_iff.mp (by omega))
  have hnd : (mkeys (run (run fs clear) (mkdirAll dest))).Nodup := nodup_run (nodup_run hok.nodup _) _
  have hrun : run fs steps = run (run (run fs clear) (mkdirAll dest)) (copyTree order (run (run fs clear) (mkdirAll dest)) src dest) := by
    rw [← hsteps, run_append, run_append]
  have hstats := copyStats_eq hok.nodup hnd hdir hsrcq
  refine ⟨trivial, trivial, ?_, hstats.1, hstats.2, ?_, ?_⟩
  · intro r
    rw [hrun, copyTree_get ho hnd src dest (fun r => by rw [hsrcq]; exact hs r) hdestq]
    by_cases hr : r = []
    · subst hr
      rw [if_pos rfl, g2, if_pos List.prefix_rfl, List.append_nil]
      exact hdir.symm
    · rw [if_neg hr, hsrcq]
  · intro q h1 h2
    rw [hrun, run_other, g2, if_neg h2, if_neg h1]
    intro s hs he
    exact h1 (he ▸ copyTree_path _ _ _ _ s hs)
  · intro q hq
    by_cases he : q = dest
    · subst he
      have := copyTree_get ho hnd src q (fun r => by rw [hsrcq]; exact hs r) hdestq []
      rw [List.append_nil] at this
      rw [hrun, this, if_pos rfl, g2, if_pos List.prefix_rfl]
    · rw [hrun, run_other, g2, if_pos hq]
      intro s hs hp
      have := copyTree_path _ _ _ _ s hs
      rw [hp] at this
      exact he (List.IsPrefix.eq_of_length hq (Nat.le_antisymm hq.length_le this.length_le))

theorem copyInto_source {order : Order} {fs : FS} {force : Bool} {src dest : Path} {steps : List Step} {c : Copied}
    (h : copyInto order fs force src dest = (steps, .ok c)) : c.source = src := by
  unfold copyInto at h
  simp only at h
  generalize (if (mget fs dest).isSome = true then removeTree order fs dest else []) = clear at h
  split at h
  · simp at h
  · split at h
    · simp at h
    · split at h
      · simp at h
      · simp only [Prod.mk.injEq, Except.ok.injEq] at h
        rw [← h.2]
theorem mem_of_prefix {steps pre : List Step} (h : Stops steps pre) {s : Step} (hs : s ∈ pre) : s ∈ steps := h.subset hs

theorem findDir_spec {fs : FS} {paths : List Path} {name version : Str} {p : Path} (h : findDir fs paths name version = some p) :
    mget fs p = some .dir ∧ ∃ b ∈ paths, p ∈ candidates b name version := by
  unfold findDir at h
  have h1 := List.find?_some h
  have h2 := List.mem_of_find?_eq_some h
  obtain ⟨b, hb, hm⟩ := List.mem_flatMap.mp h2
  exact ⟨by simpa using h1, b, hb, hm⟩

end FilesLemmas
open FilesLemmas

/-! ## C119: copying -/

/-- C119: whatever comes of a copy, and wherever it is stopped, no directory apart from the destination is changed; so
neither is the source. -/
theorem C119_source (order : Order) (ho : Lists order) (fs : FS) (paths : List Path) (force : Bool) (name version : Str)
    (hn : Component name) (hv : Component version) (destBase : Path) (pre : List Step)
    (hp : Stops (copyPackage order fs paths force name version destBase).1 pre) (p : Path)
    (hd : Apart p (destBase ++ [name, version])) : Same fs p (run fs pre) p := by
  intro r
  apply run_other
  intro s hs he
  have hpath := copy_paths ho fs paths force (name := name) (version := version) destBase s (mem_of_prefix hp hs)
  rw [join_two destBase hn hv, he] at hpath
  rcases hpath with ⟨t, ht⟩ | h
  · exact apart_ne hd r t ht.symm
  · exact hd.1 ((List.prefix_append p r).trans h)

/-- C119, partial: a copy that succeeds leaves at the destination exactly what is at the source, everything else but
directories above the destination as it was.  The source is a directory of that name and version in a search path.
Missing: sockets, pipes and devices, which are left out, and a source that holds the destination or is held by it (refuted
below). -/
theorem C119_copy_partial (order : Order) (ho : Lists order) (fs : FS) (hok : Ok fs) (paths : List Path) (force : Bool)
    (name version : Str) (hn : Component name) (hv : Component version) (destBase : Path) (steps : List Step) (c : Copied)
    (h : copyPackage order fs paths force name version destBase = (steps, .ok c))
    (hd : Apart c.source (destBase ++ [name, version])) (hs : ∀ r, mget fs (c.source ++ r) ≠ some .special) :
    c.destination = destBase ++ [name, version] ∧
    mget fs c.source = some .dir ∧
    Same fs c.source (run fs steps) c.destination ∧
    c.files = (fs.filter fun e => c.source.isPrefixOf e.1 && Entry.isFile e.2).length ∧
    c.bytes = ((fs.filter fun e => c.source.isPrefixOf e.1).map fun e => Entry.bytes e.2).sum ∧
    (∀ q, ¬ c.destination <+: q → ¬ q <+: c.destination → mget (run fs steps) q = mget fs q) ∧
    (∀ q, q <+: c.destination → mget (run fs steps) q = some .dir) := by
  unfold copyPackage at h
  cases hf : findDir fs paths name version with
  | none => rw [hf] at h; simp at h
  | some src =>
    rw [hf] at h
    simp only at h
    rw [join_two destBase hn hv] at h
    have hsrc : c.source = src := copyInto_source h
    have := copyInto_ok ho hok h (findDir_spec hf).1 (hsrc ▸ hd) (hsrc ▸ hs)
    rw [this.2.1, hsrc]
    exact ⟨rfl, (findDir_spec hf).1, this.2.2⟩

/-- C119: the source is the directory of the version, or the one named by name and version, in the first search path that
has one of them. -/
theorem C119_found (fs : FS) (paths : List Path) (name version : Str) (hn : Component name) (hv : Component version) (p : Path) :
    findDir fs paths name version = some p ↔
      ∃ before b after, paths = before ++ b :: after ∧ mget fs p = some .dir ∧
        (∀ b' ∈ before, mget fs (b' ++ [name, version]) ≠ some .dir ∧ mget fs (b' ++ [name, name ++ c!"-" ++ version]) ≠ some .dir) ∧
        (p = b ++ [name, version] ∨ mget fs (b ++ [name, version]) ≠ some .dir ∧ p = b ++ [name, name ++ c!"-" ++ version]) := by
  have hnv : Component (name ++ c!"-" ++ version) := by
    refine ⟨by simp, ?_, ?_, ?_⟩
    · simp [hn.slash, hv.slash]
    · intro h
      have := congrArg List.length h
      have h1 := List.length_pos_iff.mpr hn.filled
      simp at this
      omega
    · intro h
      have : '-' ∈ c!".." := h ▸ by simp
      exact absurd this (by decide)
  have hcand : ∀ b, candidates b name version = [b ++ [name, version], b ++ [name, name ++ c!"-" ++ version]] := by
    intro b
    unfold candidates
    rw [join_two b hn hv, join_two b hn hnv]
  unfold findDir
  induction paths with
  | nil => simp
  | cons x paths ih =>
    rw [List.flatMap_cons, hcand, List.cons_append, List.cons_append, List.nil_append, List.find?_cons]
    by_cases h1 : mget fs (x ++ [name, version]) = some .dir
    · simp only [h1, beq_self_eq_true]
      constructor
      · intro h
        exact ⟨[], x, paths, rfl, by rw [← Option.some.inj h]; exact h1, by simp, Or.inl (Option.some.inj h).symm⟩
      · rintro ⟨before, b, after, hp, hd, hb, hor⟩
        cases before with
        | nil =>
          rw [List.nil_append] at hp
          obtain ⟨rfl, rfl⟩ := List.cons.inj hp
          rcases hor with rfl | ⟨h, _⟩
          · rfl
          · exact absurd h1 h
        | cons y before =>
          obtain ⟨rfl, _⟩ := List.cons.inj hp
          exact absurd h1 (hb x List.mem_cons_self).1
    · have hb1 : (mget fs (x ++ [name, version]) == some .dir) = false := by simpa using h1
      rw [hb1]
      simp only
      rw [List.find?_cons]
      by_cases h2 : mget fs (x ++ [name, name ++ c!"-" ++ version]) = some .dir
      · simp only [h2, beq_self_eq_true]
        constructor
        · intro h
          exact ⟨[], x, paths, rfl, by rw [← Option.some.inj h]; exact h2, by simp, Or.inr ⟨h1, (Option.some.inj h).symm⟩⟩
        · rintro ⟨before, b, after, hp, hd, hb, hor⟩
          cases before with
          | nil =>
            rw [List.nil_append] at hp
            obtain ⟨rfl, rfl⟩ := List.cons.inj hp
            rcases hor with rfl | ⟨_, rfl⟩
            · exact absurd hd h1
            · rfl
          | cons y before =>
            obtain ⟨rfl, _⟩ := List.cons.inj hp
            exact absurd h2 (hb x List.mem_cons_self).2
      · have hb2 : (mget fs (x ++ [name, name ++ c!"-" ++ version]) == some .dir) = false := by simpa using h2
        rw [hb2]
        simp only
        refine Iff.trans ih ?_
        constructor
        · rintro ⟨before, b, after, rfl, hd, hb, hor⟩
          refine ⟨x :: before, b, after, rfl, hd, ?_, hor⟩
          intro b' hb'
          rcases List.mem_cons.mp hb' with rfl | hb'
          · exact ⟨h1, h2⟩
          · exact hb b' hb'
        · rintro ⟨before, b, after, hp, hd, hb, hor⟩
          cases before with
          | nil =>
            rw [List.nil_append] at hp
            obtain ⟨rfl, rfl⟩ := List.cons.inj hp
            rcases hor with rfl | ⟨_, rfl⟩
            · exact absurd hd h1
            · exact absurd hd h2
          | cons y before =>
            obtain ⟨rfl, rfl⟩ := List.cons.inj hp
            exact ⟨before, b, after, rfl, hd, fun b' hb' => hb b' (List.mem_cons_of_mem _ hb'), hor⟩

/-- A repository with one package of one file. -/
def shop : FS := [([], .dir), ([c!"r"], .dir), ([c!"r", c!"p"], .dir), ([c!"r", c!"p", c!"1"], .dir),
  ([c!"r", c!"p", c!"1", c!"package.py"], .file c!"x")]

/-- C119: the copy succeeds if the source is there and the destination is free, or can be overwritten. -/
theorem C119_succeeds (order : Order) (ho : Lists order) (fs : FS) (hok : Ok fs) (paths : List Path) (force : Bool)
    (name version : Str) (hn : Component name) (hv : Component version) (destBase src : Path)
    (hf : findDir fs paths name version = some src) (hd : Apart src (destBase ++ [name, version]))
    (he : force = true ∨ mget fs (destBase ++ [name, version]) = none)
    (hp : ∀ q, q <+: destBase ++ [name, version] → q ≠ destBase ++ [name, version] → mget fs q = none ∨ mget fs q = some .dir) :
    ∃ steps c, copyPackage order fs paths force name version destBase = (steps, .ok c) ∧ c.source = src := by
  unfold copyPackage
  rw [hf]
  simp only
  rw [join_two destBase hn hv]
  unfold copyInto
  simp only
  generalize hdest : destBase ++ [name, version] = dest at *
  rw [if_neg (by rcases he with rfl | he <;> simp [*])]
  generalize hclear : (if (mget fs dest).isSome = true then removeTree order fs dest else []) = clear
  have g1 : ∀ q, mget (run fs clear) q = if dest <+: q then none else mget fs q := by
    intro q
    rw [← hclear]
    by_cases he : (mget fs dest).isSome = true
    · rw [if_pos he, removeTree_get ho]
    · rw [if_neg he]
      show mget fs q = _
      by_cases hq : dest <+: q
      · rw [if_pos hq]
        by_contra hne
        have hsome : (mget fs q).isSome := Option.isSome_iff_ne_none.mpr hne
        by_cases heq : dest = q
        · exact he (heq ▸ hsome)
        · rw [hok.parents q dest hq heq hsome] at he
          exact he rfl
      · rw [if_neg hq]
  rw [if_neg, if_neg]
  · exact ⟨_, _, rfl, rfl⟩
  · rw [mkdirAll_get, g1, if_neg hd.1, if_neg hd.2, (findDir_spec hf).1]
    simp
  · unfold blocked
    rw [List.any_eq_true]
    rintro ⟨q, hq, ha⟩
    have hq' := (List.mem_inits q dest).mp hq
    rw [g1] at ha
    by_cases hdq : dest <+: q
    · rw [if_pos hdq] at ha
      simp at ha
    · rw [if_neg hdq] at ha
      rcases hp q hq' (fun e => hdq (e ▸ List.prefix_rfl)) with h | h <;> rw [h] at ha <;> simp at ha

/-- C119 is false of a copy onto itself: it succeeds, and the package is empty afterwards. -/
theorem C119_self_false : ∃ steps c, copyPackage id shop [[c!"r"]] true c!"p" c!"1" [c!"r"] = (steps, .ok c) ∧
    mget shop [c!"r", c!"p", c!"1", c!"package.py"] = some (.file c!"x") ∧
    mget (run shop steps) [c!"r", c!"p", c!"1", c!"package.py"] = none ∧ c.files = 0 :=
  ⟨_, _, rfl, by decide, by decide, by decide⟩

/-- C119 is false of crashes: while a package is overwritten there is a point at which the destination holds neither the
old nor the new package. -/
theorem C119_crash_false : ∃ (fs : FS) (steps pre : List Step) (c : Copied),
    copyPackage id fs [[c!"r"]] true c!"p" c!"1" [c!"s"] = (steps, .ok c) ∧ Stops steps pre ∧
    ¬ Same fs [c!"s", c!"p", c!"1"] (run fs pre) [c!"s", c!"p", c!"1"] ∧
    ¬ Same fs [c!"r", c!"p", c!"1"] (run fs pre) [c!"s", c!"p", c!"1"] := by
  refine ⟨shop ++ [([c!"s"], .dir), ([c!"s", c!"p"], .dir), ([c!"s", c!"p", c!"1"], .dir),
    ([c!"s", c!"p", c!"1", c!"package.py"], .file c!"y")], _, [.remove [c!"s", c!"p", c!"1"], .remove [c!"s", c!"p", c!"1", c!"package.py"]], _, rfl,
    List.isPrefixOf_iff_prefix.mp (by decide), ?_, ?_⟩
  · intro h
    exact absurd (h [c!"package.py"]) (by decide)
  · intro h
    exact absurd (h [c!"package.py"]) (by decide)

example : Ok shop := by
  refine ⟨by decide, ?_⟩
  intro p q hq hne hs
  obtain ⟨v, hv⟩ := Option.isSome_iff_exists.mp hs
  have key : ∀ e ∈ shop, ∀ q ∈ e.1.inits, q ≠ e.1 → mget shop q = some .dir := by decide
  exact key _ (mget_some_mem hv) q ((List.mem_inits q p).mpr hq) hne

example : Component c!"p" ∧ Component c!"1.2" :=
  ⟨⟨by decide, by decide, by decide⟩, ⟨by decide, by decide, by decide⟩⟩

example : Apart [c!"r", c!"p", c!"1"] [c!"s", c!"p", c!"1"] ∧
    (copyPackage id shop [[c!"r"]] false c!"p" c!"1" [c!"s"]).2.toOption = some ⟨[c!"r", c!"p", c!"1"], [c!"s", c!"p", c!"1"], 1, 1⟩ :=
  ⟨⟨fun h => absurd (List.isPrefixOf_iff_prefix.mpr h) (by decide), fun h => absurd (List.isPrefixOf_iff_prefix.mpr h) (by decide)⟩, by decide⟩

/-! ## C120, C121: removing and moving -/

namespace FilesLemmas

theorem removeDirs_get {order : Order} (ho : Lists order) (fs : FS) (ds : List Path) (q : Path) :
    mget (run fs (removeDirs order fs ds).1) q =
      if ∃ d ∈ ds, mget fs d = some .dir ∧ d <+: q then none else mget fs q := by
  induction ds generalizing fs with
  | nil => simp [removeDirs, run]
  | cons d ds ih =>
    rw [removeDirs]
    by_cases hd : mget fs d = some .dir
    · rw [if_pos hd]
      simp only
      rw [run_append, ih]
      by_cases hq : d <+: q
      · rw [removeTree_get ho fs d q, if_pos hq, if_pos (⟨d, List.mem_cons_self, hd, hq⟩ : ∃ d' ∈ d :: ds, mget fs d' = some .dir ∧ d' <+: q)]
        split <;> rfl
      · rw [removeTree_get ho, if_neg hq]
        have hiff : (∃ d' ∈ ds, mget (run fs (removeTree order fs d)) d' = some .dir ∧ d' <+: q) ↔
            ∃ d' ∈ d :: ds, mget fs d' = some .dir ∧ d' <+: q := by
          constructor
          · rintro ⟨d', h1, h2, h3⟩
            rw [removeTree_get ho, if_neg fun h => hq (h.trans h3)] at h2
            exact ⟨d', List.mem_cons_of_mem _ h1, h2, h3⟩
          · rintro ⟨d', h1, h2, h3⟩
            rcases List.mem_cons.mp h1 with rfl | h1
            · exact absurd h3 hq
            · refine ⟨d', h1, ?_, h3⟩
              rw [removeTree_get ho, if_neg fun h => hq (h.trans h3)]
              exact h2
        by_cases hc : ∃ d' ∈ d :: ds, mget fs d' = some .dir ∧ d' <+: q
        · rw [if_pos (hiff.mpr hc), if_pos hc]
        · rw [if_neg fun h => hc (hiff.mp h), if_neg hc]
    · rw [if_neg hd, ih]
      have hiff : (∃ d' ∈ ds, mget fs d' = some .dir ∧ d' <+: q) ↔ ∃ d' ∈ d :: ds, mget fs d' = some .dir ∧ d' <+: q := by
        constructor
        · rintro ⟨d', h1, h2⟩
          exact ⟨d', List.mem_cons_of_mem _ h1, h2⟩
        · rintro ⟨d', h1, h2⟩
          rcases List.mem_cons.mp h1 with rfl | h1
          · exact absurd h2.1 hd
          · exact ⟨d', h1, h2⟩
      by_cases hc : ∃ d' ∈ d :: ds, mget fs d' = some .dir ∧ d' <+: q
      · rw [if_pos (hiff.mpr hc), if_pos hc]
      · rw [if_neg fun h => hc (hiff.mp h), if_neg hc]

theorem removeDirs_path {order : Order} (ho : Lists order) (fs : FS) (ds : List Path) :
    ∀ s ∈ (removeDirs order fs ds).1, ∃ d ∈ ds, d <+: path s := by
  induction ds generalizing fs with
  | nil => intro s hs; cases hs
  | cons d ds ih =>
    intro s hs
    rw [removeDirs] at hs
    split at hs
    · rcases List.mem_append.mp hs with h | h
      · exact ⟨d, List.mem_cons_self, removeTree_path ho _ _ s h⟩
      · obtain ⟨x, hx, hp⟩ := ih _ s h
        exact ⟨x, List.mem_cons_of_mem _ hx, hp⟩
    · obtain ⟨x, hx, hp⟩ := ih _ s hs
      exact ⟨x, List.mem_cons_of_mem _ hx, hp⟩

/-- What is reported: with no directory in another, the directories that are there. -/
theorem removeDirs_removed {order : Order} (ho : Lists order) (fs : FS) (ds : List Path) (hd : ds.Pairwise fun a b => ¬ a <+: b) :
    (removeDirs order fs ds).2 = ds.filter fun d => mget fs d == some .dir := by
  induction ds generalizing fs with
  | nil => rfl
  | cons d ds ih =>
    have hp := List.pairwise_cons.mp hd
    rw [removeDirs]
    by_cases h : mget fs d = some .dir
    · rw [if_pos h, List.filter_cons_of_pos (by simpa using h)]
      simp only
      rw [ih _ hp.2]
      congr 1
      apply List.filter_congr
      intro x hx
      rw [removeTree_get ho, if_neg (hp.1 x hx)]
    · rw [if_neg h, List.filter_cons_of_neg (by simpa using h), ih _ hp.2]

theorem removeDirs_empty (order : Order) (fs : FS) (ds : List Path) : (removeDirs order fs ds).2 = [] ↔ ∀ d ∈ ds, mget fs d ≠ some .dir := by
  induction ds generalizing fs with
  | nil => simp [removeDirs]
  | cons d ds ih =>
    rw [removeDirs]
    by_cases h : mget fs d = some .dir
    · simp [h]
    · simp [h, ih]

theorem removeDirs_mem {order : Order} (ho : Lists order) (fs : FS) (ds : List Path) :
    ∀ d ∈ (removeDirs order fs ds).2, d ∈ ds ∧ mget fs d = some .dir := by
  induction ds generalizing fs with
  | nil => intro d h; cases h
  | cons x ds ih =>
    intro d hd
    rw [removeDirs] at hd
    split at hd
    · rename_i hx
      rcases List.mem_cons.mp hd with rfl | h
      · exact ⟨List.mem_cons_self, hx⟩
      · have := ih _ d h
        refine ⟨List.mem_cons_of_mem _ this.1, ?_⟩
        have h2 := this.2
        rw [removeTree_get ho] at h2
        split at h2
        · cases h2
        · exact h2
    · have := ih _ d hd
      exact ⟨List.mem_cons_of_mem _ this.1, this.2⟩

theorem prune_path (name : Str) (fs : FS) (bs : List Path) : ∀ s ∈ prune name fs bs, ∃ b ∈ bs, path s = join b name := by
  induction bs generalizing fs with
  | nil => intro s hs; cases hs
  | cons b bs ih =>
    intro s hs
    rw [prune] at hs
    split at hs
    · rcases List.mem_cons.mp hs with rfl | h
      · exact ⟨b, List.mem_cons_self, rfl⟩
      · obtain ⟨x, hx, hp⟩ := ih _ s h
        exact ⟨x, List.mem_cons_of_mem _ hx, hp⟩
    · obtain ⟨x, hx, hp⟩ := ih _ s hs
      exact ⟨x, List.mem_cons_of_mem _ hx, hp⟩

theorem run_cons (fs : FS) (s : Step) (ss : List Step) : run fs (s :: ss) = run (s.apply fs) ss := rfl

theorem below_isEmpty {fs : FS} {p : Path} : (below fs p).isEmpty = true ↔ ∀ r, r ≠ [] → mget fs (p ++ r) = none := by
  constructor
  · intro h r hr
    have := below_get fs p r
    rw [List.isEmpty_iff.mp h, if_neg hr] at this
    exact this.symm
  · intro h
    rw [List.isEmpty_iff]
    cases hb : below fs p with
    | nil => rfl
    | cons e l =>
      exfalso
      have hg := below_get fs p e.1
      rw [hb] at hg
      obtain ⟨a, v⟩ := e
      simp only [mget] at hg
      by_cases ha : a = []
      · simp [ha] at hg
      · simp [ha, h a ha] at hg

/-- Pruning never adds, and removes only family directories that are empty when it is done. -/
theorem prune_get (name : Str) (fs : FS) (bs : List Path) (q : Path) :
    mget (run fs (prune name fs bs)) q = mget fs q ∨
      (mget fs q = some .dir ∧ ∀ r, mget (run fs (prune name fs bs)) (q ++ r) = none) := by
  induction bs generalizing fs q with
  | nil => exact Or.inl rfl
  | cons b bs ih =>
    rw [prune]
    split
    · rename_i hc
      rw [Bool.and_eq_true] at hc
      rw [run_cons]
      have hstep : Step.apply fs (.remove (join b name)) = mdel fs (join b name) := rfl
      rw [hstep]
      have hdir : mget fs (join b name) = some .dir := by simpa using hc.1
      have hempty := below_isEmpty.mp hc.2
      by_cases hq : q = join b name
      · right
        refine ⟨hq ▸ hdir, ?_⟩
        intro r
        have hnone : mget (mdel fs (join b name)) (q ++ r) = none := by
          rw [mget_mdel, hq]
          by_cases hr : r = []
          · simp [hr]
          · rw [if_neg (by simpa using hr), hempty r hr]
        rcases ih (mdel fs (join b name)) (q ++ r) with h | h
        · rw [h, hnone]
        · rw [hnone] at h; cases h.1
      · have hs : mget (mdel fs (join b name)) q = mget fs q := by rw [mget_mdel, if_neg hq]
        rcases ih (mdel fs (join b name)) q with h | h
        · left; rw [h, hs]
        · right; exact ⟨hs ▸ h.1, h.2⟩
    · exact ih fs q

/-- An empty family directory is pruned. -/
theorem prune_empty (name : Str) (fs : FS) (bs : List Path) (b : Path) (hb : b ∈ bs) (hd : mget fs (join b name) = some .dir)
    (he : ∀ r, r ≠ [] → mget fs (join b name ++ r) = none) : mget (run fs (prune name fs bs)) (join b name) = none := by
  induction bs generalizing fs with
  | nil => cases hb
  | cons x bs ih =>
    rw [prune]
    by_cases hx : join x name = join b name
    · rw [hx, if_pos (by rw [Bool.and_eq_true]; exact ⟨by simpa using hd, below_isEmpty.mpr he⟩), run_cons]
      have hnone : mget (Step.apply fs (.remove (join b name))) (join b name) = none := by
        rw [Step.apply, mget_mdel, if_pos rfl]
      rcases prune_get name (Step.apply fs (.remove (join b name))) bs (join b name) with h | h
      · exact h.trans hnone
      · rw [hnone] at h; cases h.1
    · have hb' : b ∈ bs := by
        rcases List.mem_cons.mp hb with rfl | h
        · exact absurd rfl hx
        · exact h
      split
      · rw [run_cons]
        have hstep : Step.apply fs (.remove (join x name)) = mdel fs (join x name) := rfl
        rw [hstep]
        apply ih _ hb'
        · rw [mget_mdel, if_neg fun e => hx e.symm]; exact hd
        · intro r hr
          rw [mget_mdel]
          split
          · rfl
          · exact he r hr
      · exact ih fs hb' hd he

theorem removeVersion_path {order : Order} (ho : Lists order) (fs : FS) (paths : List Path) (force pe : Bool) (name version : Str) :
    ∀ s ∈ (removeVersion order fs paths force pe name version).1,
      ∃ b ∈ paths, join (join b name) version <+: path s ∨ path s = join b name := by
  intro s hs
  unfold removeVersion at hs
  simp only at hs
  split at hs
  · cases hs
  · rcases List.mem_append.mp hs with h | h
    · obtain ⟨d, hd, hp⟩ := removeDirs_path ho _ _ s h
      obtain ⟨b, hb, rfl⟩ := List.mem_map.mp hd
      exact ⟨b, hb, Or.inl hp⟩
    · split at h
      · obtain ⟨b, hb, hp⟩ := prune_path name _ _ s h
        exact ⟨b, hb, Or.inr hp⟩
      · cases h

end FilesLemmas

/-- The directory of the version in the search path. -/
abbrev versionDir (name version : Str) (b : Path) : Path := b ++ [name, version]

/-- C121, partial: removing a version removes its directory, with everything below it, from every search path, and nothing
else but a family directory that is empty afterwards.  Missing: names and versions that are not one component of a path
(refuted below). -/
theorem C121_version_partial (order : Order) (ho : Lists order) (fs : FS) (paths : List Path) (force pe : Bool)
    (name version : Str) (hn : Component name) (hv : Component version) :
    let fs' := run fs (removeVersion order fs paths force pe name version).1
    (∀ b ∈ paths, mget fs (b ++ [name, version]) = some .dir → Gone fs' (b ++ [name, version])) ∧
    (∀ q, (∀ b ∈ paths, ¬ b ++ [name, version] <+: q) → (∀ b ∈ paths, q ≠ b ++ [name]) → mget fs' q = mget fs q) ∧
    (∀ b ∈ paths, mget fs' (b ++ [name]) = mget fs (b ++ [name]) ∨
      (mget fs (b ++ [name]) = some .dir ∧ Gone fs' (b ++ [name])) ∨ ∃ b' ∈ paths, b' ++ [name, version] <+: b ++ [name]) := by
  have hmap : (paths.map fun b => join (join b name) version) = paths.map (versionDir name version) := by
    apply List.map_congr_left
    intro b _
    exact join_two b hn hv
  simp only
  unfold removeVersion
  rw [hmap]
  simp only
  have hg := removeDirs_get ho fs (paths.map (versionDir name version))
  by_cases hempty : (removeDirs order fs (paths.map (versionDir name version))).2.isEmpty = true
  · rw [if_pos hempty]
    have := (removeDirs_empty order fs _).mp (List.isEmpty_iff.mp hempty)
    refine ⟨fun b hb hd => absurd hd (this _ (List.mem_map_of_mem hb)), fun q _ _ => rfl, fun b _ => Or.inl rfl⟩
  · rw [if_neg hempty]
    simp only
    rw [run_append]
    generalize hfs1 : run fs (removeDirs order fs (paths.map (versionDir name version))).1 = fs1 at *
    generalize hpr : (if pe = true then prune name fs1 paths else []) = pr
    have hpg : ∀ q, mget (run fs1 pr) q = mget fs1 q ∨ (mget fs1 q = some .dir ∧ ∀ r, mget (run fs1 pr) (q ++ r) = none) := by
      intro q
      rw [← hpr]
      cases pe with
      | true => exact prune_get name fs1 paths q
      | false => exact Or.inl rfl
    have hpp : ∀ s ∈ pr, ∃ b ∈ paths, path s = join b name := by
      intro s hs
      rw [← hpr] at hs
      cases pe with
      | true => exact prune_path name fs1 paths s hs
      | false => cases hs
    refine ⟨?_, ?_, ?_⟩
    · intro b hb hd r
      have h1 : mget fs1 (b ++ [name, version] ++ r) = none := by
        rw [hg, if_pos ⟨_, List.mem_map_of_mem hb, hd, List.prefix_append _ _⟩]
      rcases hpg (b ++ [name, version] ++ r) with h | h
      · rw [h, h1]
      · rw [h1] at h; cases h.1
    · intro q h1 h2
      rw [run_other, hg, if_neg]
      · rintro ⟨d, hd, _, hp⟩
        obtain ⟨b, hb, rfl⟩ := List.mem_map.mp hd
        exact h1 b hb hp
      · intro s hs he
        obtain ⟨b, hb, hp⟩ := hpp s hs
        rw [join_component b hn] at hp
        exact h2 b hb (he.symm.trans hp)
    · intro b hb
      by_cases hq : ∃ b' ∈ paths, b' ++ [name, version] <+: b ++ [name]
      · exact Or.inr (Or.inr hq)
      · have h1 : mget fs1 (b ++ [name]) = mget fs (b ++ [name]) := by
          rw [hg, if_neg]
          rintro ⟨d, hd, _, hp⟩
          obtain ⟨b', hb', rfl⟩ := List.mem_map.mp hd
          exact hq ⟨b', hb', hp⟩
        rcases hpg (b ++ [name]) with h | h
        · left; rw [h, h1]
        · right; left
          exact ⟨h1 ▸ h.1, h.2⟩

/-- C121: a family directory is left behind only if it is not empty, or was not asked to be removed. -/
theorem C121_pruned (order : Order) (fs : FS) (paths : List Path) (force : Bool) (name version : Str) (hn : Component name)
    (hr : (removeVersion order fs paths force true name version).2 ≠ []) (b : Path) (hb : b ∈ paths) :
    let fs' := run fs (removeVersion order fs paths force true name version).1
    mget fs' (b ++ [name]) = some .dir → ∃ r, r ≠ [] ∧
      (mget (run fs (removeDirs order fs (paths.map fun b => join (join b name) version)).1) (b ++ [name] ++ r)).isSome := by
  simp only
  unfold removeVersion at *
  simp only at *
  by_cases hempty : (removeDirs order fs (paths.map fun b => join (join b name) version)).2.isEmpty = true
  · rw [if_pos hempty] at hr
    exact absurd rfl hr
  · rw [if_neg hempty]
    simp only [if_true]
    rw [run_append]
    generalize run fs (removeDirs order fs (paths.map fun b => join (join b name) version)).1 = fs1
    intro h
    by_contra hno
    have he : ∀ r, r ≠ [] → mget fs1 (b ++ [name] ++ r) = none := by
      intro r hr
      by_contra hne
      exact hno ⟨r, hr, Option.isSome_iff_ne_none.mpr hne⟩
    have hfs1 : mget fs1 (b ++ [name]) = some .dir := by
      rcases prune_get name fs1 paths (b ++ [name]) with h' | h'
      · rw [← h', h]
      · exact h'.1
    rw [← join_component b hn] at he hfs1 h
    have := prune_empty name fs1 paths b hb hfs1 he
    rw [this] at h
    cases h

/-- C121: removing a family removes all of its versions, from every search path, and nothing else. -/
theorem C121_family_partial (order : Order) (ho : Lists order) (fs : FS) (paths : List Path) (name : Str) (hn : Component name) :
    let fs' := run fs (removeFamily order fs paths name).1
    (∀ b ∈ paths, mget fs (b ++ [name]) = some .dir → Gone fs' (b ++ [name])) ∧
    (∀ q, (∀ b ∈ paths, ¬ b ++ [name] <+: q) → mget fs' q = mget fs q) := by
  simp only
  unfold removeFamily
  have hmap : (paths.map fun b => join b name) = paths.map fun b => b ++ [name] := by
    apply List.map_congr_left
    intro b _
    exact join_component b hn
  rw [hmap]
  have hg := removeDirs_get ho fs (paths.map fun b => b ++ [name])
  constructor
  · intro b hb hd r
    rw [hg, if_pos ⟨_, List.mem_map_of_mem hb, hd, List.prefix_append _ _⟩]
  · intro q h
    rw [hg, if_neg]
    rintro ⟨d, hd, _, hp⟩
    obtain ⟨b, hb, rfl⟩ := List.mem_map.mp hd
    exact h b hb hp

/-- C121: what the removal reports is what there was, whatever it is asked to remove. -/
theorem C121_reported (order : Order) (ho : Lists order) (fs : FS) (paths : List Path) (force pe : Bool) (name version : Str) :
    ∀ d ∈ (removeVersion order fs paths force pe name version).2,
      (∃ b ∈ paths, d = join (join b name) version) ∧ mget fs d = some .dir ∧
        Gone (run fs (removeVersion order fs paths force pe name version).1) d := by
  intro d hd
  unfold removeVersion at *
  simp only at *
  by_cases hempty : (removeDirs order fs (paths.map fun b => join (join b name) version)).2.isEmpty = true
  · rw [if_pos hempty] at hd; cases hd
  · rw [if_neg hempty] at *
    simp only at *
    have hm := removeDirs_mem ho fs _ d hd
    obtain ⟨b, hb, hbd⟩ := List.mem_map.mp hm.1
    refine ⟨⟨b, hb, hbd.symm⟩, hm.2, ?_⟩
    intro r
    rw [run_append]
    have h1 : mget (run fs (removeDirs order fs (paths.map fun b => join (join b name) version)).1) (d ++ r) = none := by
      rw [removeDirs_get ho, if_pos ⟨d, hm.1, hm.2, List.prefix_append _ _⟩]
    generalize run fs (removeDirs order fs (paths.map fun b => join (join b name) version)).1 = fs1 at *
    cases pe with
    | true =>
      simp only [if_true]
      rcases prune_get name fs1 paths (d ++ r) with h | h
      · rw [h, h1]
      · rw [h1] at h; cases h.1
    | false => exact h1

/-- C121, partial: the preview is what the removal then removes, if no search path is in another and what is there are
directories. -/
theorem C121_preview_partial (order : Order) (ho : Lists order) (fs : FS) (paths : List Path) (force pe : Bool) (name version : Str)
    (hn : Component name) (hv : Component version) (hp : paths.Pairwise Apart)
    (hd : ∀ b ∈ paths, (mget fs (b ++ [name, version])).isSome → mget fs (b ++ [name, version]) = some .dir) :
    preview fs paths name (some version) = (removeVersion order fs paths force pe name version).2 := by
  have hmap : (paths.map fun b => join (join b name) version) = paths.map (versionDir name version) := by
    apply List.map_congr_left
    intro b _
    exact join_two b hn hv
  have hpw : (paths.map (versionDir name version)).Pairwise fun a b => ¬ a <+: b := by
    rw [List.pairwise_map]
    refine hp.imp ?_
    intro a b hab ⟨t, ht⟩
    exact apart_ne hab ([name, version] ++ t) [name, version] (by rw [← List.append_assoc]; exact ht)
  have hrem := removeDirs_removed ho fs _ hpw
  have hprev : preview fs paths name (some version) = (paths.map (versionDir name version)).filter fun d => mget fs d == some .dir := by
    unfold preview
    simp only
    rw [hmap]
    apply List.filter_congr
    intro x hx
    obtain ⟨b, hb, rfl⟩ := List.mem_map.mp hx
    cases hm : mget fs (versionDir name version b) with
    | none => simp
    | some e =>
      have := hd b hb (by rw [show b ++ [name, version] = versionDir name version b from rfl, hm]; rfl)
      rw [show b ++ [name, version] = versionDir name version b from rfl, hm] at this
      rw [Option.some.inj this]
      rfl
  rw [hprev, ← hrem]
  unfold removeVersion
  rw [hmap]
  simp only
  split
  · rename_i h
    exact List.isEmpty_iff.mp h
  · rfl

/-- C121 is false of an empty name: the whole repository is removed. -/
theorem C121_name_false : mget (run shop (removeFamily id shop [[c!"r"]] c!"").1) [c!"r"] = none := by decide

/-- C121 is false of the version "..": the whole repository is removed; and of "." and the empty version: the family is. -/
theorem C121_dots_false : mget (run shop (removeVersion id shop [[c!"r"]] false true c!"p" c!"..").1) [c!"r"] = none ∧
    mget (run shop (removeVersion id shop [[c!"r"]] false true c!"p" c!".").1) [c!"r", c!"p"] = none ∧
    mget (run shop (removeVersion id shop [[c!"r"]] false true c!"p" c!"").1) [c!"r", c!"p"] = none := by decide

/-- C121: a removal that is not forced removes all the same. -/
theorem C121_force_false : mget (run shop (removeVersion id shop [[c!"r"]] false true c!"p" c!"1").1) [c!"r", c!"p", c!"1"] = none := by
  decide

example : (removeVersion id shop [[c!"r"]] true true c!"p" c!"1").2 = [[c!"r", c!"p", c!"1"]] ∧
    [[c!"r"], [c!"s"]].Pairwise Apart :=
  ⟨by decide, by
    refine List.pairwise_cons.mpr ⟨?_, by simp⟩
    intro b hb
    rw [List.mem_singleton.mp hb]
    exact ⟨fun h => absurd (List.isPrefixOf_iff_prefix.mpr h) (by decide), fun h => absurd (List.isPrefixOf_iff_prefix.mpr h) (by decide)⟩⟩

/-- C120, partial: whenever a move is stopped, the source is still as it was, or the destination is complete.  Missing: a
destination among the search paths (refuted below), and sockets, pipes and devices. -/
theorem C120_crash_partial (order : Order) (ho : Lists order) (fs : FS) (hok : Ok fs) (paths : List Path) (force keep : Bool)
    (name version : Str) (hn : Component name) (hv : Component version) (destBase src : Path)
    (hf : findDir fs paths name version = some src) (hs : ∀ r, mget fs (src ++ r) ≠ some .special)
    (hd : Apart src (destBase ++ [name, version])) (hb : ∀ b ∈ paths, Apart b destBase) (pre : List Step)
    (hp : Stops (movePackage order fs paths force keep name version destBase).1 pre) :
    Same fs src (run fs pre) src ∨ Same fs src (run fs pre) (destBase ++ [name, version]) := by
  unfold movePackage at hp
  rw [hf] at hp
  simp only at hp
  have hcopy := C119_source order ho fs paths force name version hn hv destBase
  have hok' := C119_copy_partial order ho fs hok paths force name version hn hv destBase
  split at hp
  · rw [List.prefix_nil.mp hp]
    exact Or.inl fun r => rfl
  · cases hc : copyPackage order fs paths force name version destBase with
    | mk steps res =>
      rw [hc] at hp hcopy
      simp only at hp
      cases res with
      | error e => exact Or.inl (hcopy pre hp src hd)
      | ok c =>
        have hcs : c.source = src := by
          unfold copyPackage at hc
          rw [hf] at hc
          exact copyInto_source hc
        have h := hok' steps c hc (hcs ▸ hd) (hcs ▸ hs)
        cases keep with
        | true => exact Or.inl (hcopy pre hp src hd)
        | false =>
          simp only [Bool.false_eq_true, if_false] at hp
          rcases prefix_append_cases hp with h' | ⟨pre', rfl, h'⟩
          · exact Or.inl (hcopy pre h' src hd)
          · right
            intro r
            rw [run_append, run_other]
            · have := h.2.2.1 r
              rw [h.1, hcs] at this
              exact this
            · intro s hs he
              obtain ⟨b, hbm, hp⟩ := removeVersion_path ho _ _ _ _ _ _ s (h'.subset hs)
              rw [join_two b hn hv, join_component b hn, he] at hp
              rcases hp with ⟨t, ht⟩ | hp
              · exact apart_ne (hb b hbm) ([name, version] ++ t) ([name, version] ++ r) (by rw [← List.append_assoc, ht, List.append_assoc])
              · exact apart_ne (hb b hbm) [name] ([name, version] ++ r) (by rw [← hp, List.append_assoc])

/-- C120, partial: a move that succeeds leaves the package at the destination as it was at the source, and nothing at the
source, if that is the directory named by the version in a search path.  Missing: as above, and packages in directories
named by name and version (refuted below). -/
theorem C120_moved_partial (order : Order) (ho : Lists order) (fs : FS) (hok : Ok fs) (paths : List Path) (force : Bool)
    (name version : Str) (hn : Component name) (hv : Component version) (destBase b : Path) (hbm : b ∈ paths)
    (hs : ∀ r, mget fs (b ++ [name, version] ++ r) ≠ some .special) (hb : ∀ b ∈ paths, Apart b destBase) (steps : List Step)
    (m : Moved) (h : movePackage order fs paths force false name version destBase = (steps, .ok m))
    (hsrc : m.copied.source = b ++ [name, version]) :
    Same fs m.copied.source (run fs steps) (destBase ++ [name, version]) ∧ Gone (run fs steps) m.copied.source ∧ m.removed = true := by
  have hd : Apart (b ++ [name, version]) (destBase ++ [name, version]) := by
    constructor
    · rintro ⟨t, ht⟩
      exact apart_ne (hb b hbm) ([name, version] ++ t) [name, version] (by rw [← List.append_assoc, ht])
    · rintro ⟨t, ht⟩
      exact apart_ne (hb b hbm) [name, version] ([name, version] ++ t) (by rw [← List.append_assoc, ht])
  unfold movePackage at h
  cases hf : findDir fs paths name version with
  | none => rw [hf] at h; simp at h
  | some src =>
    rw [hf] at h
    simp only at h
    split at h
    · simp at h
    cases hc : copyPackage order fs paths force name version destBase with
    | mk csteps res =>
      rw [hc] at h
      cases res with
      | error e => simp at h
      | ok c =>
        simp only [Bool.false_eq_true, if_false, Prod.mk.injEq, Except.ok.injEq] at h
        obtain ⟨rfl, rfl⟩ := h
        simp only at hsrc ⊢
        have hcp := C119_copy_partial order ho fs hok paths force name version hn hv destBase csteps c hc (hsrc ▸ hd) (hsrc ▸ hs)
        have hsource := C119_source order ho fs paths force name version hn hv destBase csteps (by rw [hc]; exact List.prefix_rfl)
          c.source (hsrc ▸ hd)
        have hrm := C121_version_partial order ho (run fs csteps) paths true true name version hn hv
        simp only at hrm
        rw [run_append]
        refine ⟨?_, ?_, trivial⟩
        · intro r
          rw [run_other]
          · have := hcp.2.2.1 r
            rw [hcp.1] at this
            exact this
          · intro s hs he
            obtain ⟨b', hb', hp⟩ := removeVersion_path ho _ _ _ _ _ _ s hs
            rw [join_two b' hn hv, join_component b' hn, he] at hp
            rcases hp with ⟨t, ht⟩ | hp
            · exact apart_ne (hb b' hb') ([name, version] ++ t) ([name, version] ++ r) (by rw [← List.append_assoc, ht, List.append_assoc])
            · exact apart_ne (hb b' hb') [name] ([name, version] ++ r) (by rw [← hp, List.append_assoc])
        · rw [hsrc]
          apply hrm.1 b hbm
          have := hsource []
          rw [List.append_nil, hcp.2.1, hsrc] at this
          exact this

/-- C120 is false of a destination among the search paths: the move succeeds, and the package is nowhere. -/
theorem C120_lost_false : ∃ steps m, movePackage id shop [[c!"r"], [c!"s"]] false false c!"p" c!"1" [c!"s"] = (steps, .ok m) ∧
    m.removed = true ∧ mget (run shop steps) [c!"r", c!"p", c!"1", c!"package.py"] = none ∧
    mget (run shop steps) [c!"s", c!"p", c!"1", c!"package.py"] = none :=
  ⟨_, _, rfl, rfl, by decide, by decide⟩

/-- C120: the move also removes what other search paths hold under that version, which it did not copy. -/
theorem C120_others_false : ∃ (fs : FS) (steps : List Step) (m : Moved),
    movePackage id fs [[c!"r"], [c!"t"]] false false c!"p" c!"1" [c!"s"] = (steps, .ok m) ∧
    mget fs [c!"t", c!"p", c!"1", c!"package.py"] = some (.file c!"other") ∧
    ∀ e ∈ run fs steps, e.2 ≠ .file c!"other" :=
  ⟨shop ++ [([c!"t"], .dir), ([c!"t", c!"p"], .dir), ([c!"t", c!"p", c!"1"], .dir),
    ([c!"t", c!"p", c!"1", c!"package.py"], .file c!"other")], _, _, rfl, by decide, by decide⟩

/-- C120: a package in a directory named by name and version is reported as removed from there, and is not. -/
theorem C120_layout_false : ∃ (fs : FS) (steps : List Step) (m : Moved),
    movePackage id fs [[c!"r"]] false false c!"p" c!"1" [c!"s"] = (steps, .ok m) ∧ m.removed = true ∧
    m.copied.source = [c!"r", c!"p", c!"p-1"] ∧ mget (run fs steps) [c!"r", c!"p", c!"p-1", c!"package.py"] = some (.file c!"x") :=
  ⟨[([], .dir), ([c!"r"], .dir), ([c!"r", c!"p"], .dir), ([c!"r", c!"p", c!"p-1"], .dir),
    ([c!"r", c!"p", c!"p-1", c!"package.py"], .file c!"x")], _, _, rfl, by decide, by decide, by decide⟩

/-- The move theorems apply: a package moved to a directory that is not a search path. -/
example : ∃ steps m, movePackage id shop [[c!"r"]] false false c!"p" c!"1" [c!"s"] = (steps, .ok m) ∧
    m.copied.source = [c!"r"] ++ [c!"p", c!"1"] ∧ mget (run shop steps) [c!"s", c!"p", c!"1", c!"package.py"] = some (.file c!"x") ∧
    mget (run shop steps) [c!"r", c!"p"] = none :=
  ⟨_, _, rfl, rfl, by decide, by decide⟩

end Rez.Props
