import Verif.Spec.ContextDiff
import Verif.Lemmas.Version
import Verif.Lemmas.Resolver
import Mathlib.Data.List.Induction
/-!
# C223: the difference of two contexts
-/
namespace Rez.Props
open Rez Rez.PackageOrder Rez.ContextDiff Rez.ContextDiff.Spec

namespace ContextDiffLemmas

theorem map_snoc (ps : List Package) (p : Package) : versionMap (ps ++ [p]) =
    match p.version with | some v => mset (versionMap ps) p.name v | none => versionMap ps := by
  simp only [versionMap, List.foldl_append, List.foldl_cons, List.foldl_nil]
  cases p.version <;> rfl

theorem map_nodup (ps : List Package) : (mkeys (versionMap ps)).Nodup := by
  induction ps using List.reverseRecOn with
  | nil => exact List.nodup_nil
  | append_singleton ps p ih =>
    rw [map_snoc]
    split
    · exact nodup_mset ih _ _
    · exact ih

theorem has_snoc {ps : List Package} {p : Package} {n : Str} {v : Version} :
    Has (ps ++ [p]) n v ↔ (p.name = n ∧ p.version = some v) ∨ ((p.name = n → p.version = none) ∧ Has ps n v) := by
  constructor
  · rintro ⟨b, q, a, he, hn, hv, ha⟩
    rcases List.eq_nil_or_concat a with rfl | ⟨a', x, rfl⟩
    · obtain ⟨_, h⟩ := List.append_inj' he rfl
      rw [List.singleton_inj] at h
      subst h
      exact .inl ⟨hn, hv⟩
    · have he' : ps ++ [p] = (b ++ q :: a') ++ [x] := by rw [he]; simp
      obtain ⟨h1, h2⟩ := List.append_inj' he' rfl
      rw [List.singleton_inj] at h2
      subst h2
      exact .inr ⟨ha p (by simp), b, q, a', h1, hn, hv, fun r hr => ha r (by simp [hr])⟩
  · rintro (⟨hn, hv⟩ | ⟨hp, b, q, a, rfl, hn, hv, ha⟩)
    · exact ⟨ps, p, [], rfl, hn, hv, fun _ h => by cases h⟩
    · refine ⟨b, q, a ++ [p], by simp, hn, hv, fun r hr => ?_⟩
      rcases List.mem_append.1 hr with hr | hr
      · exact ha r hr
      · rw [List.mem_singleton.1 hr]; exact hp

theorem map_get (ps : List Package) (n : Str) (v : Version) : mget (versionMap ps) n = some v ↔ Has ps n v := by
  induction ps using List.reverseRecOn with
  | nil =>
    constructor
    · intro h; cases h
    · rintro ⟨b, q, a, he, _⟩
      cases b <;> cases he
  | append_singleton ps p ih =>
    rw [map_snoc, has_snoc, ← ih]
    cases hv : p.version with
    | none => simp
    | some w =>
      simp only [mget_mset]
      by_cases hn : n = p.name
      · subst hn; simp
      · rw [if_neg hn]
        simp [Ne.symm hn]

theorem map_none (ps : List Package) (n : Str) : mget (versionMap ps) n = none ↔ Lacks ps n := by
  induction ps using List.reverseRecOn with
  | nil => simp [versionMap, Lacks]
  | append_singleton ps p ih =>
    rw [map_snoc]
    have hl : Lacks (ps ++ [p]) n ↔ Lacks ps n ∧ (p.name = n → p.version = none) := by
      simp only [Lacks, List.mem_append, List.mem_singleton]
      constructor
      · exact fun h => ⟨fun q hq => h q (.inl hq), h p (.inr rfl)⟩
      · rintro ⟨h1, h2⟩ q (hq | rfl)
        · exact h1 q hq
        · exact h2
    rw [hl, ← ih]
    cases hv : p.version with
    | none => simp
    | some w =>
      simp only [mget_mset]
      by_cases hn : n = p.name
      · subst hn; simp
      · rw [if_neg hn]
        simp [Ne.symm hn]

/-- The entry that a name gets. -/
def entryAt (o n : List (Str × Version)) (k : Str) : Option Entry :=
  match mget o k, mget n k with
  | some v, none => some ⟨k, some v.repr, none, .removed⟩
  | none, some w => some ⟨k, none, some w.repr, .added⟩
  | some v, some w => some ⟨k, some v.repr, some w.repr, kindOf v w⟩
  | none, none => none

theorem entryAt_name {o n : List (Str × Version)} {k : Str} {d : Entry} (h : entryAt o n k = some d) : d.name = k := by
  unfold entryAt at h
  split at h <;> simp at h <;> rw [← h]

variable {io iw : List (Str × Version) → List (Str × Version)}

theorem mem_raw (hi : ∀ l, (io l).Perm l) (hw : ∀ l, (iw l).Perm l) {o n : List (Str × Version)} (ho : (mkeys o).Nodup)
    (hn : (mkeys n).Nodup) (d : Entry) :
    d ∈ (io o).filterMap (removedEntry n) ++ (iw n).filterMap (addedEntry o) ++ (iw n).filterMap (commonEntry o) ↔
      entryAt o n d.name = some d := by
  have mo : ∀ k v, (k, v) ∈ io o ↔ mget o k = some v := fun k v =>
    ⟨fun h => mget_of_mem ho ((hi o).mem_iff.1 h), fun h => (hi o).mem_iff.2 (mget_some_mem h)⟩
  have mn : ∀ k v, (k, v) ∈ iw n ↔ mget n k = some v := fun k v =>
    ⟨fun h => mget_of_mem hn ((hw n).mem_iff.1 h), fun h => (hw n).mem_iff.2 (mget_some_mem h)⟩
  simp only [List.mem_append, List.mem_filterMap]
  constructor
  · rintro ((⟨⟨k, v⟩, hk, he⟩ | ⟨⟨k, v⟩, hk, he⟩) | ⟨⟨k, v⟩, hk, he⟩)
    · rw [mo] at hk
      unfold removedEntry at he
      split at he
      · cases he
      · rename_i hs
        rw [Option.not_isSome_iff_eq_none] at hs
        obtain rfl := Option.some.inj he
        simp only [entryAt, hk]
        simp only [hs]
    · rw [mn] at hk
      unfold addedEntry at he
      split at he
      · cases he
      · rename_i hs
        rw [Option.not_isSome_iff_eq_none] at hs
        obtain rfl := Option.some.inj he
        simp only [entryAt, hk]
        simp only [hs]
    · rw [mn] at hk
      unfold commonEntry at he
      rw [Option.map_eq_some_iff] at he
      obtain ⟨u, hu, rfl⟩ := he
      simp only [entryAt, hk]
      simp only [hu]
  · intro h
    unfold entryAt at h
    split at h
    · rename_i v h1 h2
      refine .inl (.inl ⟨(d.name, v), (mo _ _).2 h1, ?_⟩)
      unfold removedEntry
      simp only [h2]
      exact h
    · rename_i w h1 h2
      refine .inl (.inr ⟨(d.name, w), (mn _ _).2 h2, ?_⟩)
      unfold addedEntry
      simp only [h1]
      exact h
    · rename_i v w h1 h2
      refine .inr ⟨(d.name, w), (mn _ _).2 h2, ?_⟩
      unfold commonEntry
      simp only [h1]
      exact h
    · cases h

theorem filterMap_names {f : Str × Version → Option Entry} (hf : ∀ e d, f e = some d → d.name = e.1) (l : List (Str × Version))
    (h : (mkeys l).Nodup) : ((l.filterMap f).map (·.name)).Nodup := by
  have hs : ((l.filterMap f).map (·.name)).Sublist (mkeys l) := by
    induction l with
    | nil => exact List.Sublist.slnil
    | cons e l ih =>
      rw [List.filterMap_cons]
      have ih := ih (by unfold mkeys at h ⊢; exact (List.nodup_cons.1 h).2)
      cases he : f e with
      | none => exact ih.trans (List.sublist_cons_self _ _)
      | some d =>
        simp only [List.map_cons, hf e d he]
        exact ih.cons_cons _
  exact hs.nodup h

theorem raw_nodup (hi : ∀ l, (io l).Perm l) (hw : ∀ l, (iw l).Perm l) {o n : List (Str × Version)} (ho : (mkeys o).Nodup)
    (hn : (mkeys n).Nodup) :
    (((io o).filterMap (removedEntry n) ++ (iw n).filterMap (addedEntry o) ++ (iw n).filterMap (commonEntry o)).map (·.name)).Nodup := by
  have hr : ∀ e d, removedEntry n e = some d → d.name = e.1 ∧ mget n e.1 = none := by
    intro e d h; unfold removedEntry at h; split at h
    · cases h
    · rename_i hs
      rw [← Option.some.inj h]; exact ⟨rfl, Option.not_isSome_iff_eq_none.1 hs⟩
  have ha : ∀ e d, addedEntry o e = some d → d.name = e.1 ∧ mget o e.1 = none := by
    intro e d h; unfold addedEntry at h; split at h
    · cases h
    · rename_i hs
      rw [← Option.some.inj h]; exact ⟨rfl, Option.not_isSome_iff_eq_none.1 hs⟩
  have hc : ∀ e d, commonEntry o e = some d → d.name = e.1 ∧ mget o e.1 ≠ none := by
    intro e d h; unfold commonEntry at h
    rw [Option.map_eq_some_iff] at h
    obtain ⟨u, hu, rfl⟩ := h
    exact ⟨rfl, by rw [hu]; simp⟩
  have po : (mkeys (io o)).Nodup := (((hi o).map _).nodup_iff).2 ho
  have pn : (mkeys (iw n)).Nodup := (((hw n).map _).nodup_iff).2 hn
  have inN : ∀ e ∈ iw n, mget n e.1 ≠ none := fun e he => by
    rw [mget_of_mem hn ((hw n).mem_iff.1 he)]; simp
  simp only [List.map_append]
  rw [List.nodup_append, List.nodup_append]
  refine ⟨⟨filterMap_names (fun e d h => (hr e d h).1) _ po, filterMap_names (fun e d h => (ha e d h).1) _ pn, ?_⟩,
    filterMap_names (fun e d h => (hc e d h).1) _ pn, ?_⟩
  · intro a h1 b h2 hab
    subst hab
    simp only [List.mem_map, List.mem_filterMap] at h1 h2
    obtain ⟨d, ⟨e, he, hd⟩, rfl⟩ := h1
    obtain ⟨d', ⟨e', he', hd'⟩, hn'⟩ := h2
    have h3 := hr e d hd
    have h4 := ha e' d' hd'
    apply inN e' he'
    rw [← h4.1, hn', h3.1]
    exact h3.2
  · intro a h1 b h2 hab
    subst hab
    simp only [List.mem_append, List.mem_map, List.mem_filterMap] at h1 h2
    obtain ⟨d', ⟨e', he', hd'⟩, hn'⟩ := h2
    have h4 := hc e' d' hd'
    rcases h1 with ⟨d, ⟨e, he, hd⟩, rfl⟩ | ⟨d, ⟨e, he, hd⟩, rfl⟩
    · have h3 := hr e d hd
      apply inN e' he'
      rw [← h4.1, hn', h3.1]
      exact h3.2
    · have h3 := ha e d hd
      apply h4.2
      rw [← h4.1, hn', h3.1]
      exact h3.2

theorem cmpEntry_le {a b : Entry} : cmpEntry a b ≠ .gt ↔
    rank a.kind < rank b.kind ∨ rank a.kind = rank b.kind ∧ cmpStr a.name b.name ≠ .gt := by
  unfold cmpEntry
  rcases Nat.lt_trichotomy (rank a.kind) (rank b.kind) with h | h | h
  · rw [Nat.compare_eq_lt.2 h]; simp [h]
  · rw [Nat.compare_eq_eq.2 h]; simp [h]
  · rw [Nat.compare_eq_gt.2 h]
    simp only [Ordering.gt_then, ne_eq, not_true_eq_false, false_iff]
    omega

theorem sorted_of (l : List Entry) : (l.insertionSort fun a b => cmpEntry a b ≠ .gt).Pairwise fun a b => cmpEntry a b ≠ .gt := by
  have : Std.Total fun a b : Entry => cmpEntry a b ≠ .gt := ⟨fun a b => by
    rw [cmpEntry_le, cmpEntry_le]
    have := cmpStr_swap a.name b.name
    rcases Nat.lt_trichotomy (rank a.kind) (rank b.kind) with h | h | h
    · exact .inl (.inl h)
    · cases hc : cmpStr a.name b.name with
      | lt => exact .inl (.inr ⟨h, by simp⟩)
      | eq => exact .inl (.inr ⟨h, by simp⟩)
      | gt => rw [hc] at this; exact .inr (.inr ⟨h.symm, by rw [← this]; simp [Ordering.swap]⟩)
    · exact .inr (.inl h)⟩
  have : IsTrans Entry fun a b => cmpEntry a b ≠ .gt := ⟨fun a b c h1 h2 => by
    rw [cmpEntry_le] at h1 h2 ⊢
    have ht := Std.TransCmp.isLE_trans (cmp := cmpStr) (a := a.name) (b := b.name) (c := c.name)
    simp only [Ordering.isLE_iff_ne_gt] at ht
    rcases h1 with h1 | ⟨h1, h1'⟩ <;> rcases h2 with h2 | ⟨h2, h2'⟩
    · exact .inl (by omega)
    · exact .inl (by omega)
    · exact .inl (by omega)
    · exact .inr ⟨by omega, ht h1' h2'⟩⟩
  exact List.pairwise_insertionSort _ l

theorem mem_compute (hi : ∀ l, (io l).Perm l) (hw : ∀ l, (iw l).Perm l) (old new : List Package) (d : Entry) :
    d ∈ compute io iw old new ↔ entryAt (versionMap old) (versionMap new) d.name = some d := by
  unfold compute
  rw [(List.perm_insertionSort _ _).mem_iff]
  exact mem_raw hi hw (map_nodup old) (map_nodup new) d

theorem names_nodup' (hi : ∀ l, (io l).Perm l) (hw : ∀ l, (iw l).Perm l) (old new : List Package) :
    ((compute io iw old new).map (·.name)).Nodup := by
  unfold compute
  rw [((List.perm_insertionSort _ _).map _).nodup_iff]
  exact raw_nodup hi hw (map_nodup old) (map_nodup new)

theorem kindOf_iff {v w : Version} :
    (kindOf v w = .unchanged ↔ v.repr = w.repr) ∧ (kindOf v w = .upgraded ↔ v.repr ≠ w.repr ∧ w.cmp v = .gt) ∧
    (kindOf v w = .downgraded ↔ v.repr ≠ w.repr ∧ w.cmp v ≠ .gt) ∧ kindOf v w ≠ .added ∧ kindOf v w ≠ .removed := by
  unfold kindOf Version.gt
  by_cases h : w.repr = v.repr
  · simp [h]
  · have h' : v.repr ≠ w.repr := Ne.symm h
    by_cases hc : w.cmp v = .gt
    · simp [h, h', hc]
    · simp [h, h', hc]

theorem says_iff (old new : List Package) (d : Entry) :
    entryAt (versionMap old) (versionMap new) d.name = some d ↔ Says old new d := by
  obtain ⟨nm, od, nw, k⟩ := d
  unfold entryAt Says
  simp only [← map_get, ← map_none]
  cases ho : mget (versionMap old) nm with
  | none =>
    cases hn : mget (versionMap new) nm with
    | none => cases k <;> simp
    | some w => cases k <;> simp <;> grind
  | some v =>
    cases hn : mget (versionMap new) nm with
    | none => cases k <;> simp <;> grind
    | some w =>
      have hk := @kindOf_iff v w
      cases k <;> simp <;> grind

end ContextDiffLemmas
open ContextDiffLemmas

/-- C223: an entry is told exactly if what it says of the two lists is so. -/
theorem C223_entries (io iw : List (Str × Version) → List (Str × Version)) (hi : ∀ l, (io l).Perm l) (hw : ∀ l, (iw l).Perm l)
    (old new : List Package) (d : Entry) : d ∈ compute io iw old new ↔ Says old new d := by
  rw [mem_compute hi hw, says_iff]

/-- C223: no name is told twice, and a name is told exactly if one of the lists has a version for it. -/
theorem C223_once (io iw : List (Str × Version) → List (Str × Version)) (hi : ∀ l, (io l).Perm l) (hw : ∀ l, (iw l).Perm l)
    (old new : List Package) : ((compute io iw old new).map (·.name)).Nodup ∧
    ∀ n, n ∈ (compute io iw old new).map (·.name) ↔ ∃ p ∈ old ++ new, p.name = n ∧ p.version ≠ none := by
  refine ⟨names_nodup' hi hw old new, fun n => ?_⟩
  have hx : (∃ p ∈ old ++ new, p.name = n ∧ p.version ≠ none) ↔ ¬ (Lacks old n ∧ Lacks new n) := by
    simp only [Lacks, List.mem_append]
    grind
  rw [hx, ← map_none, ← map_none, List.mem_map]
  constructor
  · rintro ⟨d, hd, rfl⟩ ⟨h1, h2⟩
    rw [mem_compute hi hw] at hd
    simp [entryAt, h1, h2] at hd
  · intro h
    cases he : entryAt (versionMap old) (versionMap new) n with
    | none =>
      exfalso
      unfold entryAt at he
      split at he <;> simp_all
    | some d =>
      have hn := entryAt_name he
      exact ⟨d, by rw [mem_compute hi hw, hn]; exact he, hn⟩

/-- C223: the additions come first, then the removals, the upgrades, the downgrades and what stays; of a kind by name. -/
theorem C223_order (io iw : List (Str × Version) → List (Str × Version)) (hi : ∀ l, (io l).Perm l) (hw : ∀ l, (iw l).Perm l)
    (old new : List Package) : (compute io iw old new).Pairwise Before := by
  have hs : (compute io iw old new).Pairwise fun a b => cmpEntry a b ≠ .gt := sorted_of _
  have hn : (compute io iw old new).Pairwise fun a b => a.name ≠ b.name := List.pairwise_map.1 (names_nodup' hi hw old new)
  refine (hs.and hn).imp ?_
  rintro a b ⟨h1, h2⟩
  rw [cmpEntry_le] at h1
  have hr : ∀ k : Kind, [Kind.added, .removed, .upgraded, .downgraded, .unchanged].idxOf k = rank k := by
    intro k; cases k <;> rfl
  unfold Before
  simp only [hr]
  rcases h1 with h1 | ⟨h1, h3⟩
  · exact .inl h1
  · right
    refine ⟨by revert h1; cases a.kind <;> cases b.kind <;> simp [rank], ?_⟩
    cases hc : cmpStr a.name b.name with
    | lt => rfl
    | eq => exact absurd ((cmpStr_eq_iff _ _).1 hc) h2
    | gt => exact absurd hc h3

/-- C223: the answer does not depend on the order in which hash maps are iterated. -/
theorem C223_deterministic (io iw io' iw' : List (Str × Version) → List (Str × Version)) (hi : ∀ l, (io l).Perm l)
    (hw : ∀ l, (iw l).Perm l) (hi' : ∀ l, (io' l).Perm l) (hw' : ∀ l, (iw' l).Perm l) (old new : List Package) :
    compute io iw old new = compute io' iw' old new := by
  have hn := List.Nodup.of_map _ (names_nodup' hi hw old new)
  have hn' := List.Nodup.of_map _ (names_nodup' hi' hw' old new)
  refine List.Perm.eq_of_pairwise (le := Before) ?_ (C223_order io iw hi hw old new) (C223_order io' iw' hi' hw' old new)
    ((List.perm_ext_iff_of_nodup hn hn').2 fun d => by rw [mem_compute hi hw, mem_compute hi' hw'])
  intro a b _ _ h1 h2
  exfalso
  unfold Before at h1 h2
  have := cmpStr_swap a.name b.name
  rcases h1 with h1 | ⟨h1, h1'⟩ <;> rcases h2 with h2 | ⟨h2, h2'⟩
  · omega
  · rw [h2] at h1; omega
  · rw [h1] at h2; omega
  · rw [h1', h2'] at this; cases this

/-- C223: the entries, put on the old list, give the versions of the new one. -/
theorem C223_apply (io iw : List (Str × Version) → List (Str × Version)) (hi : ∀ l, (io l).Perm l) (hw : ∀ l, (iw l).Perm l)
    (old new : List Package) (before : Str → Option Str) (hb : ∀ n t, before n = some t ↔ ∃ v, Has old n v ∧ v.repr = t) (n t : Str) :
    applied before (compute io iw old new) n = some t ↔ ∃ w, Has new n w ∧ w.repr = t := by
  unfold applied
  cases hf : (compute io iw old new).find? fun d => d.name == n with
  | some d =>
    have hn : d.name = n := by simpa using List.find?_some hf
    have hm := (mem_compute hi hw old new d).1 (List.mem_of_find?_eq_some hf)
    rw [hn] at hm
    simp only [← map_get]
    unfold entryAt at hm
    split at hm
    · rename_i h1 h2
      obtain rfl := Option.some.inj hm
      simp [h2]
    · rename_i h1 h2
      obtain rfl := Option.some.inj hm
      simp [h2]
    · rename_i h1 h2
      obtain rfl := Option.some.inj hm
      simp [h2]
    · cases hm
  | none =>
    rw [List.find?_eq_none] at hf
    have ho : Lacks old n ∧ Lacks new n := by
      by_contra hc
      have hx : ∃ p ∈ old ++ new, p.name = n ∧ p.version ≠ none := by
        simp only [Lacks, List.mem_append] at hc ⊢
        grind
      obtain ⟨d, hd, hdn⟩ := List.mem_map.1 (((C223_once io iw hi hw old new).2 n).2 hx)
      exact hf d hd (by simp [hdn])
    rw [← map_none, ← map_none] at ho
    simp only [hb, ← map_get, ho.1, ho.2]

/-- C223: the counts are of the entries, which add up; the contexts count as identical exactly if the texts of all versions are
the same, and exactly then `(no changes)` is printed. -/
theorem C223_identical (io iw : List (Str × Version) → List (Str × Version)) (hi : ∀ l, (io l).Perm l) (hw : ∀ l, (iw l).Perm l)
    (old new : List Package) :
    ((summary (compute io iw old new)).identical = true ↔ SameTexts old new) ∧
    (format (summary (compute io iw old new)) = c!"  (no changes)" ↔ SameTexts old new) ∧
    ((summary (compute io iw old new)).changed = [] ↔ SameTexts old new) := by
  have key : (∀ d ∈ compute io iw old new, d.kind = .unchanged) ↔ SameTexts old new := by
    constructor
    · intro h n t
      simp only [← map_get]
      cases he : entryAt (versionMap old) (versionMap new) n with
      | none =>
        unfold entryAt at he
        split at he <;> simp_all
      | some d =>
        have hn := entryAt_name he
        have hd := h d ((mem_compute hi hw old new d).2 (by rw [hn]; exact he))
        unfold entryAt at he
        split at he
        · rw [← Option.some.inj he] at hd; cases hd
        · rw [← Option.some.inj he] at hd; cases hd
        · rename_i v w h1 h2
          rw [← Option.some.inj he] at hd
          have := (@kindOf_iff v w).1.1 hd
          simp [h1, h2, this]
        · cases he
    · intro h d hd
      rw [mem_compute hi hw] at hd
      have hn := h d.name
      simp only [← map_get] at hn
      unfold entryAt at hd
      split at hd
      · rename_i v h1 h2
        have := (hn v.repr).1 ⟨v, h1, rfl⟩
        simp [h2] at this
      · rename_i w h1 h2
        have := (hn w.repr).2 ⟨w, h2, rfl⟩
        simp [h1] at this
      · rename_i v w h1 h2
        have := (hn v.repr).1 ⟨v, h1, rfl⟩
        rw [h2] at this
        obtain ⟨x, hx, hr⟩ := this
        obtain rfl := Option.some.inj hx
        rw [← Option.some.inj hd]
        exact (@kindOf_iff v w).1.2 hr.symm
      · cases hd
  refine ⟨?_, ?_, ?_⟩
  · rw [← key]
    simp only [Summary.identical, summary, count, Bool.and_eq_true, beq_iff_eq, List.length_eq_zero_iff, List.filter_eq_nil_iff]
    constructor
    · rintro ⟨⟨⟨h1, h2⟩, h3⟩, h4⟩ d hd
      have := h1 d hd; have := h2 d hd; have := h3 d hd; have := h4 d hd
      cases hk : d.kind <;> simp_all
    · intro h
      refine ⟨⟨⟨?_, ?_⟩, ?_⟩, ?_⟩ <;> intro d hd <;> rw [h d hd] <;> simp
  · rw [← key]
    unfold format
    have hl : ∀ d : Entry, line d = none ↔ d.kind = .unchanged := by
      intro d; unfold line; cases d.kind <;> simp
    have he : (summary (compute io iw old new)).diffs.filterMap line = [] ↔ ∀ d ∈ compute io iw old new, d.kind = .unchanged := by
      rw [List.filterMap_eq_nil_iff]
      exact ⟨fun h d hd => (hl d).1 (h d hd), fun h d hd => (hl d).2 (h d hd)⟩
    rw [← he]
    cases hm : (summary (compute io iw old new)).diffs.filterMap line with
    | nil => simp
    | cons x xs =>
      simp only [List.isEmpty_cons, Bool.false_eq_true, if_false]
      have hx : x ∈ (summary (compute io iw old new)).diffs.filterMap line := by rw [hm]; exact List.mem_cons_self
      rw [List.mem_filterMap] at hx
      obtain ⟨d, _, hd⟩ := hx
      have h3 : ∃ c r, x = ' ' :: ' ' :: c :: r ∧ c ≠ '(' := by
        unfold line at hd
        split at hd <;> simp at hd <;> exact ⟨_, _, hd.symm, by decide⟩
      obtain ⟨c, r, rfl, hc⟩ := h3
      constructor
      · intro hj
        exfalso
        cases xs <;> simp [joinWith] at hj <;> exact hc hj.1
      · intro h; cases h
  · rw [← key]
    simp only [Summary.changed, summary, List.filter_eq_nil_iff]
    exact ⟨fun h d hd => by simpa using h d hd, fun h d hd => by simpa using h d hd⟩

/-- C223: the counts. -/
theorem C223_counts (l : List Entry) (k : Kind) :
    (match k with
      | .added => (summary l).added
      | .removed => (summary l).removed
      | .upgraded => (summary l).upgraded
      | .downgraded => (summary l).downgraded
      | .unchanged => (summary l).unchanged) = l.countP (fun d => d.kind = k) ∧
    (summary l).added + (summary l).removed + (summary l).upgraded + (summary l).downgraded + (summary l).unchanged = l.length ∧
    (summary l).changed = l.filter (fun d => d.kind ≠ .unchanged) := by
  have hc : ∀ k, count k l = l.countP (fun d => d.kind = k) := by
    intro k
    rw [count, List.countP_eq_length_filter]
    congr 1
  refine ⟨by cases k <;> exact hc _, ?_, ?_⟩
  · simp only [summary]
    induction l with
    | nil => rfl
    | cons d l ih =>
      have : ∀ k, count k (d :: l) = count k l + if d.kind = k then 1 else 0 := by
        intro k
        simp only [count, List.filter_cons]
        by_cases h : d.kind = k <;> simp [h]
      simp only [this, List.length_cons]
      have ih := ih fun k => by
        rw [count, List.countP_eq_length_filter]
        congr 1
      cases d.kind <;> simp <;> omega
  · simp only [Summary.changed, summary]
    apply List.filter_congr
    intro d _
    cases d.kind <;> rfl

/-- C223: seen from the other side, additions are removals and what was upgraded was downgraded. -/
theorem C223_mirror (io iw : List (Str × Version) → List (Str × Version)) (hi : ∀ l, (io l).Perm l) (hw : ∀ l, (iw l).Perm l)
    (old new : List Package) (n : Str) (o w : Option Str) :
    ((⟨n, o, w, .added⟩ : Entry) ∈ compute io iw old new ↔ (⟨n, w, o, .removed⟩ : Entry) ∈ compute io iw new old) ∧
    ((⟨n, o, w, .unchanged⟩ : Entry) ∈ compute io iw old new ↔ (⟨n, w, o, .unchanged⟩ : Entry) ∈ compute io iw new old) ∧
    ((⟨n, o, w, .upgraded⟩ : Entry) ∈ compute io iw old new → (⟨n, w, o, .downgraded⟩ : Entry) ∈ compute io iw new old) := by
  simp only [C223_entries io iw hi hw, Says]
  refine ⟨⟨?_, ?_⟩, ⟨?_, ?_⟩, ?_⟩
  · rintro ⟨h, v, h1, h2, h3⟩; exact ⟨h, v, h1, h3, h2⟩
  · rintro ⟨h, v, h1, h2, h3⟩; exact ⟨h, v, h1, h3, h2⟩
  · rintro ⟨v, u, h1, h2, h3, h4, h5⟩; exact ⟨u, v, h2, h1, h4, h3, h5.symm⟩
  · rintro ⟨v, u, h1, h2, h3, h4, h5⟩; exact ⟨u, v, h2, h1, h4, h3, h5.symm⟩
  · rintro ⟨v, u, h1, h2, h3, h4, h5, h6⟩
    refine ⟨u, v, h2, h1, h4, h3, Ne.symm h5, ?_⟩
    rw [← Version.cmp_swap, h6]
    simp [Ordering.swap]

/-- C223: the printed text is one line for each change, in the order of the entries. -/
theorem C223_printed (l : List Entry) (h : ∃ d ∈ l, d.kind ≠ .unchanged) :
    format (summary l) = joinWith c!"\n" ((l.filter fun d => d.kind ≠ .unchanged).map fun d =>
      (match d.kind with
        | .added => c!"  + " | .removed => c!"  - " | .upgraded => c!"  ^ " | .downgraded => c!"  v " | .unchanged => []) ++
      d.name ++ c!" " ++
      (match d.kind with
        | .added => d.new.getD c!"?"
        | .removed => d.old.getD c!"?"
        | _ => d.old.getD c!"?" ++ c!" -> " ++ d.new.getD c!"?")) := by
  have hl : ∀ l : List Entry, l.filterMap line = (l.filter fun d => d.kind ≠ .unchanged).map fun d =>
      (match d.kind with
        | .added => c!"  + " | .removed => c!"  - " | .upgraded => c!"  ^ " | .downgraded => c!"  v " | .unchanged => []) ++
      d.name ++ c!" " ++
      (match d.kind with
        | .added => d.new.getD c!"?"
        | .removed => d.old.getD c!"?"
        | _ => d.old.getD c!"?" ++ c!" -> " ++ d.new.getD c!"?") := by
    intro l
    induction l with
    | nil => rfl
    | cons d l ih =>
      rw [List.filterMap_cons, List.filter_cons]
      cases hk : d.kind <;> simp [line, hk, ih]
  unfold format
  simp only [summary, hl l]
  obtain ⟨d, hd, hk⟩ := h
  have hne : (l.filter fun d => d.kind ≠ .unchanged) ≠ [] := by
    intro h0
    have : d ∈ l.filter fun d => d.kind ≠ .unchanged := List.mem_filter.2 ⟨hd, by simpa using hk⟩
    rw [h0] at this; cases this
  rw [if_neg (by simpa using hne)]

/-- Packages for the examples. -/
def diffPackage (n v : Str) : Package := ⟨n, Version.parse v, [], [], [], none⟩

example : compute id id [diffPackage c!"python" c!"3.9", diffPackage c!"maya" c!"2023", diffPackage c!"a" c!"2"]
    [diffPackage c!"python" c!"3.11", diffPackage c!"houdini" c!"20", diffPackage c!"a" c!"1"] =
    [⟨c!"houdini", none, some c!"20", .added⟩, ⟨c!"maya", some c!"2023", none, .removed⟩,
     ⟨c!"python", some c!"3.9", some c!"3.11", .upgraded⟩, ⟨c!"a", some c!"2", some c!"1", .downgraded⟩] := by decide +kernel

/-- The other readings are false: a change between equal versions that are written differently is a downgrade in both
directions. -/
theorem C223_equal_false : (⟨c!"a", some c!"1", some c!"1.0", .downgraded⟩ : Entry) ∈ compute id id [diffPackage c!"a" c!"1"] [diffPackage c!"a" c!"1.0"] ∧
    (⟨c!"a", some c!"1.0", some c!"1", .downgraded⟩ : Entry) ∈ compute id id [diffPackage c!"a" c!"1.0"] [diffPackage c!"a" c!"1"] := by
  decide +kernel

/-- Contexts that differ in a package without a version, or in what is asked for as a range, count as identical; so does
what cannot be read. -/
theorem C223_ranges_false : (contexts id id [c!"python", c!"maya-2023+", c!"a-1..2"] []) =
    (.ok ⟨[], 0, 0, 0, 0, 0⟩ : Outcome Summary) := by
  decide +kernel

/-- A conflict counts as a package of the context. -/
theorem C223_conflict_false : (contexts id id [] [c!"!python-3"]) =
    (.ok ⟨[⟨c!"python", none, some c!"3", .added⟩], 1, 0, 0, 0, 0⟩ : Outcome Summary) := by
  decide +kernel

/-- Comparing lists of texts fails in no way but the panic of reading a requirement, and never for ASCII texts. -/
theorem C223_fails (io iw : List (Str × Version) → List (Str × Version)) (old new : List Str) :
    contexts io iw old new ≠ .err ∧
    (contexts io iw old new = .panic ↔ ∃ s ∈ old ++ new, PackageRequirement.parse s = .panic) := by
  have h1 : ∀ s, packageOf s ≠ .err := by
    intro s; unfold packageOf; split <;> simp
  have h2 : ∀ s, packageOf s = .panic ↔ PackageRequirement.parse s = .panic := by
    intro s; unfold packageOf; split <;> simp_all
  have h3 : ∀ l, packagesOf l ≠ .err ∧ (packagesOf l = .panic ↔ ∃ s ∈ l, PackageRequirement.parse s = .panic) := by
    intro l
    induction l with
    | nil => simp [packagesOf]
    | cons s l ih =>
      rw [packagesOf]
      have a1 := h1 s
      have a2 := h2 s
      cases hp : packageOf s with
      | err => exact absurd hp a1
      | panic => exact ⟨by simp, by simp [a2.1 hp]⟩
      | ok p =>
        have a3 : PackageRequirement.parse s ≠ .panic := fun h => by rw [a2.2 h] at hp; cases hp
        cases hr : packagesOf l with
        | err => exact absurd hr ih.1
        | panic => have := ih.2.1 hr; simp [this]
        | ok q =>
          have : ¬ ∃ s ∈ l, PackageRequirement.parse s = .panic := fun h => by rw [ih.2.2 h] at hr; cases hr
          simp only [List.mem_cons, exists_eq_or_imp]
          simp [a3, this]
  unfold contexts
  have ho := h3 old
  have hn := h3 new
  simp only [List.mem_append, or_and_right, exists_or, ← ho.2, ← hn.2]
  cases hpo : packagesOf old with
  | err => exact absurd hpo ho.1
  | panic => simp
  | ok o =>
    cases hpn : packagesOf new with
    | err => exact absurd hpn hn.1
    | panic => simp
    | ok n => simp

/-- What the texts of a list stand for: the name, and the version if what follows the name is one. -/
theorem C223_texts (io iw : List (Str × Version) → List (Str × Version)) (old new : List Str) (s : Summary)
    (h : contexts io iw old new = .ok s) : ∃ o n, s = summary (compute io iw o n) ∧
    o.map (fun p => (p.name, p.version)) = old.map (fun t => match PackageRequirement.parse t with
      | .ok r => (r.name, (r.spec.filter fun x => x ≠ []).bind Version.parse)
      | _ => (t, none)) ∧
    n.map (fun p => (p.name, p.version)) = new.map (fun t => match PackageRequirement.parse t with
      | .ok r => (r.name, (r.spec.filter fun x => x ≠ []).bind Version.parse)
      | _ => (t, none)) := by
  have h1 : ∀ t p, packageOf t = .ok p → (p.name, p.version) = match PackageRequirement.parse t with
      | .ok r => (r.name, (r.spec.filter fun x => x ≠ []).bind Version.parse)
      | _ => (t, none) := by
    intro t p hp
    unfold packageOf at hp
    split at hp
    · rename_i r hr
      cases hp
      rw [hr]
      obtain ⟨nm, sp, wk, cf⟩ := r
      cases sp with
      | none => rfl
      | some x =>
        cases x with
        | nil => rfl
        | cons c cs => rfl
    · rename_i hr
      cases hp
      rw [hr]
    · cases hp
  have h2 : ∀ l q, packagesOf l = .ok q → q.map (fun p => (p.name, p.version)) = l.map (fun t => match PackageRequirement.parse t with
      | .ok r => (r.name, (r.spec.filter fun x => x ≠ []).bind Version.parse)
      | _ => (t, none)) := by
    intro l
    induction l with
    | nil => intro q hq; cases hq; rfl
    | cons t l ih =>
      intro q hq
      rw [packagesOf] at hq
      split at hq
      · rename_i p hp
        split at hq
        · rename_i r hr
          cases hq
          rw [List.map_cons, List.map_cons, ih r hr, h1 t p hp]
        · cases hq
        · cases hq
      · cases hq
      · cases hq
  unfold contexts at h
  split at h
  · rename_i o n ho hn
    cases h
    exact ⟨o, n, rfl, h2 _ _ ho, h2 _ _ hn⟩
  · cases h
  · cases h
  · cases h

end Rez.Props
