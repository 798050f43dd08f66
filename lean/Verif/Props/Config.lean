import Verif.Spec.Config
import Verif.Lemmas.Text
import Verif.Lemmas.VersionParse
import Verif.Props.Rex
import Mathlib.Data.List.Infix
/-!
# C65, C66, C109, C110: configuration
-/
namespace Rez.Props
open Rez Rez.Config Rez.Spec.Config

namespace ConfigLemmas

theorem walk_at (j : Json) (p : List Str) : walk j p = at_ j p := by
  induction p generalizing j with
  | nil => cases j <;> rfl
  | cons k ks ih =>
    cases j with
    | obj m =>
      simp only [walk, Json.get, at_]
      congr 1
      funext v
      exact ih v
    | _ => rfl

theorem at_nil (j : Json) : at_ j [] = some j := by cases j <;> rfl

theorem at_plain {j : Json} (h : ¬ IsObj j) (k : Str) (ks : List Str) : at_ j (k :: ks) = none := by
  cases j <;> first | rfl | exact absurd trivial h

theorem at_obj (m : List (Str × Json)) (k : Str) (ks : List Str) :
    at_ (.obj m) (k :: ks) = (mget m k).bind fun v => at_ v ks := rfl

theorem at_append (j : Json) (p q : List Str) : at_ j (p ++ q) = (at_ j p).bind fun v => at_ v q := by
  induction p generalizing j with
  | nil => rw [List.nil_append, at_nil]; rfl
  | cons k ks ih =>
    cases j with
    | obj m =>
      rw [List.cons_append, at_obj, at_obj]
      cases mget m k with
      | none => rfl
      | some v => exact ih v
    | _ => rfl

theorem merge_plain {x y : Json} (h : ¬ IsObj y) : merge x y = y := by
  cases x <;> cases y <;> first | rfl | exact absurd trivial h

theorem merge_into {x y : Json} (h : ¬ IsObj x) : merge x y = y := by
  cases x <;> cases y <;> first | rfl | exact absurd trivial h

theorem mergeInto_eq (e : List (Str × Json)) (v : Json) : mergeInto e v = merge (.obj e) v := by
  cases v <;> rfl

theorem mget_mergeFields (m n : List (Str × Json)) (hn : (mkeys n).Nodup) (k : Str) :
    mget (mergeFields m n) k = match mget n k with
      | none => mget m k
      | some v => some (match mget m k with
        | none => v
        | some x => merge x v) := by
  induction n generalizing m with
  | nil => rfl
  | cons p n ih =>
    obtain ⟨j, v⟩ := p
    rw [mkeys, List.map_cons, List.nodup_cons] at hn
    have hstep : ∃ w, mergeFields m ((j, v) :: n) = mergeFields (mset m j w) n ∧
        w = (match mget m j with
          | none => v
          | some x => merge x v) := by
      rw [mergeFields]
      cases h : mget m j with
      | none => exact ⟨v, rfl, rfl⟩
      | some x =>
        cases x with
        | obj e => exact ⟨mergeInto e v, rfl, mergeInto_eq e v⟩
        | _ => exact ⟨v, rfl, (merge_into (by intro h; exact h)).symm⟩
    obtain ⟨w, h1, h2⟩ := hstep
    rw [h1, ih _ hn.2, mget_mset]
    by_cases hk : j = k
    · subst hk
      have : mget n j = none := (mget_none_iff n j).mpr hn.1
      simp [this, mget, h2]
    · simp [mget, hk, Ne.symm hk]

theorem unique_at {j v : Json} {p : List Str} (h : Unique j) (hv : at_ j p = some v) : Unique v := by
  intro q m hq
  apply h (p ++ q) m
  rw [at_append, hv]
  exact hq

theorem unique_fields {m : List (Str × Json)} (h : Unique (.obj m)) : (mkeys m).Nodup := h [] m rfl

theorem unique_field {m : List (Str × Json)} (h : Unique (.obj m)) {k : Str} {v : Json} (hv : mget m k = some v) :
    Unique v := unique_at (p := [k]) h (by rw [at_obj, hv]; exact at_nil v)

theorem merge_obj_at (m n : List (Str × Json)) (hn : Unique (.obj n)) (k : Str) (ks : List Str) :
    at_ (merge (.obj m) (.obj n)) (k :: ks) = match mget n k with
      | none => at_ (.obj m) (k :: ks)
      | some v => match mget m k with
        | none => at_ v ks
        | some x => at_ (merge x v) ks := by
  show at_ (.obj (mergeFields m n)) (k :: ks) = _
  rw [at_obj, mget_mergeFields m n (unique_fields hn), at_obj]
  cases mget n k with
  | none => rfl
  | some v => cases mget m k <;> rfl

theorem merge_both {a b : Json} (hb : Unique b) (p : List Str) {x y : Json} (hx : at_ a p = some x) (hy : at_ b p = some y) :
    at_ (merge a b) p = some (merge x y) := by
  induction p generalizing a b with
  | nil =>
    rw [at_nil] at hx hy ⊢
    cases hx; cases hy
    rfl
  | cons k ks ih =>
    cases a with
    | obj m =>
      cases b with
      | obj n =>
        rw [merge_obj_at m n hb]
        rw [at_obj] at hx hy
        obtain ⟨u, hu, hx⟩ := Option.bind_eq_some_iff.mp hx
        obtain ⟨v, hv, hy⟩ := Option.bind_eq_some_iff.mp hy
        rw [hu, hv]
        exact ih (unique_field hb hv) hx hy
      | _ => cases hy
    | _ => cases hx

theorem merge_new {a b : Json} (hb : Unique b) (p : List Str) {y : Json} (hx : at_ a p = none) (hy : at_ b p = some y) :
    at_ (merge a b) p = some y := by
  induction p generalizing a b with
  | nil => rw [at_nil] at hx; cases hx
  | cons k ks ih =>
    by_cases ha : IsObj a
    · cases a with
      | obj m =>
        cases b with
        | obj n =>
          rw [merge_obj_at m n hb]
          rw [at_obj] at hx hy
          obtain ⟨v, hv, hy⟩ := Option.bind_eq_some_iff.mp hy
          rw [hv]
          cases hu : mget m k with
          | none => exact hy
          | some u =>
            rw [hu] at hx
            exact ih (unique_field hb hv) hx hy
        | _ => cases hy
      | _ => cases ha
    · rw [merge_into ha]
      exact hy

theorem silent_cons {n : List (Str × Json)} {k : Str} {ks : List Str} (h : Silent (.obj n) (k :: ks)) {v : Json}
    (hv : mget n k = some v) : Silent v ks := by
  constructor
  · have := h.1
    rw [at_obj, hv] at this
    exact this
  · intro q hq x hx
    refine h.2 (k :: q) ((List.prefix_cons_inj k).mpr hq) x ?_
    rw [at_obj, hv]
    exact hx

theorem merge_old {a b : Json} (hb : Unique b) (p : List Str) (h : Silent b p) : at_ (merge a b) p = at_ a p := by
  induction p generalizing a b with
  | nil => have := h.1; rw [at_nil] at this; cases this
  | cons k ks ih =>
    have hobj : IsObj b := h.2 [] List.nil_prefix b (at_nil b)
    cases b with
    | obj n =>
      by_cases ha : IsObj a
      · cases a with
        | obj m =>
          rw [merge_obj_at m n hb]
          cases hv : mget n k with
          | none => rfl
          | some v =>
            have hs := silent_cons h hv
            rw [at_obj]
            cases hu : mget m k with
            | none => exact hs.1
            | some u => exact ih (unique_field hb hv) hs
        | _ => cases ha
      · rw [merge_into ha, at_plain ha, h.1]
    | _ => cases hobj

theorem merge_gone {a b : Json} (hb : Unique b) (q r : List Str) (hr : r ≠ []) {y : Json} (hy : at_ b q = some y)
    (hp : ¬ IsObj y) : at_ (merge a b) (q ++ r) = none := by
  have hnone : at_ b (q ++ r) = none := by
    rw [at_append, hy]
    obtain ⟨k, ks, rfl⟩ := List.exists_cons_of_ne_nil hr
    exact at_plain hp k ks
  induction q generalizing a b with
  | nil =>
    rw [at_nil] at hy
    cases hy
    rw [merge_plain hp]
    exact hnone
  | cons k ks ih =>
    cases b with
    | obj n =>
      by_cases ha : IsObj a
      · cases a with
        | obj m =>
          rw [List.cons_append, merge_obj_at m n hb]
          rw [at_obj] at hy
          obtain ⟨v, hv, hy⟩ := Option.bind_eq_some_iff.mp hy
          rw [List.cons_append, at_obj, hv] at hnone
          rw [hv]
          cases hu : mget m k with
          | none => exact hnone
          | some u => exact ih (unique_field hb hv) hy hnone
        | _ => cases ha
      · rw [merge_into ha]
        exact hnone
    | _ => cases hy

end ConfigLemmas

open ConfigLemmas

/-- C65: what is read after a layer `b` is laid over `a`, for every path.  A plain value of the later layer counts; where
the later layer has an object, the two are laid over each other; where it is silent, the earlier value stays; below a
plain value of the later layer there is nothing. -/
theorem C65_merge (a b : Json) (hb : Unique b) (p : List Str) :
    (∀ y, at_ b p = some y → ¬ IsObj y → walk (merge a b) p = some y) ∧
    (∀ x y, at_ a p = some x → at_ b p = some y → walk (merge a b) p = some (merge x y)) ∧
    (∀ y, at_ a p = none → at_ b p = some y → walk (merge a b) p = some y) ∧
    (Silent b p → walk (merge a b) p = at_ a p) ∧
    (∀ q r y, p = q ++ r → r ≠ [] → at_ b q = some y → ¬ IsObj y → walk (merge a b) p = none) := by
  rw [walk_at]
  refine ⟨fun y hy hp => ?_, fun x y hx hy => merge_both hb p hx hy, fun y hx hy => merge_new hb p hx hy,
    fun h => merge_old hb p h, ?_⟩
  · cases hx : at_ a p with
    | none => exact merge_new hb p hx hy
    | some x => rw [merge_both hb p hx hy, merge_plain hp]
  · rintro q r y rfl hr hy hp
    exact merge_gone hb q r hr hy hp

/-- C65: with any number of layers, the plain value of the last layer that says something is read. -/
theorem C65_layers (root l : Json) (before after : List Json) (hl : Unique l) (ha : ∀ x ∈ after, Unique x) (p : List Str) :
    (∀ y, at_ l p = some y → ¬ IsObj y → (∀ x ∈ after, Silent x p) →
      walk ((before ++ l :: after).foldl merge root) p = some y) ∧
    ((∀ x ∈ after, Silent x p) → walk (after.foldl merge root) p = at_ root p) := by
  have key : ∀ (after : List Json) (root : Json), (∀ x ∈ after, Unique x) → (∀ x ∈ after, Silent x p) →
      walk (after.foldl merge root) p = at_ root p := by
    intro after
    induction after with
    | nil => intro root _ _; rw [walk_at]; rfl
    | cons b after ih =>
      intro root hu hs
      rw [List.foldl_cons, ih _ (fun x hx => hu x (List.mem_cons_of_mem _ hx)) fun x hx => hs x (List.mem_cons_of_mem _ hx)]
      exact merge_old (hu b List.mem_cons_self) p (hs b List.mem_cons_self)
  refine ⟨fun y hy hp hs => ?_, key after root ha⟩
  rw [List.foldl_append, List.foldl_cons, key after _ ha hs, ← walk_at]
  exact (C65_merge _ l hl p).1 y hy hp

/-- C65: laying a layer over itself changes nothing that can be read. -/
theorem C65_idempotent (a : Json) (ha : Unique a) (p : List Str) : seen (merge a a) p = seen a p := by
  cases hx : at_ a p with
  | some x =>
    have h := merge_both ha p hx hx
    unfold seen
    rw [h, hx]
    by_cases ho : IsObj x
    · cases x with
      | obj m => rfl
      | _ => cases ho
    · rw [merge_plain ho]
  | none =>
    have h : at_ (merge a a) p = none := by
      by_cases hs : ∀ q, q <+: p → ∀ x, at_ a q = some x → IsObj x
      · rw [merge_old ha p ⟨hx, hs⟩, hx]
      · simp only [not_forall] at hs
        obtain ⟨q, ⟨r, rfl⟩, y, hy, hp⟩ := hs
        refine merge_gone ha q r ?_ hy hp
        rintro rfl
        rw [List.append_nil, hy] at hx
        cases hx
    unfold seen
    rw [h, hx]

/-- C65 is false as to associativity: a plain value in the middle layer hides the first layer only if the layers are
laid in order. -/
theorem C65_assoc_false : ∃ a b c p, Unique a ∧ Unique b ∧ Unique c ∧
    walk (merge (merge a b) c) p = none ∧ walk (merge a (merge b c)) p = some (.num 1) := by
  have hu : ∀ j : Json, ¬ IsObj j → Unique j := by
    intro j hj path m h
    cases path with
    | nil => rw [at_nil] at h; cases h; exact absurd trivial hj
    | cons k ks => rw [at_plain hj] at h; cases h
  have h1 : ∀ (k : Str) (v : Json), Unique v → Unique (.obj [(k, v)]) := by
    intro k v hv path m h
    cases path with
    | nil => cases h; simp [mkeys]
    | cons j js =>
      rw [at_obj] at h
      obtain ⟨w, hw, h⟩ := Option.bind_eq_some_iff.mp h
      simp only [mget] at hw
      split at hw
      · cases hw; exact hv js m h
      · cases hw
  refine ⟨.obj [(c!"k", .obj [(c!"x", .num 1)])], .obj [(c!"k", .num 0)], .obj [(c!"k", .obj [(c!"y", .num 2)])],
    [c!"k", c!"x"], h1 _ _ (h1 _ _ (hu _ (by intro h; exact h))), h1 _ _ (hu _ (by intro h; exact h)),
    h1 _ _ (h1 _ _ (hu _ (by intro h; exact h))), by rfl, by rfl⟩

/-- The value of a configuration file, if it counts. -/
def layer : FileState → List Json
  | .value j => [j]
  | _ => []

/-- C65: `load` lays system, user and project files over each other in this order, then the environment; it is an error
exactly when one of the files cannot be read. -/
theorem C65_load (lower : Str → Str) (parse : Str → Option Json) (system user project : FileState) (env : List (Str × Str)) :
    (load lower parse system user project env = none ↔ system = .bad ∨ user = .bad ∨ project = .bad) ∧
    ∀ c, load lower parse system user project env = some c →
      c.data = overrides lower parse ((layer system ++ layer user ++ layer project).foldl merge (.obj [])) env ∧
      (∀ s, s ∈ c.sources ↔ (s = .system ∧ layer system ≠ []) ∨ (s = .user ∧ layer user ≠ []) ∨
        (s = .project ∧ layer project ≠ [])) := by
  constructor
  · cases system <;> cases user <;> cases project <;> simp [load, Config.mergeFile, Config.new]
  · intro c h
    cases system <;> cases user <;> cases project <;>
      simp [load, Config.mergeFile, Config.new] at h <;> subst h <;> simp [layer]

-- three layers
example : Unique (.obj [(c!"a", .num 1)]) ∧ Silent (.obj [(c!"a", .num 1)]) [c!"b"] ∧
    walk ([Json.obj [(c!"b", .num 1)], .obj [(c!"b", .num 2)], .obj [(c!"a", .num 1)]].foldl merge (.obj [])) [c!"b"] =
      some (.num 2) := by
  refine ⟨?_, ⟨by rfl, ?_⟩, by rfl⟩
  · intro path m h
    match path, h with
    | [], h => cases h; simp [mkeys]
    | k :: ks, h =>
      rw [at_obj] at h
      obtain ⟨w, hw, h⟩ := Option.bind_eq_some_iff.mp h
      simp only [mget] at hw
      split at hw
      · cases hw
        cases ks <;> cases h
      · cases hw
  · rintro q hq x hx
    match q, hq, hx with
    | [], _, hx => cases hx; trivial
    | k :: ks, hq, hx =>
      obtain ⟨rfl, hks⟩ := List.cons_prefix_cons.mp hq
      obtain rfl := List.prefix_nil.mp hks
      cases hx

/-! ## C66: setting one key -/

namespace ConfigLemmas

theorem setAt_obj (v : Json) (last : Str) (j : Json) (s : Str) (ss : List Str) :
    ∃ m, setAt v last j (s :: ss) = .obj (mset m s (setAt v last ((mget m s).getD (.obj [])) ss)) ∧
      (∀ k ks, at_ j (k :: ks) = at_ (.obj m) (k :: ks)) ∧ (IsObj j → j = .obj m) := by
  cases j with
  | obj m => exact ⟨m, by rw [setAt], fun _ _ => rfl, fun _ => rfl⟩
  | _ =>
    refine ⟨[], ?_, fun _ _ => rfl, fun h => absurd h (by intro h; exact h)⟩
    rw [setAt]
    · rfl
    · intro m h; cases h

theorem at_empty (p : List Str) (hp : p ≠ []) : at_ (.obj []) p = none := by
  obtain ⟨k, ks, rfl⟩ := List.exists_cons_of_ne_nil hp
  rfl

theorem set_visible (v : Json) (last : Str) (j : Json) (ss : List Str) (h : Open j ss) :
    at_ (setAt v last j ss) (ss ++ [last]) = some v := by
  induction ss generalizing j with
  | nil =>
    have hj := h j (at_nil j)
    cases j with
    | obj m =>
      rw [setAt, List.nil_append, at_obj, mget_mset, if_pos rfl]
      exact at_nil v
    | _ => cases hj
  | cons s ss ih =>
    obtain ⟨m, h1, h2, _⟩ := setAt_obj v last j s ss
    rw [h1, List.cons_append, at_obj, mget_mset, if_pos rfl]
    show at_ _ _ = _
    apply ih
    intro x hx
    cases hm : mget m s with
    | none =>
      rw [hm] at hx
      cases ss with
      | nil => cases hx; trivial
      | cons k ks => cases hx
    | some w =>
      rw [hm] at hx
      apply h x
      rw [h2, at_obj, hm]
      exact hx

theorem set_apart (v : Json) (last : Str) (j : Json) (ss q : List Str) (h : Apart (ss ++ [last]) q) :
    at_ (setAt v last j ss) q = at_ j q := by
  induction ss generalizing j q with
  | nil =>
    cases j with
    | obj m =>
      rw [setAt]
      cases q with
      | nil => exact absurd List.nil_prefix h.2
      | cons k ks =>
        rw [at_obj, at_obj, mget_mset]
        split
        · rename_i hk
          subst hk
          exact absurd ((List.prefix_cons_inj k).mpr List.nil_prefix) h.1
        · rfl
    | _ =>
      rw [setAt]
      intro m h; cases h
  | cons s ss ih =>
    obtain ⟨m, h1, h2, _⟩ := setAt_obj v last j s ss
    cases q with
    | nil => exact absurd List.nil_prefix h.2
    | cons k ks =>
      rw [h1, h2, at_obj, at_obj, mget_mset]
      by_cases hk : k = s
      · subst hk
        rw [if_pos rfl]
        have hap : Apart (ss ++ [last]) ks := by
          refine ⟨fun hp => h.1 ?_, fun hp => h.2 ?_⟩
          · exact (List.prefix_cons_inj k).mpr hp
          · exact (List.prefix_cons_inj k).mpr hp
        show at_ _ ks = _
        rw [ih _ _ hap]
        cases mget m k with
        | none =>
          simp only [Option.getD_none, Option.bind_none]
          apply at_empty
          rintro rfl
          exact hap.2 List.nil_prefix
        | some w => rfl
      · rw [if_neg hk]

/-- A proper part of the path is an object afterwards, unless the last one is a plain value. -/
theorem set_open (v : Json) (last : Str) (j : Json) (ss r : List Str) (hr : r <+: ss) (h : Open j r) :
    Open (setAt v last j ss) r := by
  induction ss generalizing j r with
  | nil =>
    obtain rfl := List.prefix_nil.mp hr
    intro x hx
    have hj := h j (at_nil j)
    cases j with
    | obj m => rw [setAt, at_nil] at hx; cases hx; trivial
    | _ => cases hj
  | cons s ss ih =>
    obtain ⟨m, h1, h2, _⟩ := setAt_obj v last j s ss
    rw [h1]
    cases r with
    | nil => intro x hx; rw [at_nil] at hx; cases hx; trivial
    | cons k ks =>
      obtain ⟨rfl, hks⟩ := List.cons_prefix_cons.mp hr
      intro x hx
      rw [at_obj, mget_mset, if_pos rfl] at hx
      refine ih ((mget m k).getD (.obj [])) ks hks ?_ x hx
      intro y hy
      cases hm : mget m k with
      | none =>
        rw [hm] at hy
        cases ks with
        | nil => cases hy; trivial
        | cons _ _ => cases hy
      | some w =>
        rw [hm] at hy
        apply h y
        rw [h2, at_obj, hm]
        exact hy

theorem set_dropped (v : Json) (last : Str) (j : Json) (ss : List Str) {x : Json} (hx : at_ j ss = some x) (hp : ¬ IsObj x)
    (q : List Str) : seen (setAt v last j ss) q = seen j q := by
  induction ss generalizing j q with
  | nil =>
    rw [at_nil] at hx
    cases hx
    cases x with
    | obj m => exact absurd trivial hp
    | _ =>
      rw [setAt]
      intro m h; cases h
  | cons s ss ih =>
    cases j with
    | obj m =>
      rw [at_obj] at hx
      obtain ⟨w, hw, hw'⟩ := Option.bind_eq_some_iff.mp hx
      rw [setAt, hw]
      cases q with
      | nil => rfl
      | cons k ks =>
        unfold seen
        rw [at_obj, at_obj, mget_mset]
        by_cases hk : k = s
        · subst hk
          rw [if_pos rfl, hw]
          exact ih w hw' ks
        · rw [if_neg hk]
    | _ => cases hx

theorem mem_of_splitChar {d c : Char} {s l : Str} (h : l ∈ splitChar d s) (hc : c ∈ l) : c ∈ s := by
  induction s generalizing l with
  | nil =>
    simp only [splitChar, List.mem_singleton] at h
    rwa [h] at hc
  | cons x s ih =>
    rw [splitChar] at h
    split at h
    · rcases List.mem_cons.mp h with rfl | h
      · cases hc
      · exact List.mem_cons_of_mem _ (ih h hc)
    · cases hs : splitChar d s with
      | nil => exact absurd hs (splitChar_ne_nil _ _)
      | cons p ps =>
        rw [hs] at h ih
        rcases List.mem_cons.mp h with rfl | h
        · rcases List.mem_cons.mp hc with rfl | hc
          · exact List.mem_cons_self
          · exact List.mem_cons_of_mem _ (ih List.mem_cons_self hc)
        · exact List.mem_cons_of_mem _ (ih (List.mem_cons_of_mem _ h) hc)

theorem mem_of_trim {c : Char} {s : Str} (h : c ∈ trim s) : c ∈ s := by
  unfold trim trimEnd trimStart at h
  rw [List.mem_reverse] at h
  have h := (List.dropWhile_sublist _).subset h
  rw [List.mem_reverse] at h
  exact (List.dropWhile_sublist _).subset h

theorem split_last (key : Str) : (splitChar '.' key).dropLast ++ [(splitChar '.' key).getLastD []] = splitChar '.' key := by
  have := splitChar_ne_nil '.' key
  rw [List.getLastD_eq_getLast?, List.getLast?_eq_getLast_of_ne_nil this]
  exact List.dropLast_append_getLast this

end ConfigLemmas

/-- C66, partial: after a key is set, the value is read at the key, when the parent of the key is missing or an object.
Missing: a parent that is a plain value (refuted below). -/
theorem C66_visible_partial (root : Json) (key : Str) (v : Json) (h : Open root (splitChar '.' key).dropLast) :
    lookup (setNested root key v) key = some v := by
  unfold lookup setNested
  simp only
  rw [walk_at]
  have := set_visible v ((splitChar '.' key).getLastD []) root _ h
  rwa [split_last] at this

/-- C66: a key that does not lead through the key that is set, nor the other way round, keeps its value. -/
theorem C66_local (root : Json) (key other : Str) (v : Json) (h : Apart (splitChar '.' key) (splitChar '.' other)) :
    lookup (setNested root key v) other = lookup root other := by
  unfold lookup setNested
  simp only
  rw [walk_at, walk_at]
  apply set_apart
  rw [split_last]
  exact h

/-- C66 is false under a plain value: the new value is dropped without an error, and nothing that can be read changes. -/
theorem C66_dropped_false (root : Json) (key : Str) (v x : Json) (hx : at_ root (splitChar '.' key).dropLast = some x)
    (hp : ¬ IsObj x) : lookup (setNested root key v) key = none ∧ ∀ q, seen (setNested root key v) q = seen root q := by
  have h : ∀ q, seen (setNested root key v) q = seen root q := fun q => set_dropped v _ root _ hx hp q
  refine ⟨?_, h⟩
  unfold lookup
  rw [walk_at]
  have h1 := h (splitChar '.' key)
  have h2 : at_ root (splitChar '.' key) = none := by
    rw [← split_last key, at_append, hx]
    exact at_plain hp _ _
  unfold seen at h1
  rw [h2] at h1
  cases h3 : at_ (setNested root key v) (splitChar '.' key) with
  | none => rfl
  | some y =>
    rw [h3] at h1
    cases y <;> cases h1

/-- C66 is false one level further up: there the plain value is replaced, so that `a.b` is dropped and `a.b.c` removes
the value of `a`. -/
theorem C66_replaced_false : lookup (.obj [(c!"a", .num 1)]) c!"a" = some (.num 1) ∧
    lookup (setNested (.obj [(c!"a", .num 1)]) c!"a.b" (.num 2)) c!"a" = some (.num 1) ∧
    lookup (setNested (.obj [(c!"a", .num 1)]) c!"a.b.c" (.num 2)) c!"a" = some (.obj [(c!"b", .obj [(c!"c", .num 2)])]) :=
  ⟨by rfl, by rfl, by rfl⟩

-- a key with a new parent, and one beside it
example : Open (.obj [(c!"a", .num 1)]) (splitChar '.' c!"b.c").dropLast ∧ Apart (splitChar '.' c!"b.c") (splitChar '.' c!"b.d") := by
  refine ⟨?_, by decide, by decide⟩
  intro x hx
  cases hx

/-! ## C109: environment variables -/

namespace ConfigLemmas

theorem overrides_open (lower : Str → Str) (parse : Str → Option Json) (env : List (Str × Str)) (j : Json) (p : List Str)
    (h : Open j p.dropLast)
    (henv : ∀ x ∈ env, ∀ k, envKey lower x.1 = some k → Apart (splitChar '.' k) p) :
    Open (overrides lower parse j env) p.dropLast := by
  induction env generalizing j with
  | nil => exact h
  | cons x env ih =>
    obtain ⟨n, v⟩ := x
    rw [overrides]
    have henv' : ∀ x ∈ env, ∀ k, envKey lower x.1 = some k → Apart (splitChar '.' k) p :=
      fun x hx => henv x (List.mem_cons_of_mem _ hx)
    cases hk : envKey lower n with
    | none => exact ih j h henv'
    | some k =>
      refine ih _ ?_ henv'
      have hap := henv (n, v) List.mem_cons_self k hk
      by_cases hpre : p.dropLast <+: (splitChar '.' k).dropLast
      · exact set_open _ _ j _ _ hpre h
      · have : Apart (splitChar '.' k) p.dropLast := by
          refine ⟨fun hh => hap.1 (hh.trans (List.dropLast_prefix p)), fun hh => ?_⟩
          rw [← split_last k, List.prefix_concat_iff, split_last] at hh
          rcases hh with hh | hh
          · exact hap.1 (by rw [← hh]; exact List.dropLast_prefix p)
          · exact hpre hh
        intro x hx
        apply h x
        rw [← hx]
        symm
        apply set_apart
        rw [split_last]
        exact this

theorem overrides_apart (lower : Str → Str) (parse : Str → Option Json) (env : List (Str × Str)) (j : Json) (p : List Str)
    (henv : ∀ x ∈ env, ∀ k, envKey lower x.1 = some k → Apart (splitChar '.' k) p) :
    at_ (overrides lower parse j env) p = at_ j p := by
  induction env generalizing j with
  | nil => rfl
  | cons x env ih =>
    obtain ⟨n, v⟩ := x
    rw [overrides]
    have henv' : ∀ x ∈ env, ∀ k, envKey lower x.1 = some k → Apart (splitChar '.' k) p :=
      fun x hx => henv x (List.mem_cons_of_mem _ hx)
    cases hk : envKey lower n with
    | none => exact ih j henv'
    | some k =>
      simp only
      rw [ih _ henv']
      apply set_apart
      rw [split_last]
      exact henv (n, v) List.mem_cons_self k hk

theorem overrides_append (lower : Str → Str) (parse : Str → Option Json) (env env' : List (Str × Str)) (j : Json) :
    overrides lower parse j (env ++ env') = overrides lower parse (overrides lower parse j env) env' := by
  induction env generalizing j with
  | nil => rfl
  | cons x env ih =>
    obtain ⟨n, v⟩ := x
    rw [List.cons_append, overrides, overrides]
    cases envKey lower n with
    | none => exact ih j
    | some k => exact ih _

theorem envKey_dots {lower : Str → Str} {n k : Str} (h : envKey lower n = some k) : '_' ∉ k := by
  unfold envKey at h
  split at h
  · cases h
    intro hm
    obtain ⟨c, _, hc⟩ := List.mem_map.mp hm
    split at hc
    · exact absurd hc (by decide)
    · rename_i hne
      exact hne hc
  · cases h

end ConfigLemmas

/-- C109: the variables that count are those whose names start with `REZ_`, and the name spells the path of the key:
`REZ_FOO_BAR` is `foo`, `bar`. -/
theorem C109_key (lower : Str → Str) :
    (∀ name, envKey lower name ≠ none ↔ ∃ rest, name = c!"REZ_" ++ rest) ∧
    (∀ words : List Str, words ≠ [] → lower (joinWith c!"_" words) = joinWith c!"_" (words.map lower) →
      (∀ w ∈ words, '_' ∉ lower w ∧ '.' ∉ lower w) →
      ∃ key, envKey lower (c!"REZ_" ++ joinWith c!"_" words) = some key ∧ splitChar '.' key = words.map lower) := by
  have hpre : ∀ name : Str, c!"REZ_".isPrefixOf name = true ↔ ∃ rest, name = c!"REZ_" ++ rest := by
    intro name
    rw [List.isPrefixOf_iff_prefix]
    exact ⟨fun ⟨r, h⟩ => ⟨r, h.symm⟩, fun ⟨r, h⟩ => ⟨r, h.symm⟩⟩
  constructor
  · intro name
    rw [← hpre]
    unfold envKey
    split <;> simp [*]
  · intro words hne hl hw
    have hmap : ∀ ws : List Str, (∀ w ∈ ws, '_' ∉ w) →
        (joinWith c!"_" ws).map (fun c => if c = '_' then '.' else c) = joinWith c!"." ws := by
      have hid : ∀ w : Str, '_' ∉ w → w.map (fun c => if c = '_' then '.' else c) = w := by
        intro w hw
        conv_rhs => rw [← List.map_id w]
        apply List.map_congr_left
        intro c hc
        rw [if_neg]
        · rfl
        · rintro rfl; exact hw hc
      intro ws
      induction ws with
      | nil => intro _; rfl
      | cons w ws ih =>
        intro h
        cases ws with
        | nil => exact hid w (h w List.mem_cons_self)
        | cons x xs =>
          have := ih fun y hy => h y (List.mem_cons_of_mem _ hy)
          rw [joinWith, joinWith, List.map_append, List.map_append, hid w (h w List.mem_cons_self), this]
          · rfl
    refine ⟨joinWith c!"." (words.map lower), ?_, ?_⟩
    · unfold envKey
      rw [if_pos ((hpre _).mpr ⟨_, rfl⟩)]
      show some ((lower (joinWith c!"_" words)).map _) = _
      rw [hl, hmap]
      intro w hw'
      obtain ⟨x, hx, rfl⟩ := List.mem_map.mp hw'
      exact (hw x hx).1
    · apply splitChar_join
      · simpa using hne
      · intro w hw'
        obtain ⟨x, hx, rfl⟩ := List.mem_map.mp hw'
        exact (hw x hx).2

/-- C109, partial: a `REZ_` variable sets the key that its name spells, whatever the order in which the environment is
iterated, when no other variable leads through the same key and the parent of the key is not a plain value.
Missing: variables that lead through each other (refuted below), and keys with an underscore (refuted below). -/
theorem C109_set_partial (lower : Str → Str) (parse : Str → Option Json) (before after : List (Str × Str)) (j : Json)
    (name value key : Str) (hk : envKey lower name = some key)
    (hopen : Open j (splitChar '.' key).dropLast)
    (hothers : ∀ x ∈ before ++ after, ∀ k, envKey lower x.1 = some k → Apart (splitChar '.' k) (splitChar '.' key)) :
    lookup (overrides lower parse j (before ++ (name, value) :: after)) key = some ((parse value).getD (.str value)) := by
  have hb : ∀ x ∈ before, ∀ k, envKey lower x.1 = some k → Apart (splitChar '.' k) (splitChar '.' key) :=
    fun x hx => hothers x (List.mem_append_left _ hx)
  have ha : ∀ x ∈ after, ∀ k, envKey lower x.1 = some k → Apart (splitChar '.' k) (splitChar '.' key) :=
    fun x hx => hothers x (List.mem_append_right _ hx)
  rw [overrides_append, overrides, hk]
  simp only
  unfold lookup
  rw [walk_at, overrides_apart lower parse after _ _ ha, ← walk_at]
  exact C66_visible_partial _ key _ (overrides_open lower parse before j _ hopen hb)

/-- C109: a key that no variable leads through or from keeps its value. -/
theorem C109_local (lower : Str → Str) (parse : Str → Option Json) (env : List (Str × Str)) (j : Json) (key : Str)
    (h : ∀ x ∈ env, ∀ k, envKey lower x.1 = some k → Apart (splitChar '.' k) (splitChar '.' key)) :
    lookup (overrides lower parse j env) key = lookup j key := by
  unfold lookup
  rw [walk_at, walk_at]
  exact overrides_apart lower parse env j _ h

/-- C109 is false for options with an underscore: no environment changes such an option (`packages_path`, for one),
because every underscore in the name of a variable becomes a step down. -/
theorem C109_underscore_false (lower : Str → Str) (parse : Str → Option Json) (env : List (Str × Str)) (j : Json) (key : Str)
    (hdot : '.' ∉ key) (hu : '_' ∈ key) : lookup (overrides lower parse j env) key = lookup j key := by
  apply C109_local
  intro x _ k hk
  rw [splitChar_noSep hdot]
  have hno : ∀ s ∈ splitChar '.' k, '_' ∉ s := by
    intro s hs hm
    exact envKey_dots hk (mem_of_splitChar hs hm)
  constructor
  · intro hp
    have hne := splitChar_ne_nil '.' k
    obtain ⟨a, as, he⟩ := List.exists_cons_of_ne_nil hne
    rw [he] at hp hno
    obtain ⟨rfl, _⟩ := List.cons_prefix_cons.mp hp
    exact hno a List.mem_cons_self hu
  · intro hp
    exact hno key (hp.subset (List.mem_singleton.mpr rfl)) hu

/-- C109 is false for variables that lead through each other: what is read depends on the order of the environment. -/
theorem C109_order_false : ∃ (env env' : List (Str × Str)), env.Perm env' ∧
    lookup (overrides (fun s => s.map lowerChar) (fun _ => none) (.obj []) env) c!"a.b.c" = some (.str c!"2") ∧
    lookup (overrides (fun s => s.map lowerChar) (fun _ => none) (.obj []) env') c!"a.b.c" = none :=
  ⟨[(c!"REZ_A", c!"1"), (c!"REZ_A_B_C", c!"2")], [(c!"REZ_A_B_C", c!"2"), (c!"REZ_A", c!"1")], List.Perm.swap _ _ _, by rfl, by rfl⟩

/-- C109 is false of the lock: no configuration that is loaded is locked, so the environment always counts. -/
theorem C109_lock_false (lower : Str → Str) (parse : Str → Option Json) (system user project : FileState)
    (env : List (Str × Str)) (c : Config) (h : load lower parse system user project env = some c) : c.locked = false := by
  cases system <;> cases user <;> cases project <;>
    simp [load, Config.mergeFile, Config.new] at h <;> subst h <;> rfl

-- one variable among others
example : envKey (fun s => s.map lowerChar) c!"REZ_FOO_BAR" = some c!"foo.bar" ∧ envKey id c!"PATH" = none ∧
    Apart (splitChar '.' c!"foo.bar") (splitChar '.' c!"foo.x") := ⟨by decide, by decide, by decide, by decide⟩

/-! ## C110: the configuration of the command line -/

/-- C110: the three environment variables win over every file; without them the first file in the search order that can
be read counts as a whole, and the defaults count when there is none. -/
theorem C110_load (read : Str → Option Str) (yaml json : Str → Option Core) (default : Core) (e : Env) :
    let result := Core.load read yaml json default e
    let reads := fun p => (read p).bind fun text => (yaml text).or (json text)
    ∃ c, (c = default ∧ (∀ p ∈ searchPaths e, reads p = none) ∨
        ∃ before p after, searchPaths e = before ++ p :: after ∧ (∀ q ∈ before, reads q = none) ∧ reads p = some c) ∧
      result.packagesPath = (e.packages.map splitPaths).getD c.packagesPath ∧
      result.localPath = e.localPkgs.getD c.localPath ∧
      result.releasePath = e.release.getD c.releasePath ∧
      result.other = c.other := by
  intro result reads
  refine ⟨firstFile read yaml json default (searchPaths e), ?_, ?_⟩
  · generalize searchPaths e = ps
    induction ps with
    | nil => exact Or.inl ⟨rfl, by simp⟩
    | cons p ps ih =>
      rw [firstFile]
      cases hp : (read p).bind fun text => (yaml text).or (json text) with
      | some c => exact Or.inr ⟨[], p, ps, rfl, by simp, hp⟩
      | none =>
        simp only
        rcases ih with ⟨h1, h2⟩ | ⟨before, q, after, h1, h2, h3⟩
        · refine Or.inl ⟨h1, fun q hq => ?_⟩
          rcases List.mem_cons.mp hq with rfl | hq
          · exact hp
          · exact h2 q hq
        · refine Or.inr ⟨p :: before, q, after, by rw [h1]; rfl, fun r hr => ?_, h3⟩
          rcases List.mem_cons.mp hr with rfl | hr
          · exact hp
          · exact h2 r hr
  · simp only [result, Core.load]
    obtain ⟨_, _, _, _, packages, localPkgs, release⟩ := e
    cases packages <;> cases localPkgs <;> cases release <;> exact ⟨rfl, rfl, rfl, rfl⟩

/-- C110 is false of `REZ_CONFIG_FILE`: the text is split at every slash, so a file with a slash in its path is never
added to the search. -/
theorem C110_config_file_false (e : Env) (f : Str) (h : e.configFile = some f) (hs : '/' ∈ f) (hm : f ∈ searchPaths e) :
    f ∈ searchPaths { e with configFile := none } := by
  unfold searchPaths at hm ⊢
  simp only [h, List.mem_append, List.append_assoc, List.not_mem_nil, false_or] at hm ⊢
  rcases hm with hm | hm | hm
  · exact Or.inl hm
  · exact absurd hs (RexLemmas.splitChar_mem hm)
  · exact Or.inr hm

/-- C110 is false of the user's files: they come last, so when any other file can be read the files in the home directory
count for nothing. -/
theorem C110_user_false (read : Str → Option Str) (yaml json : Str → Option Core) (default : Core) (e : Env) (p : Str)
    (hp : p ∈ searchPaths { e with home := none }) (c : Core) (hc : ((read p).bind fun text => (yaml text).or (json text)) = some c) :
    Core.load read yaml json default e = Core.load read yaml json default { e with home := none } := by
  have key : ∀ l l' : List Str, p ∈ l → firstFile read yaml json default (l ++ l') = firstFile read yaml json default l := by
    intro l l' h
    induction l with
    | nil => cases h
    | cons q l ih =>
      rw [List.cons_append, firstFile, firstFile]
      cases hq : (read q).bind fun text => (yaml text).or (json text) with
      | some d => rfl
      | none =>
        rcases List.mem_cons.mp h with rfl | h
        · rw [hc] at hq; cases hq
        · exact ih h
  have hs : searchPaths e = searchPaths { e with home := none } ++ (if e.disableHome.getD [] ≠ c!"1" then
      match e.home with
      | some h => [h ++ c!"/.rezconfig", h ++ c!"/.rezconfig.yaml", h ++ c!"/.rez/config.yaml"]
      | none => [] else []) := by
    unfold searchPaths
    cases e.home <;> simp
  unfold Core.load
  rw [hs, key _ _ hp]

/-- C110: the files in the home directory are looked for exactly when `REZ_DISABLE_HOME_CONFIG` is not `1`, and the file
beside the program is the first of all. -/
theorem C110_home (e : Env) (home : Str) (hh : e.home = some home) :
    (e.disableHome ≠ some c!"1" → home ++ c!"/.rezconfig" ∈ searchPaths e ∧ home ++ c!"/.rezconfig.yaml" ∈ searchPaths e ∧
      home ++ c!"/.rez/config.yaml" ∈ searchPaths e) ∧
    (e.disableHome = some c!"1" → searchPaths e = searchPaths { e with home := none }) ∧
    (∀ d, e.exeDir = some d → (searchPaths e).head? = some (d ++ c!"/rezconfig.yaml")) := by
  unfold searchPaths
  refine ⟨fun h => ?_, fun h => ?_, fun d h => ?_⟩
  · have : e.disableHome.getD [] ≠ c!"1" := by
      cases hd : e.disableHome with
      | none => simp
      | some x => rw [hd] at h; simpa using h
    simp [hh, this]
  · simp [h]
  · simp [h]

/-- C110: a list of paths in a variable is read back as written, blanks around the paths and empty parts left out. -/
theorem C110_split (paths : List Str) (hne : paths ≠ [])
    (h : ∀ p ∈ paths, p ≠ [] ∧ ':' ∉ p ∧ trim p = p) :
    splitPaths (joinWith c!":" paths) = paths ∧
    ∀ s, ∀ p ∈ splitPaths s, p ≠ [] ∧ ':' ∉ p := by
  constructor
  · unfold splitPaths
    rw [splitChar_join hne fun p hp => (h p hp).2.1]
    have hmap : paths.map trim = paths := by
      conv_rhs => rw [← List.map_id paths]
      exact List.map_congr_left fun p hp => (h p hp).2.2
    rw [hmap, List.filter_eq_self]
    intro p hp
    simpa using (h p hp).1
  · intro s p hp
    unfold splitPaths at hp
    obtain ⟨hp, hne⟩ := List.mem_filter.mp hp
    obtain ⟨q, hq, rfl⟩ := List.mem_map.mp hp
    refine ⟨by simpa using hne, fun hm => ?_⟩
    exact RexLemmas.splitChar_mem hq (mem_of_trim hm)

-- a search with a readable file in the home directory only
example : let read := fun p => if p = c!"/home/u/.rezconfig.yaml" then some c!"x" else none
    let c : Core := ⟨[c!"/p"], c!"/l", c!"/r", .num 1⟩
    let e : Env := ⟨some c!"/bin", some c!"/etc/my.yaml", none, some c!"/home/u", none, some c!"/mine", none⟩
    (Core.load read (fun _ => some c) (fun _ => none) ⟨[], [], [], .null⟩ e).other = .num 1 ∧
    (Core.load read (fun _ => some c) (fun _ => none) ⟨[], [], [], .null⟩ e).localPath = c!"/mine" ∧
    c!"/etc/my.yaml" ∉ searchPaths e := ⟨by rfl, by rfl, by decide⟩

end Rez.Props
