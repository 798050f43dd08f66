import Verif.Spec.PyCache
/-!
# C252: what a payload cache says to Python
-/
namespace Rez.PyCacheLemmas
open Rez.Payload Rez.PyCache

variable {F C : Type} [DecidableEq F]

theorem metas_copy (src : List (F × C)) (inc : Str) (b : Bucket Handle.Handle F C) :
    (applyAll b (src.flatMap fun p => [Step.tearFile inc p.1, Step.writeFile inc p.1 p.2])).metas = b.metas := by
  induction src generalizing b with
  | nil => rfl
  | cons p src ih =>
    simp only [List.flatMap_cons, applyAll, List.foldl_append] at ih ⊢
    rw [ih]; rfl

theorem payload_copy (src : List (F × C)) (inc : Str) (b : Bucket Handle.Handle F C)
    (h : (mget b.payloads inc).isSome) :
    (mget (applyAll b (src.flatMap fun p => [Step.tearFile inc p.1, Step.writeFile inc p.1 p.2])).payloads inc).isSome := by
  induction src generalizing b with
  | nil => exact h
  | cons p src ih =>
    simp only [List.flatMap_cons, applyAll, List.foldl_append] at ih ⊢
    apply ih
    simp [Step.apply, mget_mupd, h]

theorem fill_metas (now : Nat) (inc : Str) (h : Handle.Handle) (src : List (F × C)) (b : Bucket Handle.Handle F C) :
    mget (applyAll b (fillSteps now inc h src)).metas inc = some (.whole h now) := by
  have e := metas_copy src inc (applyAll b [.flag inc now, .tearMeta inc, .writeMeta inc h now, .mkdir inc])
  simp only [applyAll] at e
  simp only [fillSteps, copySteps, applyAll, List.foldl_append, List.foldl_cons, List.foldl_nil] at e ⊢
  simp only [Step.apply] at e ⊢
  rw [e]; simp [mget_mset]

theorem fill_payload (now : Nat) (inc : Str) (h : Handle.Handle) (src : List (F × C)) (b : Bucket Handle.Handle F C) :
    (mget (applyAll b (fillSteps now inc h src)).payloads inc).isSome := by
  have e := payload_copy src inc (applyAll b [.flag inc now, .tearMeta inc, .writeMeta inc h now, .mkdir inc])
    (by simp [applyAll, Step.apply, mget_mset])
  simp only [applyAll] at e
  simp only [fillSteps, copySteps, applyAll, List.foldl_append, List.foldl_cons, List.foldl_nil] at e ⊢
  simp only [Step.apply] at e ⊢
  exact e

theorem files_copy (src : List (F × C)) (hsrc : (src.map Prod.fst).Nodup) (inc : Str) (b : Bucket Handle.Handle F C)
    (files : Files F C) (h : mget b.payloads inc = some files) : ∃ files',
      mget (applyAll b (src.flatMap fun p => [Step.tearFile inc p.1, Step.writeFile inc p.1 p.2])).payloads inc = some files' ∧
      (∀ f x, (f, x) ∈ src → mget files' f = some (some x)) ∧
      ∀ f, f ∉ src.map Prod.fst → mget files' f = mget files f := by
  induction src generalizing b files with
  | nil => exact ⟨files, h, by simp, fun _ _ => rfl⟩
  | cons p src ih =>
    simp only [List.map_cons, List.nodup_cons] at hsrc
    simp only [List.flatMap_cons, applyAll, List.foldl_append] at ih ⊢
    obtain ⟨files', h1, h2, h3⟩ := ih hsrc.2
      ([Step.tearFile inc p.1, Step.writeFile inc p.1 p.2].foldl Step.apply b) (mset (mset files p.1 none) p.1 (some p.2))
      (by simp [Step.apply, mget_mupd, h])
    refine ⟨files', h1, ?_, ?_⟩
    · intro f x hm
      rcases List.mem_cons.1 hm with e | hm
      · have : p = (f, x) := e.symm
        subst this
        rw [h3 _ hsrc.1, mget_mset, if_pos rfl]
      · exact h2 f x hm
    · intro f hf
      simp only [List.map_cons, List.mem_cons, not_or] at hf
      rw [h3 f hf.2, mget_mset, if_neg hf.1, mget_mset, if_neg hf.1]

theorem fill_files (now : Nat) (inc : Str) (h : Handle.Handle) (src : List (F × C)) (hsrc : (src.map Prod.fst).Nodup)
    (b : Bucket Handle.Handle F C) : ∃ files, mget (applyAll b (fillSteps now inc h src)).payloads inc = some files ∧
      (∀ f x, (f, x) ∈ src → mget files f = some (some x)) ∧
      ∀ f, f ∉ src.map Prod.fst → mget files f = mget ((mget b.payloads inc).getD []) f := by
  have e := files_copy src hsrc inc (applyAll b [.flag inc now, .tearMeta inc, .writeMeta inc h now, .mkdir inc])
    ((mget b.payloads inc).getD []) (by simp [applyAll, Step.apply, mget_mset])
  simp only [applyAll] at e
  simp only [fillSteps, copySteps, applyAll, List.foldl_append, List.foldl_cons, List.foldl_nil] at e ⊢
  simp only [Step.apply] at e ⊢
  exact e

theorem mem_listed (scan : List Str) (b : Bucket Handle.Handle F C) (inc : Str) (h : Handle.Handle) :
    (inc, h) ∈ listed scan b ↔ inc ∈ scan ∧ ∃ t, mget b.metas inc = some (.whole h t) := by
  simp only [listed, List.mem_filterMap]
  constructor
  · rintro ⟨x, hx, e⟩
    split at e
    · rename_i h' t hm
      simp only [Option.some.injEq, Prod.mk.injEq] at e
      obtain ⟨rfl, rfl⟩ := e
      exact ⟨hx, t, hm⟩
    · exact absurd e (by simp)
  · rintro ⟨hx, t, hm⟩
    exact ⟨inc, hx, by rw [hm]⟩

theorem mem_keys_of_get {κ α : Type} [DecidableEq κ] {m : List (κ × α)} {k : κ} {v : α} (h : mget m k = some v) :
    k ∈ mkeys m := (mget_isSome_iff m k).1 ⟨v, h⟩

theorem mem_list (w : World F C) (hw : w.Fair) (c : Cache F C) (hn : (mkeys c).Nodup) (d : Shown) (p : Place) (inc : Str)
    (k : Int) : (d, (p, inc), k) ∈ listCached w c ↔ p.name.head? ≠ some '.' ∧ ∃ b h t, mget c p = some b ∧
      mget b.metas inc = some (.whole h t) ∧ d = toDict h ∧ k = code (listStatus b inc) := by
  simp only [listCached, List.mem_flatMap]
  constructor
  · rintro ⟨⟨q, b⟩, he, hm⟩
    split at hm
    · exact absurd hm (by simp)
    · rename_i hd
      simp only [List.mem_map] at hm
      obtain ⟨⟨i, h⟩, hl, e⟩ := hm
      simp only [Prod.mk.injEq] at e
      obtain ⟨rfl, ⟨rfl, rfl⟩, rfl⟩ := e
      obtain ⟨_, t, ht⟩ := (mem_listed _ _ _ _).1 hl
      exact ⟨hd, b, h, t, mget_of_mem hn he, ht, rfl, rfl⟩
  · rintro ⟨hd, b, h, t, hb, hm, rfl, rfl⟩
    refine ⟨(p, b), mget_some_mem hb, ?_⟩
    rw [if_neg hd]
    exact List.mem_map.2 ⟨(inc, h), (mem_listed _ _ _ _).2 ⟨(hw b inc).2 (mem_keys_of_get hm), t, hm⟩, rfl⟩

theorem cases (now : Nat) (scan : List Str) (b : Bucket Handle.Handle F C) (h : Handle.Handle) :
    getCached now scan b h = (.notFound, none, []) ∨ ∃ inc, holds b h inc = true ∧
      (getCached now scan b h = (.copyStalled, some inc, []) ∨ getCached now scan b h = (.copying, some inc, []) ∨
        getCached now scan b h = (.found, some inc, [.tearMeta inc, .writeMeta inc h now])) := by
  unfold getCached
  cases hf : scan.find? (holds b h) with
  | none => exact Or.inl rfl
  | some inc =>
    refine Or.inr ⟨inc, List.find?_some hf, ?_⟩
    cases hg : mget b.flags inc with
    | none => simp [hg]
    | some t =>
      by_cases ht : now - t > 300
      · simp [hg, ht]
      · simp [hg, ht]

theorem held (c : Cache F C) (p : Place) (h : Handle.Handle) (inc : Str) (hh : holds (bucket c p) h inc = true) :
    Holds c p inc h := by
  unfold holds bucket at hh
  cases hc : mget c p with
  | none => rw [hc] at hh; simp at hh
  | some b =>
    rw [hc] at hh
    simp only [Option.getD_some] at hh
    split at hh
    · rename_i h' t hm
      have : h' = h := by simpa using hh
      subst this
      exact ⟨b, t, hc, hm⟩
    · cases hh

theorem get_of_steps (c : Cache F C) (p q : Place) (hq : q ≠ p) (b : Bucket Handle.Handle F C) (steps) :
    mget (if List.isEmpty steps then c else mset c p (applyAll b steps)) q = mget c q := by
  split
  · rfl
  · rw [mget_mset, if_neg hq]

end Rez.PyCacheLemmas

namespace Rez.Props
open Rez.Payload Rez.PyCache Rez.PyCacheLemmas

variable {F C : Type} [DecidableEq F]

/-- Different statuses have different codes, so that a code says which status it is. -/
theorem C252_codes (s t : CacheStatus) : code s = code t ↔ s = t := by
  cases s <;> cases t <;> simp [code]

/-- The class and the module have one constant for each status, with its code, and no others. -/
theorem C252_constants (n : Str) (k : Int) :
    ((n, k) ∈ attributes ↔ ∃ s, n = nameOf s ∧ k = code s) ∧
    ((n, k) ∈ constants ↔ ∃ s, n = c!"VARIANT_" ++ nameOf s ∧ k = code s) := by
  constructor <;> constructor
  · intro h
    simp only [attributes, List.mem_cons, Prod.mk.injEq, List.not_mem_nil, or_false] at h
    rcases h with h | h | h | h | h | h | h | h
    · exact ⟨.notFound, h⟩
    · exact ⟨.found, h⟩
    · exact ⟨.created, h⟩
    · exact ⟨.copying, h⟩
    · exact ⟨.copyStalled, h⟩
    · exact ⟨.pending, h⟩
    · exact ⟨.removed, h⟩
    · exact ⟨.skipped, h⟩
  · rintro ⟨s, rfl, rfl⟩
    cases s <;> decide
  · intro h
    simp only [constants, List.mem_cons, Prod.mk.injEq, List.not_mem_nil, or_false] at h
    rcases h with h | h | h | h | h | h | h | h
    · exact ⟨.notFound, h⟩
    · exact ⟨.found, h⟩
    · exact ⟨.created, h⟩
    · exact ⟨.copying, h⟩
    · exact ⟨.copyStalled, h⟩
    · exact ⟨.pending, h⟩
    · exact ⟨.removed, h⟩
    · exact ⟨.skipped, h⟩
  · rintro ⟨s, rfl, rfl⟩
    cases s <;> decide

/-- The description of a code, by the function and by the dictionary, is the description of its status; the dictionary has
no other codes. -/
theorem C252_descriptions (s : CacheStatus) (k : Int) (d : Str) : descriptionOf (code s) = description s ∧
    (mget statusDescriptions k = some d ↔ ∃ s, k = code s ∧ d = description s) := by
  constructor
  · cases s <;> rfl
  · constructor
    · intro h
      have hm := mget_some_mem h
      simp only [statusDescriptions, List.mem_cons, Prod.mk.injEq, List.not_mem_nil, or_false] at hm
      rcases hm with h | h | h | h | h | h | h | h
      · exact ⟨.notFound, h⟩
      · exact ⟨.found, h⟩
      · exact ⟨.created, h⟩
      · exact ⟨.copying, h⟩
      · exact ⟨.copyStalled, h⟩
      · exact ⟨.pending, h⟩
      · exact ⟨.removed, h⟩
      · exact ⟨.skipped, h⟩
    · rintro ⟨s, rfl, rfl⟩
      cases s <;> rfl

/-- Descriptions of different statuses differ. -/
theorem C252_distinct (s t : CacheStatus) : description s = description t ↔ s = t := by
  constructor
  · cases s <;> cases t <;> first | (intro _; rfl) | (intro h; revert h; decide)
  · rintro rfl; rfl

/-- Not so: only codes are described.  Every number that is no code has the description of a variant that was not
found. -/
theorem C252_unknown_false (k : Int) (hk : ∀ s, k ≠ code s) : descriptionOf k = description .notFound := by
  have h0 := hk .notFound; have h1 := hk .found; have h2 := hk .created; have h3 := hk .copying
  have h4 := hk .copyStalled; have h5 := hk .pending; have h6 := hk .removed; have h7 := hk .skipped
  simp only [code] at h0 h1 h2 h3 h4 h5 h6 h7
  simp [descriptionOf, h0, h1, h2, h3, h4, h5, h6, h7]

/-- An entry is listed iff its metadata can be read and its directory's name does not begin with a dot: with the name,
version and index from the metadata, at its path, as found when its payload is there and as pending when not. -/
theorem C252_listed (w : World F C) (hw : w.Fair) (c : Cache F C) (hn : (mkeys c).Nodup) (d : Shown) (p : Place) (inc : Str)
    (k : Int) : (d, (p, inc), k) ∈ listCached w c ↔ p.name.head? ≠ some '.' ∧
      (∃ h, Holds c p inc h ∧ d = ⟨h.name, h.version, h.index⟩) ∧
      ((HasPayload c p inc ∧ k = 1) ∨ (¬ HasPayload c p inc ∧ k = 5)) := by
  rw [mem_list w hw c hn]
  refine and_congr_right fun _ => ?_
  constructor
  · rintro ⟨b, h, t, hb, hm, rfl, rfl⟩
    refine ⟨⟨h, ⟨b, t, hb, hm⟩, rfl⟩, ?_⟩
    unfold listStatus
    cases hp : mget b.payloads inc with
    | none =>
      refine Or.inr ⟨?_, by simp [code]⟩
      rintro ⟨b', f, hb', hf⟩
      rw [hb] at hb'; cases hb'
      rw [hp] at hf; cases hf
    | some f => exact Or.inl ⟨⟨b, f, hb, hp⟩, by simp [code]⟩
  · rintro ⟨⟨h, ⟨b, t, hb, hm⟩, rfl⟩, hk⟩
    refine ⟨b, h, t, hb, hm, rfl, ?_⟩
    rcases hk with ⟨⟨b', f, hb', hf⟩, rfl⟩ | ⟨hno, rfl⟩
    · rw [hb] at hb'; cases hb'
      simp [listStatus, hf, code]
    · have : mget b.payloads inc = none := by
        cases hp : mget b.payloads inc with
        | none => rfl
        | some f => exact absurd ⟨b, f, hb, hp⟩ hno
      simp [listStatus, this, code]

/-- A variant that is found, or whose copying is under way or stalled, is given with the path of an entry that holds this
very handle, in the handle's own directory; one that is not found is given without a path. -/
theorem C252_get (w : World F C) (c : Cache F C) (h : Handle.Handle) :
    ((getCachedRoot w c h).1 = 0 ∧ (getCachedRoot w c h).2.1 = none) ∨
    (((getCachedRoot w c h).1 = 1 ∨ (getCachedRoot w c h).1 = 3 ∨ (getCachedRoot w c h).1 = 4) ∧
      ∃ inc, (getCachedRoot w c h).2.1 = some (place w.sha h, inc) ∧ Holds c (place w.sha h) inc h) := by
  simp only [getCachedRoot]
  rcases cases w.now (w.scan (bucket c (place w.sha h))) (bucket c (place w.sha h)) h with e | ⟨inc, hh, e | e | e⟩
  · rw [e]; exact Or.inl ⟨rfl, rfl⟩
  · rw [e]; exact Or.inr ⟨Or.inr (Or.inr rfl), inc, rfl, held c _ h inc hh⟩
  · rw [e]; exact Or.inr ⟨Or.inr (Or.inl rfl), inc, rfl, held c _ h inc hh⟩
  · rw [e]; exact Or.inr ⟨Or.inl rfl, inc, rfl, held c _ h inc hh⟩

/-- A source that is no directory raises, and nothing else does. -/
theorem C252_raises (w : World F C) (c : Cache F C) (h : Handle.Handle) (source : Option (List (F × C))) (space : Bool)
    (force : Option Bool) : PyCache.addVariant w c h source space force = none ↔ source = none := by
  cases source <;> simp [PyCache.addVariant]

/-- A variant that is not found is skipped iff there is no space and nothing is forced, and created otherwise; no `force`
is `force=False`.  One that is skipped leaves the cache as it was. -/
theorem C252_force (w : World F C) (c c' : Cache F C) (h : Handle.Handle) (src : List (F × C)) (space : Bool)
    (force : Option Bool) (k : Int) (p : Place) (inc : Option Str) (hnot : (getCachedRoot w c h).1 = 0)
    (ha : PyCache.addVariant w c h (some src) space force = some (k, p, inc, c')) :
    p = place w.sha h ∧ ((k = 7 ∧ c' = c ∧ inc = none ∧ space = false ∧ force ≠ some true) ∨
    (k = 2 ∧ (space = true ∨ force = some true))) := by
  simp only [getCachedRoot] at hnot
  rcases cases w.now (w.scan (bucket c (place w.sha h))) (bucket c (place w.sha h)) h with e | ⟨i, _, e | e | e⟩
  · simp only [PyCache.addVariant, Payload.addVariant, e, Option.some.injEq] at ha
    by_cases hs : (force.getD false || space) = true
    · rw [if_pos hs] at ha
      simp only [Prod.mk.injEq] at ha
      refine ⟨ha.2.1.symm, Or.inr ⟨ha.1.symm, ?_⟩⟩
      cases force with
      | none => simpa using hs
      | some f => cases f <;> simp_all
    · rw [if_neg hs] at ha
      simp only [Prod.mk.injEq] at ha
      refine ⟨ha.2.1.symm, Or.inl ⟨ha.1.symm, ha.2.2.2.symm, ha.2.2.1.symm, ?_⟩⟩
      cases force with
      | none => simpa using hs
      | some f => cases f <;> simp_all
  all_goals rw [e] at hnot; simp [ofStatus, code] at hnot

/-- A variant that was created holds its handle and its payload at the path that was given, and it is listed there as
found, unless the package's name begins with a dot. -/
theorem C252_added (w : World F C) (hw : w.Fair) (c c' : Cache F C) (hn : (mkeys c).Nodup) (h : Handle.Handle)
    (src : List (F × C)) (space : Bool) (force : Option Bool) (p : Place) (i : Option Str)
    (ha : PyCache.addVariant w c h (some src) space force = some (2, p, i, c')) :
    ∃ inc, i = some inc ∧ p = place w.sha h ∧ Holds c' p inc h ∧ HasPayload c' p inc ∧
      (p.name.head? ≠ some '.' → (⟨h.name, h.version, h.index⟩, (p, inc), 1) ∈ listCached w c') := by
  rcases cases w.now (w.scan (bucket c (place w.sha h))) (bucket c (place w.sha h)) h with e | ⟨i', _, e | e | e⟩
  · simp only [PyCache.addVariant, Payload.addVariant, e, Option.some.injEq] at ha
    by_cases hs : (force.getD false || space) = true
    · rw [if_pos hs] at ha
      simp only [Prod.mk.injEq, List.nil_append] at ha
      obtain ⟨_, rfl, rfl, rfl⟩ := ha
      have hm := fill_metas w.now (nextIncrement (w.scan (bucket c (place w.sha h)))) h src (bucket c (place w.sha h))
      have hp := fill_payload w.now (nextIncrement (w.scan (bucket c (place w.sha h)))) h src (bucket c (place w.sha h))
      obtain ⟨f, hfl⟩ := Option.isSome_iff_exists.1 hp
      have hne : (fillSteps (C := C) w.now (nextIncrement (w.scan (bucket c (place w.sha h)))) h src).isEmpty = false := rfl
      rw [hne]
      simp only [Bool.false_eq_true, if_false]
      generalize applyAll (bucket c (place w.sha h)) (fillSteps w.now (nextIncrement (w.scan (bucket c (place w.sha h)))) h src)
        = b' at hm hfl ⊢
      have hg : mget (mset c (place w.sha h) b') (place w.sha h) = some b' := by rw [mget_mset, if_pos rfl]
      refine ⟨_, rfl, trivial, ⟨b', _, hg, hm⟩, ⟨b', f, hg, hfl⟩, fun hd => ?_⟩
      exact (C252_listed w hw _ (nodup_mset hn _ _) _ _ _ _).2
        ⟨hd, ⟨h, ⟨b', _, hg, hm⟩, rfl⟩, Or.inl ⟨⟨b', f, hg, hfl⟩, rfl⟩⟩
    · rw [if_neg hs] at ha
      simp [ofStatus, code] at ha
  all_goals simp [PyCache.addVariant, Payload.addVariant, e, ofStatus, code] at ha

/-- A variant that was created has each file of the source, complete and with its content; and no other file, unless
something was left at that path before. -/
theorem C252_contents (w : World F C) (c c' : Cache F C) (h : Handle.Handle) (src : List (F × C))
    (hsrc : (src.map Prod.fst).Nodup) (space : Bool) (force : Option Bool) (p : Place) (inc : Str)
    (ha : PyCache.addVariant w c h (some src) space force = some (2, p, some inc, c')) (f : F) (x : C) :
    ((f, x) ∈ src → HasFile c' p inc f x) ∧ (HasFile c' p inc f x → ¬ HasPayload c p inc → (f, x) ∈ src) := by
  rcases cases w.now (w.scan (bucket c (place w.sha h))) (bucket c (place w.sha h)) h with e | ⟨i', _, e | e | e⟩
  · simp only [PyCache.addVariant, Payload.addVariant, e, Option.some.injEq] at ha
    by_cases hs : (force.getD false || space) = true
    · rw [if_pos hs] at ha
      simp only [Prod.mk.injEq, List.nil_append, Option.some.injEq] at ha
      obtain ⟨_, rfl, hi, rfl⟩ := ha
      rw [hi]
      obtain ⟨files, h1, h2, h3⟩ := fill_files w.now inc h src hsrc (bucket c (place w.sha h))
      have hne : (fillSteps (C := C) w.now inc h src).isEmpty = false := rfl
      rw [hne]
      simp only [Bool.false_eq_true, if_false]
      generalize applyAll (bucket c (place w.sha h)) (fillSteps w.now inc h src) = b' at h1 ⊢
      have hg : mget (mset c (place w.sha h) b') (place w.sha h) = some b' := by rw [mget_mset, if_pos rfl]
      refine ⟨fun hm => ⟨b', files, hg, h1, h2 f x hm⟩, ?_⟩
      rintro ⟨b, fs, hb, hf, hx⟩ hno
      rw [hg, Option.some.injEq] at hb
      subst hb
      rw [h1, Option.some.injEq] at hf
      subst hf
      by_cases hmem : f ∈ src.map Prod.fst
      · obtain ⟨⟨f', y⟩, hy, rfl⟩ := List.mem_map.1 hmem
        have := h2 f' y hy
        rw [hx] at this
        simp only [Option.some.injEq] at this
        subst this
        exact hy
      · have hnone : mget (bucket c (place w.sha h)).payloads inc = none := by
          unfold bucket
          cases hc : mget c (place w.sha h) with
          | none => rfl
          | some b =>
            cases hp : mget b.payloads inc with
            | none => simpa using hp
            | some g => exact absurd ⟨b, g, hc, hp⟩ hno
        rw [h3 f hmem, hnone] at hx
        simp at hx
    · rw [if_neg hs] at ha
      simp [ofStatus, code] at ha
  all_goals simp [PyCache.addVariant, Payload.addVariant, e, ofStatus, code] at ha

/-- A variant that was removed is no longer at the path that was given: neither its metadata nor its payload. -/
theorem C252_removed (w : World F C) (hw : w.Fair) (c : Cache F C) (hn : (mkeys c).Nodup) (h : Handle.Handle)
    (hk : (PyCache.removeVariant w c h).1 = 6) : ∃ inc,
      (PyCache.removeVariant w c h).2.1 = some (place w.sha h, inc) ∧ Holds c (place w.sha h) inc h ∧
      ¬ HasPayload (PyCache.removeVariant w c h).2.2 (place w.sha h) inc ∧
      ∀ d k, (d, (place w.sha h, inc), k) ∉ listCached w (PyCache.removeVariant w c h).2.2 := by
  rcases cases w.now (w.scan (bucket c (place w.sha h))) (bucket c (place w.sha h)) h with e | ⟨inc, hh, e | e | e⟩
  · simp [PyCache.removeVariant, Payload.removeVariant, e, ofStatus, code] at hk
  · simp [PyCache.removeVariant, Payload.removeVariant, e, ofStatus, code] at hk
  · simp [PyCache.removeVariant, Payload.removeVariant, e, ofStatus, code] at hk
  · have hr : PyCache.removeVariant w c h = (6, some (place w.sha h, inc), mset c (place w.sha h)
        (applyAll (bucket c (place w.sha h)) [.tearMeta inc, .writeMeta inc h w.now, .dropPayload inc, .dropMeta inc])) := by
      simp [PyCache.removeVariant, Payload.removeVariant, e, ofStatus, code]
    rw [hr]
    have hg : ∀ b', mget (mset c (place w.sha h) b') (place w.sha h) = some b' := fun b' => by rw [mget_mset, if_pos rfl]
    refine ⟨inc, rfl, held c _ h inc hh, ?_, ?_⟩
    · rintro ⟨b, f, hb, hp⟩
      have hb := (hg _).symm.trans hb
      simp only [Option.some.injEq] at hb
      subst hb
      simp [applyAll, Step.apply, mget_mdel] at hp
    · intro d k hmem
      obtain ⟨_, b, h', t, hb, hm, _⟩ := (mem_list w hw _ (nodup_mset hn _ _) d _ inc k).1 hmem
      have hb := (hg _).symm.trans hb
      simp only [Option.some.injEq] at hb
      subst hb
      simp [applyAll, Step.apply, mget_mdel] at hm

/-- Adding a variant that is there already, or is being copied, gives what asking for it gives, whatever the space and the
source and whether or not it is forced. -/
theorem C252_again (w : World F C) (c : Cache F C) (h : Handle.Handle) (src : List (F × C)) (space : Bool)
    (force : Option Bool) (hk : (getCachedRoot w c h).1 ≠ 0) : ∃ inc,
      (getCachedRoot w c h).2.1 = some (place w.sha h, inc) ∧
      PyCache.addVariant w c h (some src) space force =
        some ((getCachedRoot w c h).1, place w.sha h, some inc, (getCachedRoot w c h).2.2) := by
  rcases cases w.now (w.scan (bucket c (place w.sha h))) (bucket c (place w.sha h)) h with e | ⟨inc, _, e | e | e⟩
  · simp [getCachedRoot, e, ofStatus, code] at hk
  all_goals exact ⟨inc, by simp [getCachedRoot, e], by simp [getCachedRoot, PyCache.addVariant, Payload.addVariant, e]⟩

/-- A variant is removed iff it is found.  Otherwise, asking to remove it gives what asking for it gives and changes
nothing. -/
theorem C252_remove_iff (w : World F C) (c : Cache F C) (h : Handle.Handle) :
    ((PyCache.removeVariant w c h).1 = 6 ↔ (getCachedRoot w c h).1 = 1) ∧
    (PyCache.removeVariant w c h).2.1 = (getCachedRoot w c h).2.1 ∧
    ((getCachedRoot w c h).1 ≠ 1 → (PyCache.removeVariant w c h).1 = (getCachedRoot w c h).1 ∧
      (PyCache.removeVariant w c h).2.2 = c) := by
  rcases cases w.now (w.scan (bucket c (place w.sha h))) (bucket c (place w.sha h)) h with e | ⟨inc, _, e | e | e⟩ <;>
    simp [getCachedRoot, PyCache.removeVariant, Payload.removeVariant, e, ofStatus, code]

/-- Asking for a variant changes no list. -/
theorem C252_ask (w w' : World F C) (hw : w'.Fair) (c : Cache F C) (hn : (mkeys c).Nodup) (h : Handle.Handle)
    (x : Shown × PayloadPath × Int) : x ∈ listCached w' (getCachedRoot w c h).2.2 ↔ x ∈ listCached w' c := by
  obtain ⟨d, ⟨p, i⟩, k⟩ := x
  rcases cases w.now (w.scan (bucket c (place w.sha h))) (bucket c (place w.sha h)) h with e | ⟨inc, hh, e | e | e⟩
  · simp [getCachedRoot, e]
  · simp [getCachedRoot, e]
  · simp [getCachedRoot, e]
  · have hc : (getCachedRoot w c h).2.2 = mset c (place w.sha h)
        (applyAll (bucket c (place w.sha h)) [.tearMeta inc, .writeMeta inc h w.now]) := by simp [getCachedRoot, e]
    obtain ⟨b, t, hb, hm⟩ := held c _ h inc hh
    have hbk : bucket c (place w.sha h) = b := by simp [bucket, hb]
    rw [hc, hbk, C252_listed w' hw _ (nodup_mset hn _ _), C252_listed w' hw c hn]
    have hH : ∀ h', Holds (mset c (place w.sha h) (applyAll b [.tearMeta inc, .writeMeta inc h w.now])) p i h' ↔
        Holds c p i h' := by
      intro h'
      simp only [Holds, mget_mset]
      by_cases hp : p = place w.sha h
      · subst hp
        simp only [if_true, Option.some.injEq, exists_and_left, exists_eq_left', hb, applyAll, List.foldl_cons,
          List.foldl_nil, Step.apply, mget_mset]
        by_cases hi : i = inc
        · subst hi; simp [hm]
        · simp [hi]
      · simp [hp]
    have hP : HasPayload (mset c (place w.sha h) (applyAll b [.tearMeta inc, .writeMeta inc h w.now])) p i ↔
        HasPayload c p i := by
      simp only [HasPayload, mget_mset]
      by_cases hp : p = place w.sha h
      · subst hp
        simp [hb, applyAll, Step.apply]
      · simp [hp]
    simp only [hH, hP]

/-- What is in other directories is as before, whatever is asked, added or removed. -/
theorem C252_others (w : World F C) (c c' : Cache F C) (h : Handle.Handle) (q : Place) (hq : q ≠ place w.sha h)
    (src : Option (List (F × C))) (space : Bool) (force : Option Bool) (k : Int) (p : Place) (i : Option Str)
    (ha : PyCache.addVariant w c h src space force = some (k, p, i, c')) :
    mget (getCachedRoot w c h).2.2 q = mget c q ∧ mget (PyCache.removeVariant w c h).2.2 q = mget c q ∧
    mget c' q = mget c q := by
  refine ⟨get_of_steps c _ q hq _ _, get_of_steps c _ q hq _ _, ?_⟩
  cases src with
  | none => simp [PyCache.addVariant] at ha
  | some src =>
    simp only [PyCache.addVariant, Option.some.injEq, Prod.mk.injEq] at ha
    rw [← ha.2.2.2]
    exact get_of_steps c _ q hq _ _

/-- Names and versions that differ only in case are kept below the same directories; no version is the version
`_no_version`. -/
theorem C252_place (sha : Str → Str) (h : Handle.Handle) : (place sha h).name = h.name.map lowerChar ∧
    (∀ v, h.version = some v → (place sha h).version = v.map lowerChar) ∧
    (h.version = none → (place sha h).version = c!"_no_version") ∧
    (place sha h).hash = (sha (Handle.repr h)).take 4 := by
  refine ⟨rfl, ?_, ?_, rfl⟩
  · intro v hv; simp [place, hv]
  · intro hv; simp only [place, hv, Option.getD_none]; decide

/-- A world and a handle for the examples. -/
def cacheWorld : World Nat Nat := ⟨fun s => s.take 9, 5, fun b => mkeys b.metas⟩

/-- Not so: a variant that was created is listed.  `.tools` is created and found, and the list stays empty. -/
theorem C252_hidden_false : ∃ (w : World Nat Nat) (h : Handle.Handle) (p : Place) (i : Option Str) (c' : Cache Nat Nat),
    w.Fair ∧ PyCache.addVariant w [] h (some [(1, 2)]) true none = some (2, p, i, c') ∧ (getCachedRoot w c' h).1 = 1 ∧
    listCached w c' = [] :=
  ⟨cacheWorld, newHandle c!".tools" (some c!"1.0") none, _, _, _, fun _ _ => Iff.rfl, rfl, by decide +kernel, by decide +kernel⟩

/-- Not so: a variant that is listed as found is found.  While it is copied, its payload directory is there, and the list
says found where asking for it says that it is being copied. -/
theorem C252_copying_false : ∃ (w : World Nat Nat) (h : Handle.Handle) (c : Cache Nat Nat) (path : PayloadPath),
    w.Fair ∧ (getCachedRoot w c h).1 = 3 ∧ (getCachedRoot w c h).2.1 = some path ∧
    listCached w c = [(⟨h.name, h.version, h.index⟩, path, 1)] :=
  ⟨cacheWorld, newHandle c!"python" (some c!"3.9") none,
    [(place cacheWorld.sha (newHandle c!"python" (some c!"3.9") none),
      ⟨[(c!"a", 5)], [(c!"a", .whole (newHandle c!"python" (some c!"3.9") none) 5)], [(c!"a", [(1, none)])]⟩)], _,
    fun _ _ => Iff.rfl, by decide +kernel, rfl, by decide +kernel⟩

/-- Adding, asking and removing `Python-3.9`. -/
example : ∃ c', PyCache.addVariant cacheWorld [] (newHandle c!"Python" (some c!"3.9") (some 0)) (some [(1, 2)]) false (some true) =
      some (2, ⟨c!"python", c!"3.9", c!"name"⟩, some c!"a", c') ∧
    listCached cacheWorld c' = [(⟨c!"Python", some c!"3.9", some 0⟩, (⟨c!"python", c!"3.9", c!"name"⟩, c!"a"), 1)] ∧
    (PyCache.removeVariant cacheWorld c' (newHandle c!"Python" (some c!"3.9") (some 0))).1 = 6 ∧
    (mkeys c').Nodup ∧ cacheWorld.Fair :=
  ⟨_, rfl, by decide +kernel, by decide +kernel, by decide +kernel, fun _ _ => Iff.rfl⟩

/-- No space, and nothing forced: skipped; a code that there is not. -/
example : (∃ c', PyCache.addVariant cacheWorld [] (newHandle c!"x" none none) (some [(1, 2)]) false none =
      some (7, ⟨c!"x", c!"_no_version", c!"name"⟩, none, c')) ∧
    (getCachedRoot cacheWorld [] (newHandle c!"x" none none)).1 = 0 ∧
    descriptionOf 42 = c!"was not found" ∧ (∀ s, (42 : Int) ≠ code s) :=
  ⟨⟨_, rfl⟩, by decide +kernel, by decide +kernel, fun s => by cases s <;> decide⟩

end Rez.Props
