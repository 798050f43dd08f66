import Verif.Spec.SearchCommand
import Verif.Lemmas.VersionExtra
import Verif.Props.Search
/-!
# C193 – C198: the search command
-/
namespace Rez.SearchCmd
open Rez Rez.SearchCommand Rez.Spec.SearchCommand

theorem has_iff (w : World) (a : Args) (t : Str) : has w a t = true ↔ Occurs w a t := by
  simp only [has, containsStr_iff, Occurs, fold, folded]

theorem hit_plain {w : World} {a : Args} (h : a.regex = false) : hit w a = has w a := by
  funext t
  simp [hit, has, h]

/-- The fields and points of a package. -/
def hits (w : World) (a : Args) (p : Pkg) : List (Str × Nat) :=
  nameHit w a p ++ descriptionHit w a p ++ toolsHit w a p ++ requirementsHit w a p ++ defaultHits w a p

theorem evaluate_eq (w : World) (a : Args) (p : Pkg) :
    evaluate w a p = if ((hits w a p).map (·.2)).sum > 0 then
      some ⟨p, ((hits w a p).map (·.2)).sum, (hits w a p).map (·.1)⟩ else none := rfl

theorem hits_pos (w : World) (a : Args) (p : Pkg) : ∀ h ∈ hits w a p, 0 < h.2 := by
  intro h hm
  simp only [hits, List.mem_append, nameHit, descriptionHit, toolsHit, requirementsHit, defaultHits] at hm
  rcases hm with (((hm | hm) | hm) | hm) | hm
  · split at hm
    · simp only [List.mem_singleton] at hm
      subst hm
      dsimp only
      split <;> (try split) <;> omega
    · simp at hm
  · split at hm
    · split at hm
      · simp only [List.mem_singleton] at hm
        simp [hm]
      · simp at hm
    · simp at hm
  · split at hm
    · simp only [List.mem_singleton] at hm
      simp [hm]
    · simp at hm
  · split at hm
    · simp only [List.mem_singleton] at hm
      simp [hm]
    · simp at hm
  · split at hm
    · simp only [List.mem_append] at hm
      rcases hm with hm | hm
      · split at hm
        · split at hm
          · simp only [List.mem_singleton] at hm
            simp [hm]
          · simp at hm
        · simp at hm
      · split at hm
        · simp only [List.mem_singleton] at hm
          simp [hm]
        · simp at hm
    · simp at hm

theorem sum_pos_iff {l : List (Str × Nat)} (h : ∀ x ∈ l, 0 < x.2) : 0 < (l.map (·.2)).sum ↔ l ≠ [] := by
  cases l with
  | nil => simp
  | cons x l =>
    have := h x (by simp)
    simp only [List.map_cons, List.sum_cons, ne_eq, reduceCtorEq, not_false_eq_true, iff_true]
    omega

theorem evaluate_some {w : World} {a : Args} {p : Pkg} {r : Res} :
    evaluate w a p = some r ↔ hits w a p ≠ [] ∧ r = ⟨p, ((hits w a p).map (·.2)).sum, (hits w a p).map (·.1)⟩ := by
  rw [evaluate_eq]
  by_cases h : hits w a p = []
  · simp [h]
  · rw [if_pos ((sum_pos_iff (hits_pos w a p)).2 h)]
    simp only [Option.some.injEq, ne_eq, h, not_false_eq_true, true_and]
    exact ⟨Eq.symm, Eq.symm⟩

/-- Are no fields asked for? -/
def bare (a : Args) : Bool := !a.description && !a.tools && !a.requirements

theorem bare_iff (a : Args) : bare a = true ↔ NoField a := by
  simp [bare, NoField, and_assoc]

theorem mem_fields {w : World} {a : Args} (hr : a.regex = false) (p : Pkg) (f : Str) :
    f ∈ (hits w a p).map (·.1) ↔ ∃ t, Looked a p f t ∧ Occurs w a t := by
  simp only [hits, List.map_append, List.mem_append, nameHit, descriptionHit, toolsHit, requirementsHit, defaultHits,
    hit_plain hr]
  constructor
  · intro hm
    rcases hm with (((hm | hm) | hm) | hm) | hm
    · split at hm
      next h =>
        simp only [List.map_cons, List.map_nil, List.mem_singleton] at hm
        subst hm
        exact ⟨_, .name, (has_iff ..).1 h⟩
      · simp at hm
    · split at hm
      next d h1 h2 =>
        split at hm
        next h =>
          simp only [List.map_cons, List.map_nil, List.mem_singleton] at hm
          subst hm
          exact ⟨d, .description (.inl h1) h2, (has_iff ..).1 h⟩
        · simp at hm
      · simp at hm
    · split at hm
      next h =>
        simp only [List.map_cons, List.map_nil, List.mem_singleton] at hm
        subst hm
        simp only [Bool.and_eq_true, List.any_eq_true] at h
        obtain ⟨h1, t, ht, h2⟩ := h
        exact ⟨t, .tools (.inl h1) ht, (has_iff ..).1 h2⟩
      · simp at hm
    · split at hm
      next h =>
        simp only [List.map_cons, List.map_nil, List.mem_singleton] at hm
        subst hm
        simp only [Bool.and_eq_true, List.any_eq_true] at h
        obtain ⟨h1, t, ht, h2⟩ := h
        exact ⟨t, .requirements h1 ht, (has_iff ..).1 h2⟩
      · simp at hm
    · split at hm
      next hb =>
        have hb : NoField a := (bare_iff a).1 hb
        simp only [List.map_append, List.mem_append] at hm
        rcases hm with hm | hm
        · split at hm
          next d h2 =>
            split at hm
            next h =>
              simp only [List.map_cons, List.map_nil, List.mem_singleton] at hm
              subst hm
              exact ⟨d, .description (.inr hb) h2, (has_iff ..).1 h⟩
            · simp at hm
          · simp at hm
        · split at hm
          next h =>
            simp only [List.map_cons, List.map_nil, List.mem_singleton] at hm
            subst hm
            simp only [List.any_eq_true] at h
            obtain ⟨t, ht, h2⟩ := h
            exact ⟨t, .tools (.inr hb) ht, (has_iff ..).1 h2⟩
          · simp at hm
      · simp at hm
  · rintro ⟨t, hl, ho⟩
    rw [← has_iff] at ho
    cases hl with
    | name => left; left; left; left; simp [ho]
    | description h1 h2 =>
      rcases h1 with h1 | h1
      · left; left; left; right; simp [ho, h1, h2]
      · right
        obtain ⟨x, y, z⟩ := h1
        simp [ho, x, y, z, h2]
    | tools h1 h2 =>
      rcases h1 with h1 | h1
      · left; left; right
        rw [if_pos (by simp only [h1, Bool.true_and, List.any_eq_true]; exact ⟨_, h2, ho⟩)]
        simp
      · right
        obtain ⟨x, y, z⟩ := h1
        have : p.tools.any (has w a) = true := List.any_eq_true.2 ⟨_, h2, ho⟩
        simp [x, y, z, this]
    | requirements h1 h2 =>
      left; right
      rw [if_pos (by simp only [h1, Bool.true_and, List.any_eq_true]; exact ⟨_, h2, ho⟩)]
      simp

theorem evaluate_isSome {w : World} {a : Args} (hr : a.regex = false) (p : Pkg) :
    (evaluate w a p).isSome ↔ Matches w a p := by
  constructor
  · intro h
    obtain ⟨r, h⟩ := Option.isSome_iff_exists.1 h
    obtain ⟨hne, rfl⟩ := evaluate_some.1 h
    obtain ⟨x, hx⟩ := List.exists_mem_of_ne_nil _ hne
    obtain ⟨t, ht⟩ := (mem_fields hr p x.1).1 (List.mem_map_of_mem (f := (·.1)) hx)
    exact ⟨x.1, t, ht⟩
  · rintro ⟨f, t, h⟩
    have := (mem_fields (w := w) hr p f).2 ⟨t, h⟩
    rw [Option.isSome_iff_exists]
    exact ⟨_, evaluate_some.2 ⟨fun e => by simp [e] at this, rfl⟩⟩

theorem fields_nodup (w : World) (a : Args) (p : Pkg) : ((hits w a p).map (·.1)).Nodup := by
  simp only [hits, List.map_append, nameHit, descriptionHit, toolsHit, requirementsHit, defaultHits]
  cases hd : a.description <;> cases ht : a.tools <;> cases hr : a.requirements <;>
    simp only [Bool.not_false, Bool.not_true, Bool.and_true, Bool.and_false, Bool.false_and, Bool.true_and, if_true, if_false,
      Bool.false_eq_true] <;>
    (repeat' split) <;> decide

theorem any_iff (w : World) (a : Args) (l : List Str) : (∃ t ∈ l, Occurs w a t) ↔ l.any (has w a) = true := by
  simp only [List.any_eq_true, has_iff]

theorem has_self {w : World} {a : Args} {t : Str} (h : fold w a t = fold w a a.query) : has w a t = true := by
  rw [has, containsStr_iff, h]

open Classical in
theorem score_eq {w : World} {a : Args} (hr : a.regex = false) (p : Pkg) :
    ((hits w a p).map (·.2)).sum = points w a p := by
  have hf : ∀ t, folded w.lower a.caseSensitive t = fold w a t := fun t => rfl
  have hn : (List.map (fun x : Str × Nat => x.2) (nameHit w a p)).sum =
      if fold w a p.name = fold w a a.query then 10 else if Occurs w a p.name then 5 else 0 := by
    simp only [nameHit, hit_plain hr, hr, ← has_iff]
    by_cases h1 : fold w a p.name = fold w a a.query
    · simp [has_self h1, h1]
    · by_cases h2 : has w a p.name = true <;> simp [h1, h2]
  have hd : (∃ d, p.description = some d ∧ Occurs w a d) ↔ p.description.any (has w a) = true := by
    cases p.description <;> simp [has_iff]
  have ht := any_iff w a p.tools
  have hq := any_iff w a p.requires
  have hb : NoField a ↔ bare a = true := (bare_iff a).symm
  have hp : points w a p =
      (if fold w a p.name = fold w a a.query then 10 else if Occurs w a p.name then 5 else 0) +
      (if p.description.any (has w a) = true then (if a.description then 3 else if bare a then 2 else 0) else 0) +
      (if p.tools.any (has w a) = true then (if a.tools then 2 else if bare a then 1 else 0) else 0) +
      (if p.requires.any (has w a) = true then (if a.requirements then 1 else 0) else 0) := by
    simp only [points, hf, hd, ht, hq, hb]
  rw [hp]
  simp only [hits, List.map_append, List.sum_append, hn]
  generalize (if fold w a p.name = fold w a a.query then 10 else if Occurs w a p.name then 5 else 0) = n
  simp only [descriptionHit, toolsHit, requirementsHit, defaultHits, hit_plain hr, bare]
  rcases Option.eq_none_or_eq_some p.description with hs | ⟨d, hs⟩
  · by_cases hx : a.description = true <;> by_cases hy : a.tools = true <;> by_cases hz : a.requirements = true <;>
      by_cases ht : p.tools.any (has w a) = true <;> by_cases hu : p.requires.any (has w a) = true <;>
      simp [hx, hy, hz, ht, hu, hs]
  · by_cases hx : a.description = true <;> by_cases hy : a.tools = true <;> by_cases hz : a.requirements = true <;>
      by_cases ht : p.tools.any (has w a) = true <;> by_cases hu : p.requires.any (has w a) = true <;>
      by_cases hv : has w a d = true <;> simp [hx, hy, hz, ht, hu, hs, hv]

/-! ### The packages that are looked at -/

theorem inTime_iff {w : World} {a : Args} {newer older : Option Int} (hn : bound w a.newerThan = .ok newer)
    (ho : bound w a.olderThan = .ok older) (p : Pkg) : inTime newer older p = true ↔ InTime w a p := by
  have key : ∀ {o : Option Str} {b : Option Int}, bound w o = .ok b → ∀ t, Date w o t ↔ b = some t := by
    intro o b h t
    cases o with
    | none =>
      simp only [bound, Outcome.ok.injEq] at h
      subst h
      simp [Date]
    | some s =>
      simp only [bound] at h
      simp only [Date, Option.some.injEq]
      constructor
      · rintro ⟨s', rfl, h'⟩
        rw [h] at h'
        simpa using h'
      · rintro rfl
        exact ⟨s, rfl, h⟩
  simp only [inTime, InTime, key hn, key ho, show ∀ p, released p = stamp p from fun _ => rfl, Bool.and_eq_true]
  cases newer <;> cases older <;> simp

theorem inType_iff (w : World) (a : Args) (p : Pkg) : inType w a p = true ↔ InType w a p := by
  have hv : ∀ t, variantHas w t p = true ↔ HasVariant w p t := by
    intro t
    simp only [variantHas, HasVariant, List.any_eq_true, containsStr_iff]
  simp only [inType, InType]
  by_cases hf : a.searchType = c!"family"
  · have : a.searchType ≠ c!"variant" := by
      rw [hf]
      decide
    simp [hf]
  · simp only [hf, if_false, Bool.and_eq_true, Bool.not_eq_true', Bool.and_eq_false_imp, decide_eq_true_eq, not_false_eq_true,
      ne_eq, forall_const]
    refine and_congr ?_ ?_
    · simp
    · cases a.hasVariant with
      | none => simp
      | some t => simp [hv]

/-- The result for a package, if it is one that is shown. -/
def pick (w : World) (a : Args) (newer older : Option Int) (p : Pkg) : Option Res :=
  if inTime newer older p && inType w a p then evaluate w a p else none

theorem collected {w : World} {a : Args} {newer older : Option Int} : ∀ {ns : List Str} {all : List Res},
    collect w a newer older ns = .ok all →
    (∀ n ∈ ns, ∃ ps, w.find n = .ok ps) ∧
    all = (ns.flatMap fun n => match w.find n with | .ok ps => ps | _ => []).filterMap (pick w a newer older) := by
  intro ns
  induction ns with
  | nil =>
    intro all h
    simp only [collect, Outcome.ok.injEq] at h
    simp [← h]
  | cons n ns ih =>
    intro all h
    simp only [collect] at h
    split at h
    · cases h
    · cases h
    next ps hp =>
      split at h
      next rs hrs =>
        simp only [Outcome.ok.injEq] at h
        obtain ⟨h1, h2⟩ := ih hrs
        refine ⟨?_, ?_⟩
        · intro m hm
          rcases List.mem_cons.1 hm with rfl | hm
          · exact ⟨ps, hp⟩
          · exact h1 m hm
        · rw [← h, List.flatMap_cons, List.filterMap_append, ← h2, hp]
          rfl
      · cases h
      · cases h

theorem search_steps {w : World} {a : Args} {rs : List Res} (h : search w a = .ok rs) :
    ∃ newer older names all, bound w a.newerThan = .ok newer ∧ bound w a.olderThan = .ok older ∧ w.listed = .ok names ∧
      collect w a newer older names = .ok all ∧ arrange w a all = .ok rs := by
  unfold search at h
  split at h
  · cases h
  · cases h
  next newer hn =>
    split at h
    · cases h
    · cases h
    next older ho =>
      split at h
      · cases h
      · cases h
      next names hl =>
        split at h
        · cases h
        · cases h
        next all hc => exact ⟨newer, older, names, all, hn, ho, hl, hc, h⟩

theorem search_ok {w : World} {a : Args} {rs : List Res} (h : search w a = .ok rs) :
    ∃ newer older all, bound w a.newerThan = .ok newer ∧ bound w a.olderThan = .ok older ∧
      all = (Stored w).filterMap (pick w a newer older) ∧ arrange w a all = .ok rs := by
  obtain ⟨newer, older, names, all, hn, ho, hl, hc, ha⟩ := search_steps h
  refine ⟨newer, older, all, hn, ho, ?_, ha⟩
  rw [(collected hc).2, Stored, hl]
  rfl

theorem arrange_ok {w : World} {a : Args} {all rs : List Res} (h : arrange w a all = .ok rs) :
    ∃ l, w.sort (order a.sort) (if a.searchType = c!"family" then w.values (all.foldl familyStep []) else all) = .ok l ∧
      rs = (if a.latestOnly then latest w l else l).take a.limit := by
  unfold arrange at h
  simp only at h
  split at h
  · cases h
  · cases h
  next l hl =>
    simp only [Outcome.ok.injEq] at h
    exact ⟨l, hl, h.symm⟩

/-! ### Keeping one result for each name -/

/-- One step of keeping the better result for each name. -/
def keepStep (better : Res → Res → Bool) (m : List (Str × Res)) (r : Res) : List (Str × Res) :=
  match mget m r.package.name with
  | some e => if better e r then mset m r.package.name r else m
  | none => mset m r.package.name r

theorem familyStep_eq : familyStep = keepStep fun e r => decide (r.score > e.score) := by
  funext m r
  simp only [familyStep, keepStep, decide_eq_true_eq]
  rfl

theorem latestStep_eq : latestStep = keepStep later := rfl

/-- What holds of the map when the results `seen` have been looked at. -/
structure Kept (le : Res → Res → Prop) (seen : List Res) (m : List (Str × Res)) : Prop where
  nodup : (mkeys m).Nodup
  from_ : ∀ k e, mget m k = some e → e ∈ seen ∧ e.package.name = k
  best : ∀ r ∈ seen, ∃ e, mget m r.package.name = some e ∧ le r e

theorem kept_step {better : Res → Res → Bool} {le : Res → Res → Prop} {seen : List Res} {m : List (Str × Res)} {r : Res}
    (hrefl : ∀ x, le x x) (hno : ∀ e ∈ seen, better e r = false → le r e)
    (htr : ∀ x ∈ seen, ∀ e ∈ seen, better e r = true → le x e → le x r) (h : Kept le seen m) :
    Kept le (seen ++ [r]) (keepStep better m r) := by
  have hset : (∀ x ∈ seen, ∀ e, x.package.name = r.package.name → mget m r.package.name = some e → le x e → le x r) →
      Kept le (seen ++ [r]) (mset m r.package.name r) := by
    intro hx
    refine ⟨nodup_mset h.nodup _ _, ?_, ?_⟩
    · intro k e he
      rw [mget_mset] at he
      split at he
      next hk =>
        simp only [Option.some.injEq] at he
        exact ⟨by simp [he], by rw [← he, hk]⟩
      · obtain ⟨h1, h2⟩ := h.from_ k e he
        exact ⟨List.mem_append_left _ h1, h2⟩
    · intro x hm
      rw [mget_mset]
      rcases List.mem_append.1 hm with hm | hm
      · obtain ⟨e, he, hle⟩ := h.best x hm
        by_cases hk : x.package.name = r.package.name
        · rw [if_pos hk]
          exact ⟨r, rfl, hx x hm e hk (hk ▸ he) hle⟩
        · rw [if_neg hk]
          exact ⟨e, he, hle⟩
      · simp only [List.mem_singleton] at hm
        subst hm
        rw [if_pos rfl]
        exact ⟨x, rfl, hrefl x⟩
  unfold keepStep
  split
  next e he =>
    obtain ⟨hes, hen⟩ := h.from_ _ _ he
    split
    next hb =>
      refine hset fun x hx e' _ he' hle => ?_
      rw [he] at he'
      cases he'
      exact htr x hx e hes hb hle
    next hb =>
      refine ⟨h.nodup, fun k e' h' => ?_, fun x hx => ?_⟩
      · obtain ⟨h1, h2⟩ := h.from_ k e' h'
        exact ⟨List.mem_append_left _ h1, h2⟩
      · rcases List.mem_append.1 hx with hx | hx
        · exact h.best x hx
        · simp only [List.mem_singleton] at hx
          subst hx
          exact ⟨e, he, hno e hes (by simpa using hb)⟩
  next he =>
    refine hset fun x _ e' _ he' => ?_
    rw [he] at he'
    cases he'

theorem kept_fold {better : Res → Res → Bool} {le : Res → Res → Prop} (l : List Res) (hrefl : ∀ x, le x x)
    (hno : ∀ e ∈ l, ∀ r ∈ l, better e r = false → le r e)
    (htr : ∀ x ∈ l, ∀ e ∈ l, ∀ r ∈ l, better e r = true → le x e → le x r) :
    Kept le l (l.foldl (keepStep better) []) := by
  have : ∀ (rest seen : List Res) (m : List (Str × Res)), seen ++ rest = l → Kept le seen m →
      Kept le l (rest.foldl (keepStep better) m) := by
    intro rest
    induction rest with
    | nil =>
      intro seen m he h
      simp only [List.append_nil] at he
      exact he ▸ h
    | cons r rest ih =>
      intro seen m he h
      have hs : ∀ x ∈ seen, x ∈ l := fun x hx => he ▸ List.mem_append_left _ hx
      have hr : r ∈ l := he ▸ List.mem_append_right _ (by simp)
      rw [List.foldl_cons]
      refine ih (seen ++ [r]) _ (by simpa using he) (kept_step hrefl ?_ ?_ h)
      · exact fun e he' => hno e (hs e he') r hr
      · exact fun x hx e he' => htr x (hs x hx) e (hs e he') r hr
  exact this l [] [] rfl ⟨by simp [mkeys], by simp [mget], by simp⟩

/-! ### Orders -/

theorem byName_consistent (l : List Res) : Consistent byName l := by
  refine ⟨fun x _ y _ => (cmpStr_swap _ _).symm, fun x _ y _ z _ h1 h2 => ?_⟩
  have := Std.TransCmp.isLE_trans (cmp := cmpStr) (a := x.package.name) (b := y.package.name) (c := z.package.name)
  exact Ordering.isLE_iff_ne_gt.mp (this (Ordering.isLE_iff_ne_gt.mpr h1) (Ordering.isLE_iff_ne_gt.mpr h2))

theorem byScore_consistent (l : List Res) : Consistent byScore l := by
  refine ⟨fun x _ y _ => ?_, fun x _ y _ z _ h1 h2 => ?_⟩
  · simp only [byScore]
    exact (Nat.compare_swap _ _).symm
  · simp only [byScore, ne_eq, Nat.compare_eq_gt] at *
    omega

theorem byVersion_consistent {l : List Res} (h : Ordered (l.map (·.package))) : Consistent byVersion l := by
  refine ⟨fun x _ y _ => ?_, fun x hx y hy z hz h1 h2 => ?_⟩
  · simp only [byVersion]
    rcases x.package.version with _ | u <;> rcases y.package.version with _ | v <;> simp [Version.cmp_swap]
  · have h := h z.package (List.mem_map_of_mem hz) y.package (List.mem_map_of_mem hy) x.package (List.mem_map_of_mem hx)
    simp only [byVersion] at *
    generalize x.package.version = a at *
    generalize y.package.version = b at *
    generalize z.package.version = c at *
    rcases a with _ | a <;> rcases b with _ | b <;> rcases c with _ | c <;> simp_all

theorem order_consistent {l : List Res} {s : Str} (h : s = c!"version" → Ordered (l.map (·.package))) :
    Consistent (order s) l := by
  unfold order
  split
  next hs => exact byVersion_consistent (h hs)
  · split
    · exact byScore_consistent l
    · exact byName_consistent l

/-- Packages in a total order stay so when there are fewer. -/
theorem ordered_sub {l m : List Pkg} (h : Ordered m) (hs : ∀ p ∈ l, p ∈ m) : Ordered l :=
  fun p hp q hq r hr => h p (hs p hp) q (hs q hq) r (hs r hr)

theorem later_iff (e r : Res) : later e r = true ↔ Newer r.package e.package := by
  simp only [later, Newer]
  rcases r.package.version with _ | v <;> rcases e.package.version with _ | u <;> simp

theorem latest_kept (l : List Res) (h : Ordered (l.map (·.package))) :
    Kept (fun x e => ¬ Newer x.package e.package) l (l.foldl latestStep []) := by
  rw [latestStep_eq]
  refine kept_fold l ?_ ?_ ?_
  · rintro x ⟨v, h1, h2⟩
    have := h2 v h1
    rw [Version.cmp_refl] at this
    cases this
  · intro e _ r _ hb
    rw [← later_iff, hb]
    simp
  · intro x hx e he r hr hb hle
    rw [later_iff] at hb
    obtain ⟨v, hv, hb⟩ := hb
    rintro ⟨y, hy, hn⟩
    apply hle
    refine ⟨y, hy, fun u hu => ?_⟩
    by_contra hc
    refine h x.package (List.mem_map_of_mem hx) e.package (List.mem_map_of_mem he) r.package (List.mem_map_of_mem hr)
      y u v hy hu hv hc ?_ (hn v hv)
    have := hb u hu
    rw [← Version.cmp_swap, this]
    decide

theorem family_kept (l : List Res) :
    Kept (fun x e => x.score ≤ e.score) l (l.foldl familyStep []) := by
  rw [familyStep_eq]
  refine kept_fold l (fun _ => le_refl _) ?_ ?_
  · intro e _ r _ hb
    simpa using hb
  · intro x _ e _ r _ hb hle
    simp only [gt_iff_lt, decide_eq_true_eq] at hb
    omega

/-- The values of a map in which one result is kept for each name. -/
theorem kept_values {w : World} (hw : Std w) {le : Res → Res → Prop} {l : List Res} {m : List (Str × Res)}
    (h : Kept le l m) :
    (names (w.values m)).Nodup ∧ (∀ r ∈ w.values m, r ∈ l ∧ ∀ x ∈ l, x.package.name = r.package.name → le x r) ∧
      ∀ n, n ∈ names (w.values m) ↔ n ∈ names l := by
  have hmem : ∀ r, r ∈ w.values m ↔ mget m r.package.name = some r := by
    intro r
    rw [(hw.values m).mem_iff, List.mem_map]
    constructor
    · rintro ⟨⟨k, e⟩, hm, rfl⟩
      have := mget_of_mem h.nodup hm
      rw [(h.from_ k e this).2]
      exact this
    · intro hr
      exact ⟨_, mget_some_mem hr, rfl⟩
  refine ⟨?_, ?_, ?_⟩
  · have : (names (w.values m)).Perm (mkeys m) := by
      refine ((hw.values m).map _).trans ?_
      rw [List.map_map, mkeys]
      refine List.Perm.of_eq (List.map_congr_left fun x hx => ?_)
      exact (h.from_ x.1 x.2 (mget_of_mem h.nodup hx)).2
    exact this.nodup_iff.2 h.nodup
  · intro r hr
    have hg := (hmem r).1 hr
    refine ⟨(h.from_ _ _ hg).1, fun x hx hn => ?_⟩
    obtain ⟨e, he, hle⟩ := h.best x hx
    rw [hn, hg] at he
    cases he
    exact hle
  · intro n
    simp only [names, List.mem_map]
    constructor
    · rintro ⟨r, hr, rfl⟩
      exact ⟨r, (h.from_ _ _ ((hmem r).1 hr)).1, rfl⟩
    · rintro ⟨r, hr, rfl⟩
      obtain ⟨e, he, _⟩ := h.best r hr
      have hn := (h.from_ _ _ he).2
      exact ⟨e, (hmem e).2 (hn ▸ he), hn⟩

end Rez.SearchCmd

namespace Rez.Props
open Rez Rez.SearchCommand Rez.Spec.SearchCommand Rez.SearchCmd

/-- All results of the packages that are looked at. -/
theorem picked {w : World} {a : Args} {newer older : Option Int} (hn : bound w a.newerThan = .ok newer)
    (ho : bound w a.olderThan = .ok older) {p : Pkg} {r : Res} :
    pick w a newer older p = some r ↔ (InTime w a p ∧ InType w a p) ∧ evaluate w a p = some r := by
  unfold pick
  by_cases h : (inTime newer older p && inType w a p) = true
  · rw [if_pos h]
    rw [Bool.and_eq_true, inTime_iff hn ho, inType_iff] at h
    simp [h]
  · rw [if_neg h]
    rw [Bool.and_eq_true, inTime_iff hn ho, inType_iff] at h
    simp [h]

theorem evaluate_package {w : World} {a : Args} {p : Pkg} {r : Res} (h : evaluate w a p = some r) : r.package = p := by
  rw [(evaluate_some.1 h).2]

/-- Whatever the options: what is shown is among all results. -/
theorem shown_from {w : World} (hw : Std w) {a : Args} {all rs : List Res} (h : arrange w a all = .ok rs) :
    ∀ r ∈ rs, r ∈ all := by
  obtain ⟨l, hl, rfl⟩ := arrange_ok h
  have hfrom : ∀ (b : Res → Res → Bool) (xs : List Res), ∀ r ∈ w.values (xs.foldl (keepStep b) []), r ∈ xs := by
    intro b xs r hr
    exact ((kept_values hw (kept_fold (le := fun _ _ => True) xs (fun _ => trivial) (fun _ _ _ _ _ => trivial)
      (fun _ _ _ _ _ _ _ _ => trivial))).2.1 r hr).1
  have h1 : ∀ r ∈ l, r ∈ all := by
    intro r hr
    have := (hw.perm _ _ _ hl).mem_iff.1 hr
    split at this
    · rw [familyStep_eq] at this
      exact hfrom _ _ r this
    · exact this
  intro r hr
  have := List.mem_of_mem_take hr
  split at this
  · exact h1 r (hfrom _ _ r this)
  · exact h1 r this

theorem shown_picked {w : World} (hw : Std w) {a : Args} {rs : List Res} (h : search w a = .ok rs) {r : Res} (hr : r ∈ rs) :
    r.package ∈ Stored w ∧ InTime w a r.package ∧ InType w a r.package ∧ evaluate w a r.package = some r := by
  obtain ⟨newer, older, all, hn, ho, rfl, ha⟩ := search_ok h
  obtain ⟨p, hp, he⟩ := List.mem_filterMap.1 (shown_from hw ha r hr)
  rw [picked hn ho] at he
  have := evaluate_package he.2
  subst this
  exact ⟨hp, he.1.1, he.1.2, he.2⟩

/-! ## C193: matches -/

/-- C193: of a result, the fields listed are those with a text in which the query occurs, each once, and the score is what they
are worth. -/
theorem C193_fields (w : World) (hw : Std w) (a : Args) (hr : a.regex = false) (rs : List Res) (h : search w a = .ok rs) :
    ∀ r ∈ rs, (∀ f, f ∈ r.fields ↔ ∃ t, Looked a r.package f t ∧ Occurs w a t) ∧ r.fields.Nodup ∧ r.fields ≠ [] ∧
      r.score = points w a r.package := by
  intro r hm
  obtain ⟨_, _, _, he⟩ := shown_picked hw h hm
  obtain ⟨hne, he⟩ := evaluate_some.1 he
  have h2 : r.fields = (hits w a r.package).map (·.1) := congrArg Res.fields he
  have h3 : r.score = ((hits w a r.package).map (·.2)).sum := congrArg Res.score he
  rw [h2, h3]
  exact ⟨fun f => mem_fields hr _ f, fields_nodup _ _ _, by simpa using hne, score_eq hr _⟩

/-- The text fits the query as a regular expression. -/
def FitsExpression (w : World) (a : Args) (text : Str) : Prop :=
  ∃ run, w.regex (folded w.lower a.caseSensitive a.query) = some run ∧ run (folded w.lower a.caseSensitive text) = true

theorem hit_expression {w : World} {a : Args} (hr : a.regex = true) (t : Str) : hit w a t = true ↔ FitsExpression w a t := by
  have hfold : ∀ s, fold w a s = folded w.lower a.caseSensitive s := fun _ => rfl
  unfold hit FitsExpression
  rw [if_pos hr, hfold, hfold]
  cases w.regex (folded w.lower a.caseSensitive a.query) with
  | none => simp
  | some run => simp

/-- C193: of a result of a regular expression, the fields asked for and the name are listed exactly if a text in them fits it, and a
name that fits is worth 10. -/
theorem C193_expression (w : World) (hw : Std w) (a : Args) (hr : a.regex = true) (rs : List Res) (h : search w a = .ok rs) :
    ∀ r ∈ rs, (c!"name" ∈ r.fields ↔ FitsExpression w a r.package.name) ∧
      (a.description = true → (c!"description" ∈ r.fields ↔ ∃ d, r.package.description = some d ∧ FitsExpression w a d)) ∧
      (a.tools = true → (c!"tools" ∈ r.fields ↔ ∃ t ∈ r.package.tools, FitsExpression w a t)) ∧
      (a.requirements = true → (c!"requirements" ∈ r.fields ↔ ∃ t ∈ r.package.requires, FitsExpression w a t)) ∧
      (FitsExpression w a r.package.name → 10 ≤ r.score) := by
  intro r hm
  obtain ⟨_, _, _, he⟩ := shown_picked hw h hm
  obtain ⟨hne, he⟩ := evaluate_some.1 he
  have h2 : r.fields = (hits w a r.package).map (·.1) := congrArg Res.fields he
  have h3 : r.score = ((hits w a r.package).map (·.2)).sum := congrArg Res.score he
  clear he hne hm h
  rw [h2, h3]
  generalize r.package = p
  have hany : ∀ l : List Str, l.any (hit w a) = true ↔ ∃ t ∈ l, FitsExpression w a t := by
    intro l
    simp only [List.any_eq_true, hit_expression hr]
  have hname : ∀ s n, (s, n) ∈ nameHit w a p → s = c!"name" := by
    intro s n hs
    unfold nameHit at hs
    split at hs
    · exact (Prod.ext_iff.mp (List.mem_singleton.mp hs)).1
    · cases hs
  have hdesc : ∀ s n, (s, n) ∈ descriptionHit w a p → s = c!"description" := by
    intro s n hs
    unfold descriptionHit at hs
    split at hs
    · split at hs
      · exact (Prod.ext_iff.mp (List.mem_singleton.mp hs)).1
      · cases hs
    · cases hs
  have htools : ∀ s n, (s, n) ∈ toolsHit w a p → s = c!"tools" := by
    intro s n hs
    unfold toolsHit at hs
    split at hs
    · exact (Prod.ext_iff.mp (List.mem_singleton.mp hs)).1
    · cases hs
  have hreqs : ∀ s n, (s, n) ∈ requirementsHit w a p → s = c!"requirements" := by
    intro s n hs
    unfold requirementsHit at hs
    split at hs
    · exact (Prod.ext_iff.mp (List.mem_singleton.mp hs)).1
    · cases hs
  have hdef : ∀ s n, (s, n) ∈ defaultHits w a p → (s = c!"description" ∨ s = c!"tools") ∧ NoField a := by
    intro s n hs
    unfold defaultHits at hs
    split at hs
    next hb =>
      refine ⟨?_, (bare_iff a).1 hb⟩
      rcases List.mem_append.mp hs with hs | hs
      · split at hs
        · split at hs
          · exact Or.inl (Prod.ext_iff.mp (List.mem_singleton.mp hs)).1
          · cases hs
        · cases hs
      · split at hs
        · exact Or.inr (Prod.ext_iff.mp (List.mem_singleton.mp hs)).1
        · cases hs
    · cases hs
  have hmem : ∀ s, s ∈ (hits w a p).map (·.1) ↔ ∃ n, (s, n) ∈ nameHit w a p ∨ (s, n) ∈ descriptionHit w a p ∨
      (s, n) ∈ toolsHit w a p ∨ (s, n) ∈ requirementsHit w a p ∨ (s, n) ∈ defaultHits w a p := by
    intro s
    simp only [hits, List.mem_map, List.mem_append, or_assoc]
    constructor
    · rintro ⟨⟨x, n⟩, hx, rfl⟩
      exact ⟨n, hx⟩
    · rintro ⟨n, hx⟩
      exact ⟨(s, n), hx, rfl⟩
  refine ⟨?_, ?_, ?_, ?_, ?_⟩
  · rw [hmem, ← hit_expression hr]
    constructor
    · rintro ⟨n, hx | hx | hx | hx | hx⟩
      · unfold nameHit at hx
        split at hx
        next hh => exact hh
        · cases hx
      · exact absurd (hdesc _ _ hx) (by decide)
      · exact absurd (htools _ _ hx) (by decide)
      · exact absurd (hreqs _ _ hx) (by decide)
      · exact absurd (hdef _ _ hx).1 (by decide)
    · intro hh
      exact ⟨_, Or.inl (by unfold nameHit; rw [if_pos hh]; exact List.mem_singleton.mpr rfl)⟩
  · intro ha
    rw [hmem]
    constructor
    · rintro ⟨n, hx | hx | hx | hx | hx⟩
      · exact absurd (hname _ _ hx) (by decide)
      · unfold descriptionHit at hx
        split at hx
        next d h1 h2 =>
          split at hx
          next hh => exact ⟨d, h2, (hit_expression hr d).mp hh⟩
          · cases hx
        · cases hx
      · exact absurd (htools _ _ hx) (by decide)
      · exact absurd (hreqs _ _ hx) (by decide)
      · have := (hdef _ _ hx).2.1; rw [ha] at this; cases this
    · rintro ⟨d, hd, hf⟩
      exact ⟨3, Or.inr (Or.inl (by unfold descriptionHit; simp [ha, hd, (hit_expression hr d).mpr hf]))⟩
  · intro ha
    rw [hmem]
    constructor
    · rintro ⟨n, hx | hx | hx | hx | hx⟩
      · exact absurd (hname _ _ hx) (by decide)
      · exact absurd (hdesc _ _ hx) (by decide)
      · unfold toolsHit at hx
        split at hx
        next hh => rw [Bool.and_eq_true] at hh; exact (hany _).mp hh.2
        · cases hx
      · exact absurd (hreqs _ _ hx) (by decide)
      · have := (hdef _ _ hx).2.2.1; rw [ha] at this; cases this
    · intro hf
      exact ⟨2, Or.inr (Or.inr (Or.inl (by unfold toolsHit; rw [ha, (hany _).mpr hf]; simp)))⟩
  · intro ha
    rw [hmem]
    constructor
    · rintro ⟨n, hx | hx | hx | hx | hx⟩
      · exact absurd (hname _ _ hx) (by decide)
      · exact absurd (hdesc _ _ hx) (by decide)
      · exact absurd (htools _ _ hx) (by decide)
      · unfold requirementsHit at hx
        split at hx
        next hh => rw [Bool.and_eq_true] at hh; exact (hany _).mp hh.2
        · cases hx
      · exact absurd (hdef _ _ hx).1 (by decide)
    · intro hf
      exact ⟨1, Or.inr (Or.inr (Or.inr (Or.inl (by unfold requirementsHit; rw [ha, (hany _).mpr hf]; simp))))⟩
  · intro hf
    have hn : nameHit w a p = [(c!"name", 10)] := by
      unfold nameHit
      rw [if_pos ((hit_expression hr _).mpr hf), if_pos hr]
    unfold hits
    rw [hn]
    simp only [List.map_append, List.sum_append, List.map_cons, List.sum_cons]
    omega

/-- C193: if no field is asked for, a result with exactly the name scores more than any that has another name. -/
theorem C193_exact (w : World) (hw : Std w) (a : Args) (hr : a.regex = false) (hb : NoField a) (rs : List Res)
    (h : search w a = .ok rs) : ∀ r ∈ rs, ∀ s ∈ rs,
    folded w.lower a.caseSensitive r.package.name = folded w.lower a.caseSensitive a.query →
    folded w.lower a.caseSensitive s.package.name ≠ folded w.lower a.caseSensitive a.query → s.score < r.score := by
  intro r hrm s hsm hp hq
  rw [(C193_fields w hw a hr rs h r hrm).2.2.2, (C193_fields w hw a hr rs h s hsm).2.2.2]
  obtain ⟨h1, h2, h3⟩ := hb
  have h10 : 10 ≤ points w a r.package := by
    unfold points
    rw [if_pos hp]
    omega
  have h8 : points w a s.package ≤ 8 := by
    unfold points
    rw [if_neg hq]
    simp only [h1, h2, h3, Bool.false_eq_true, if_false, ite_self]
    repeat' split
    all_goals omega
  omega

/-! ### A standard library that meets the assumptions -/

/-- Insert before the first element that is not less. -/
def ins (c : Res → Res → Ordering) (x : Res) : List Res → List Res
  | [] => [x]
  | y :: ys => if c x y = .gt then y :: ins c x ys else x :: y :: ys

/-- Insertion sort. -/
def isort (c : Res → Res → Ordering) (l : List Res) : List Res := l.foldr (ins c) []

theorem ins_perm (c : Res → Res → Ordering) (x : Res) (l : List Res) : (ins c x l).Perm (x :: l) := by
  induction l with
  | nil => exact .refl _
  | cons y ys ih =>
    unfold ins
    split
    · exact ((ih.cons y).trans (.swap x y ys))
    · exact .refl _

theorem isort_perm (c : Res → Res → Ordering) (l : List Res) : (isort c l).Perm l := by
  induction l with
  | nil => exact .refl _
  | cons x l ih => exact (ins_perm c x _).trans (ih.cons x)

theorem ins_sorted {c : Res → Res → Ordering} {x : Res} {l : List Res} (h : Consistent c (x :: l))
    (hl : l.Pairwise fun a b => c a b ≠ .gt) : (ins c x l).Pairwise fun a b => c a b ≠ .gt := by
  induction l with
  | nil => simp [ins]
  | cons y ys ih =>
    have hsub : ∀ z ∈ x :: ys, z ∈ x :: y :: ys := by
      intro z hz
      rcases List.mem_cons.1 hz with rfl | hz <;> simp [*]
    have h' : Consistent c (x :: ys) :=
      ⟨fun a ha b hb => h.1 a (hsub a ha) b (hsub b hb), fun a ha b hb d hd => h.2 a (hsub a ha) b (hsub b hb) d (hsub d hd)⟩
    rw [List.pairwise_cons] at hl
    unfold ins
    split
    next hg =>
      refine List.pairwise_cons.2 ⟨fun z hz => ?_, ih h' hl.2⟩
      rcases List.mem_cons.1 ((ins_perm c x ys).mem_iff.1 hz) with rfl | hz
      · rw [h.1 z (by simp) y (by simp), hg]
        decide
      · exact hl.1 z hz
    next hg =>
      refine List.pairwise_cons.2 ⟨fun z hz => ?_, List.pairwise_cons.2 hl⟩
      rcases List.mem_cons.1 hz with rfl | hz
      · exact hg
      · exact h.2 x (by simp) y (by simp) z (by simp [hz]) hg (hl.1 z hz)

theorem ins_stable {c : Res → Res → Ordering} {x z : Res} {l m : List Res} (h : Consistent c m) (hz : z ∈ m) (hx : x ∈ m)
    (hl : ∀ y ∈ l, y ∈ m) :
    ((ins c x l).filter fun y => c z y == .eq) = (x :: l).filter fun y => c z y == .eq := by
  induction l with
  | nil => rfl
  | cons y ys ih =>
    unfold ins
    split
    next hg =>
      rw [List.filter_cons, ih fun a ha => hl a (by simp [ha])]
      simp only [List.filter_cons]
      by_cases h1 : c z x = .eq
      · have h2 : c z y ≠ .eq := by
          intro h2
          refine h.2 x hx z hz y (hl y (by simp)) ?_ ?_ hg
          · rw [h.1 z hz x hx, h1]
            decide
          · rw [h2]
            decide
        simp [h1, h2]
      · simp [h1]
    · rfl

theorem isort_sorted {c : Res → Res → Ordering} {l : List Res} (h : Consistent c l) :
    (isort c l).Pairwise fun a b => c a b ≠ .gt := by
  induction l with
  | nil => exact .nil
  | cons x l ih =>
    have h' : Consistent c l := ⟨fun a ha b hb => h.1 a (by simp [ha]) b (by simp [hb]),
      fun a ha b hb d hd => h.2 a (by simp [ha]) b (by simp [hb]) d (by simp [hd])⟩
    have hp : ∀ y, y ∈ x :: isort c l ↔ y ∈ x :: l := fun y => by
      simp only [List.mem_cons, (isort_perm c l).mem_iff]
    exact ins_sorted (l := isort c l) ⟨fun a ha b hb => h.1 a ((hp a).1 ha) b ((hp b).1 hb),
      fun a ha b hb d hd => h.2 a ((hp a).1 ha) b ((hp b).1 hb) d ((hp d).1 hd)⟩ (ih h')

theorem isort_stable {c : Res → Res → Ordering} {m : List Res} (h : Consistent c m) {z : Res} (hz : z ∈ m) (l : List Res)
    (hl : ∀ y ∈ l, y ∈ m) : ((isort c l).filter fun y => c z y == .eq) = l.filter fun y => c z y == .eq := by
  induction l with
  | nil => rfl
  | cons x l ih =>
    have h1 := ih fun a ha => hl a (by simp [ha])
    have h2 := ins_stable h hz (hl x (by simp)) (l := isort c l)
      fun y hy => hl y (List.mem_cons_of_mem _ ((isort_perm c l).mem_iff.1 hy))
    simp only [isort, List.foldr_cons] at h1 h2 ⊢
    rw [h2, List.filter_cons, h1, List.filter_cons]

/-- A world with these packages. -/
def searchWorld (packages : List (Str × List Pkg)) : World where
  lower := fun s => s.map lowerChar
  regex := fun _ => none
  iso := fun s => if s = c!"2024-01-01" then some 1704067200 else none
  checks := false
  now := 1800000000
  listed := .ok (packages.map (·.1))
  find := fun n => .ok ((mget packages n).getD [])
  sort := fun c l => .ok (isort c l)
  values := fun m => m.map (·.2)
  debug := fun v => c!"Version { string_repr: " ++ v.repr ++ c!" }"

theorem searchWorld_std (packages : List (Str × List Pkg)) : Std (searchWorld packages) := by
  refine ⟨?_, ?_, ?_, fun m => .refl _⟩
  · intro c l r h
    cases h
    exact isort_perm c l
  · intro c l h
    cases h
  · intro c l h
    exact ⟨_, rfl, isort_sorted h, fun x hx => isort_stable h hx l fun _ => id⟩

/-- A package. -/
def searchPkg (name : Str) (version : List Str) (description : Option Str) (tools : List Str) : Pkg where
  name := name
  version := some ⟨version, [], joinWith c!"." version⟩
  description := description
  tools := tools
  requires := []
  variants := []
  timestamp := some 1700000000

/-- Searching for a text with the default options. -/
def searchArgs (query : Str) : Args where
  query := query
  description := false
  tools := false
  requirements := false
  caseSensitive := false
  regex := false
  latestOnly := false
  limit := 50
  format := c!"table"
  sort := c!"name"
  verbose := false
  newerThan := none
  olderThan := none
  searchType := c!"package"
  hasVariant := none

/-- Two versions of one package and one of another. -/
def searchStore : List (Str × List Pkg) :=
  [(c!"maya", [searchPkg c!"maya" [c!"2024"] (some c!"Modelling") [c!"mayapy"], searchPkg c!"maya" [c!"2023"] none []]),
   (c!"mayatools", [searchPkg c!"mayatools" [c!"1"] (some c!"Tools for Maya") []])]

example : (match search (searchWorld searchStore) (searchArgs c!"MAYA") with
    | .ok rs => rs.map fun r => (r.package.name, r.score, r.fields)
    | _ => []) =
    [(c!"maya", 11, [c!"name", c!"tools"]), (c!"maya", 10, [c!"name"]),
     (c!"mayatools", 7, [c!"name", c!"description"])] := by decide

/-- C193: the wider reading is false: if fields are asked for, a package that only contains the query can score more than the
one of that name. -/
theorem C193_exact_false : ∃ (w : World) (a : Args) (rs : List Res), Std w ∧ a.regex = false ∧ search w a = .ok rs ∧
    ∃ r ∈ rs, ∃ s ∈ rs, r.package.name = a.query ∧ s.package.name ≠ a.query ∧ r.score < s.score := by
  refine ⟨searchWorld [(c!"a", [searchPkg c!"a" [c!"1"] none []]),
    (c!"ab", [{ searchPkg c!"ab" [c!"1"] (some c!"a") [c!"a"] with requires := [c!"a"] }])],
    { searchArgs c!"a" with description := true, tools := true, requirements := true },
    [⟨searchPkg c!"a" [c!"1"] none [], 10, [c!"name"]⟩,
     ⟨{ searchPkg c!"ab" [c!"1"] (some c!"a") [c!"a"] with requires := [c!"a"] }, 11,
      [c!"name", c!"description", c!"tools", c!"requirements"]⟩], searchWorld_std _, rfl, by decide, ?_⟩
  exact ⟨_, List.mem_cons_self, _, List.mem_cons_of_mem _ List.mem_cons_self, by decide, by decide, by decide⟩

/-- C193: the wider reading is false of regular expressions: if no field is asked for, description and tools are searched for the
pattern as a literal text, so a package whose description matches the pattern is not found. -/
theorem C193_regex_false : ∃ (w : World) (a : Args) (p : Pkg) (d : Str) (run : Str → Bool), Std w ∧ a.regex = true ∧ NoField a ∧
    a.caseSensitive = true ∧ p ∈ Stored w ∧ p.description = some d ∧ w.regex a.query = some run ∧ run d = true ∧
    search w a = .ok [] := by
  let run : Str → Bool := fun s => s.head? == some 'M'
  let p := searchPkg c!"maya" [c!"2024"] (some c!"Modelling") []
  let w : World := { searchWorld [(c!"maya", [p])] with regex := fun q => if q = c!"^M" then some run else none }
  have hs := searchWorld_std [(c!"maya", [p])]
  exact ⟨w, { searchArgs c!"^M" with regex := true, caseSensitive := true }, p, c!"Modelling", run,
    ⟨hs.perm, hs.noErr, hs.sorted, hs.values⟩, rfl, ⟨rfl, rfl, rfl⟩, rfl, List.mem_cons_self, rfl, rfl, rfl, by decide⟩

/-- C193: the wider reading is false of regular expressions: unless case matters the pattern is put in lower case, which turns a
class like `\\S` into its opposite. -/
theorem C193_case_false : ∃ (w : World) (a : Args) (p : Pkg) (run : Str → Bool), Std w ∧ a.regex = true ∧ a.caseSensitive = false ∧
    p ∈ Stored w ∧ w.regex a.query = some run ∧ run p.name = true ∧ search w a = .ok [] := by
  let run : Str → Bool := fun s => s.any fun c => !isWs c
  let runs : Str → Bool := fun s => s.any isWs
  let p := searchPkg c!"maya" [c!"2024"] none []
  let w : World := { searchWorld [(c!"maya", [p])] with
    regex := fun q => if q = c!"\\S" then some run else if q = c!"\\s" then some runs else none }
  have hs := searchWorld_std [(c!"maya", [p])]
  exact ⟨w, { searchArgs c!"\\S" with regex := true }, p, run,
    ⟨hs.perm, hs.noErr, hs.sorted, hs.values⟩, rfl, rfl, List.mem_cons_self, rfl, by decide, by decide⟩

/-! ## C194: what is found -/

/-- C194: every result is a package of the repositories that is wanted. -/
theorem C194_only (w : World) (hw : Std w) (a : Args) (hr : a.regex = false) (rs : List Res) (h : search w a = .ok rs) :
    ∀ r ∈ rs, r.package ∈ Stored w ∧ Wanted w a r.package := by
  intro r hm
  obtain ⟨h1, h2, h3, h4⟩ := shown_picked hw h hm
  exact ⟨h1, h2, h3, (evaluate_isSome hr _).1 (by simp [h4])⟩

open Classical in
theorem picked_packages {w : World} {a : Args} (hr : a.regex = false) {newer older : Option Int}
    (hn : bound w a.newerThan = .ok newer) (ho : bound w a.olderThan = .ok older) (ps : List Pkg) :
    ((ps.filterMap (pick w a newer older)).map fun r => r.package) = ps.filter fun p => decide (Wanted w a p) := by
  induction ps with
  | nil => rfl
  | cons p ps ih =>
    by_cases hw : Wanted w a p
    · obtain ⟨r, he⟩ := Option.isSome_iff_exists.1 ((evaluate_isSome hr p).2 hw.2.2)
      rw [List.filterMap_cons_some ((picked hn ho).2 ⟨⟨hw.1, hw.2.1⟩, he⟩), List.map_cons, ih, evaluate_package he,
        List.filter_cons_of_pos (by simpa using hw)]
    · have : pick w a newer older p = none := by
        rw [Option.eq_none_iff_forall_ne_some]
        intro r he
        rw [picked hn ho] at he
        exact hw ⟨he.1.1, he.1.2, (evaluate_isSome hr p).1 (by simp [he.2])⟩
      rw [List.filterMap_cons_none this, ih, List.filter_cons_of_neg (by simpa using hw)]

open Classical in
/-- C194: without `--latest-only` and not by family, the results are the wanted packages of the repositories, each as often as it
is there, cut at the limit. -/
theorem C194_found (w : World) (hw : Std w) (a : Args) (hr : a.regex = false) (hf : a.searchType ≠ c!"family")
    (hl : a.latestOnly = false) (rs : List Res) (h : search w a = .ok rs) :
    ∃ l : List Res, rs = l.take a.limit ∧ (l.map fun r => r.package).Perm ((Stored w).filter fun p => decide (Wanted w a p)) := by
  obtain ⟨newer, older, all, hn, ho, rfl, ha⟩ := search_ok h
  obtain ⟨l, hs, rfl⟩ := arrange_ok ha
  rw [if_neg hf] at hs
  refine ⟨l, by rw [hl]; rfl, ?_⟩
  rw [← picked_packages hr hn ho]
  exact (hw.perm _ _ _ hs).map _

/-- C194: if the repositories answer and the dates do not make it fail, the search answers. -/
theorem C194_answers (w : World) (hw : Std w) (a : Args) (newer older : Option Int) (names : List Str)
    (hn : bound w a.newerThan = .ok newer) (ho : bound w a.olderThan = .ok older) (hl : w.listed = .ok names)
    (hf : ∀ n ∈ names, ∃ ps, w.find n = .ok ps) (hv : a.sort = c!"version" → Ordered (Stored w)) :
    ∃ rs, search w a = .ok rs := by
  have hc : ∀ ns : List Str, (∀ n ∈ ns, ∃ ps, w.find n = .ok ps) → ∃ all, collect w a newer older ns = .ok all := by
    intro ns
    induction ns with
    | nil => exact fun _ => ⟨[], rfl⟩
    | cons n ns ih =>
      intro hns
      obtain ⟨ps, hp⟩ := hns n (by simp)
      obtain ⟨all, ha⟩ := ih fun m hm => hns m (by simp [hm])
      exact ⟨_, by simp only [collect, hp, ha]; rfl⟩
  obtain ⟨all, ha⟩ := hc names hf
  have hall : ∀ r ∈ all, r.package ∈ Stored w := by
    intro r hm
    rw [(collected ha).2] at hm
    obtain ⟨p, hp, he⟩ := List.mem_filterMap.1 hm
    rw [evaluate_package ((picked hn ho).1 he).2]
    simp only [Stored, hl]
    exact hp
  have hrs : ∀ r ∈ (if a.searchType = c!"family" then w.values (all.foldl familyStep []) else all), r ∈ all := by
    intro r hm
    split at hm
    · exact ((kept_values hw (family_kept all)).2.1 r hm).1
    · exact hm
  obtain ⟨l, hs, _⟩ := hw.sorted (order a.sort) (if a.searchType = c!"family" then w.values (all.foldl familyStep []) else all)
    (order_consistent fun e => ordered_sub (hv e) fun p hp => by
      obtain ⟨r, hm, rfl⟩ := List.mem_map.1 hp
      exact hall r (hrs r hm))
  refine ⟨(if a.latestOnly then latest w l else l).take a.limit, ?_⟩
  simp only [search, hn, ho, hl, ha, arrange]
  rw [hs]

/-- C194: if a repository cannot be read for one of the names, there are no results at all. -/
theorem C194_fails (w : World) (a : Args) (names : List Str) (n : Str) (hl : w.listed = .ok names) (hn : n ∈ names)
    (hf : w.find n = .err) (rs : List Res) : search w a ≠ .ok rs := by
  intro h
  unfold search at h
  simp only [hl] at h
  split at h
  · cases h
  · cases h
  · split at h
    · cases h
    · cases h
    · split at h
      · cases h
      · cases h
      next hc =>
        obtain ⟨ps, hp⟩ := (collected hc).1 n hn
        rw [hf] at hp
        cases hp

example : ∃ rs, search (searchWorld searchStore) (searchArgs c!"maya") = .ok rs ∧ rs.length = 3 := ⟨_, rfl, by decide⟩

/-- C194: the wider reading is false: a date that cannot be read is not refused; the search goes on without it. -/
theorem C194_date_false : ∃ (w : World) (a : Args) (rs : List Res), Std w ∧ a.newerThan = some c!"2024-02-30" ∧
    w.iso c!"2024-02-30" = none ∧ search w a = .ok rs ∧ rs.length = 3 :=
  ⟨searchWorld searchStore, { searchArgs c!"maya" with newerThan := some c!"2024-02-30" }, _, searchWorld_std _, rfl, rfl, rfl,
    by decide⟩

/-- C194: the wider reading is false: `--has-variant` is ignored if families are searched. -/
theorem C194_variant_false : ∃ (w : World) (a : Args) (rs : List Res), Std w ∧ a.searchType = c!"family" ∧
    a.hasVariant = some c!"python" ∧ search w a = .ok rs ∧ ∃ r ∈ rs, r.package.variants = [] :=
  ⟨searchWorld searchStore, { searchArgs c!"maya" with searchType := c!"family", hasVariant := some c!"python" }, _,
    searchWorld_std _, rfl, rfl, rfl, _, List.mem_cons_self, rfl⟩

/-! ## C195: families -/

/-- C195: by family there is one result for each name that has a wanted package, with the highest score among them, cut at the
limit. -/
theorem C195_families (w : World) (hw : Std w) (a : Args) (hr : a.regex = false) (hf : a.searchType = c!"family")
    (hl : a.latestOnly = false) (rs : List Res) (h : search w a = .ok rs) :
    ∃ l : List Res, rs = l.take a.limit ∧ (names l).Nodup ∧
      (∀ n, n ∈ names l ↔ ∃ p ∈ Stored w, Wanted w a p ∧ p.name = n) ∧
      ∀ r ∈ l, Wanted w a r.package ∧ r.package ∈ Stored w ∧
        ∀ p ∈ Stored w, Wanted w a p → p.name = r.package.name → points w a p ≤ r.score := by
  obtain ⟨newer, older, all, hn, ho, hall, ha⟩ := search_ok h
  obtain ⟨l, hs, rfl⟩ := arrange_ok ha
  rw [if_pos hf] at hs
  have hp := hw.perm _ _ _ hs
  obtain ⟨k1, k2, k3⟩ := kept_values hw (family_kept all)
  have hnames : (names l).Perm (names (w.values (all.foldl familyStep []))) := hp.map _
  have hmem : ∀ r, r ∈ all ↔ ∃ p ∈ Stored w, (InTime w a p ∧ InType w a p) ∧ evaluate w a p = some r := by
    intro r
    rw [hall, List.mem_filterMap]
    simp only [picked hn ho]
  refine ⟨l, by rw [hl]; rfl, hnames.nodup_iff.2 k1, fun n => ?_, fun r hrm => ?_⟩
  · rw [hnames.mem_iff, k3, names, List.mem_map]
    constructor
    · rintro ⟨r, hrm, rfl⟩
      obtain ⟨p, h1, h2, h3⟩ := (hmem r).1 hrm
      rw [evaluate_package h3]
      exact ⟨p, h1, ⟨h2.1, h2.2, (evaluate_isSome hr p).1 (by simp [h3])⟩, rfl⟩
    · rintro ⟨p, h1, h2, rfl⟩
      obtain ⟨r, he⟩ := Option.isSome_iff_exists.1 ((evaluate_isSome hr p).2 h2.2.2)
      exact ⟨r, (hmem r).2 ⟨p, h1, ⟨h2.1, h2.2.1⟩, he⟩, by rw [evaluate_package he]⟩
  · obtain ⟨hra, hbest⟩ := k2 r (hp.mem_iff.1 hrm)
    obtain ⟨p, h1, h2, h3⟩ := (hmem r).1 hra
    have he := evaluate_package h3
    subst he
    refine ⟨⟨h2.1, h2.2, (evaluate_isSome hr _).1 (by simp [h3])⟩, h1, fun p hps hpw hpn => ?_⟩
    obtain ⟨s, he⟩ := Option.isSome_iff_exists.1 ((evaluate_isSome hr p).2 hpw.2.2)
    have := hbest s ((hmem s).2 ⟨p, hps, ⟨hpw.1, hpw.2.1⟩, he⟩) (by rw [evaluate_package he, hpn])
    rw [← score_eq hr]
    exact le_of_eq_of_le (congrArg Res.score (evaluate_some.1 he).2).symm this

example : (match search (searchWorld searchStore) { searchArgs c!"maya" with searchType := c!"family" } with
    | .ok rs => rs.map fun r => (r.package.name, r.score)
    | _ => []) = [(c!"maya", 11), (c!"mayatools", 7)] := by decide

/-- C195: the wider reading is false: the package that stands for a family need not be the newest that matches. -/
theorem C195_newest_false : ∃ (w : World) (a : Args) (rs : List Res), Std w ∧ a.searchType = c!"family" ∧
    search w a = .ok rs ∧ ∃ r ∈ rs, ∃ p ∈ Stored w, p.name = r.package.name ∧ p.name = a.query ∧ Newer p r.package := by
  refine ⟨searchWorld [(c!"a", [searchPkg c!"a" [c!"1"] (some c!"a") [], searchPkg c!"a" [c!"2"] none []])],
    { searchArgs c!"a" with searchType := c!"family" }, _, searchWorld_std _, rfl, rfl, _, List.mem_cons_self,
    searchPkg c!"a" [c!"2"] none [], by decide, rfl, rfl, _, rfl, ?_⟩
  rintro u hu
  simp only [searchPkg, Option.some.injEq] at hu
  subst hu
  decide

/-! ## C196: the latest versions -/

/-- C196: with `--latest-only` there is one result for each name that has a wanted package, and no wanted package of that name is
newer, cut at the limit. -/
theorem C196_latest (w : World) (hw : Std w) (a : Args) (hr : a.regex = false) (hf : a.searchType ≠ c!"family")
    (hl : a.latestOnly = true) (hv : Ordered (Stored w)) (rs : List Res) (h : search w a = .ok rs) :
    ∃ l : List Res, rs = l.take a.limit ∧ (names l).Nodup ∧
      (∀ n, n ∈ names l ↔ ∃ p ∈ Stored w, Wanted w a p ∧ p.name = n) ∧
      ∀ r ∈ l, ∀ p ∈ Stored w, Wanted w a p → p.name = r.package.name → ¬ Newer p r.package := by
  obtain ⟨newer, older, all, hn, ho, hall, ha⟩ := search_ok h
  obtain ⟨l, hs, rfl⟩ := arrange_ok ha
  rw [if_neg hf] at hs
  have hp := hw.perm _ _ _ hs
  have hmem : ∀ r, r ∈ l ↔ ∃ p ∈ Stored w, (InTime w a p ∧ InType w a p) ∧ evaluate w a p = some r := by
    intro r
    rw [hp.mem_iff, hall, List.mem_filterMap]
    simp only [picked hn ho]
  have ho' : Ordered (l.map (·.package)) := ordered_sub hv fun p hp => by
    obtain ⟨r, hrm, rfl⟩ := List.mem_map.1 hp
    obtain ⟨p, h1, _, h3⟩ := (hmem r).1 hrm
    rw [evaluate_package h3]
    exact h1
  obtain ⟨k1, k2, k3⟩ := kept_values hw (latest_kept l ho')
  refine ⟨latest w l, by rw [hl]; rfl, k1, fun n => ?_, fun r hrm p hps hpw hpn => ?_⟩
  · refine (k3 n).trans ?_
    rw [names, List.mem_map]
    constructor
    · rintro ⟨r, hrm, rfl⟩
      obtain ⟨p, h1, h2, h3⟩ := (hmem r).1 hrm
      rw [evaluate_package h3]
      exact ⟨p, h1, ⟨h2.1, h2.2, (evaluate_isSome hr p).1 (by simp [h3])⟩, rfl⟩
    · rintro ⟨p, h1, h2, rfl⟩
      obtain ⟨r, he⟩ := Option.isSome_iff_exists.1 ((evaluate_isSome hr p).2 h2.2.2)
      exact ⟨r, (hmem r).2 ⟨p, h1, ⟨h2.1, h2.2.1⟩, he⟩, by rw [evaluate_package he]⟩
  · obtain ⟨s, he⟩ := Option.isSome_iff_exists.1 ((evaluate_isSome hr p).2 hpw.2.2)
    have := (k2 r hrm).2 s ((hmem s).2 ⟨p, hps, ⟨hpw.1, hpw.2.1⟩, he⟩) (by rw [evaluate_package he, hpn])
    rw [evaluate_package he] at this
    exact this

example : (match search (searchWorld searchStore) { searchArgs c!"maya" with latestOnly := true } with
    | .ok rs => rs.map fun r => (r.package.name, r.package.version.map Version.repr)
    | _ => []) = [(c!"mayatools", some c!"1"), (c!"maya", some c!"2024")] := by decide

/-- C196: the wider reading is false: what is shown as the latest need not be the latest of the family, only of its packages that
match. -/
theorem C196_family_false : ∃ (w : World) (a : Args) (rs : List Res), Std w ∧ a.latestOnly = true ∧ search w a = .ok rs ∧
    ∃ r ∈ rs, ∃ p ∈ Stored w, p.name = r.package.name ∧ Newer p r.package := by
  refine ⟨searchWorld [(c!"a", [searchPkg c!"a" [c!"1"] (some c!"old") [], searchPkg c!"a" [c!"2"] none []])],
    { searchArgs c!"old" with latestOnly := true }, _, searchWorld_std _, rfl, rfl, _, List.mem_cons_self,
    searchPkg c!"a" [c!"2"] none [], by decide, rfl, _, rfl, ?_⟩
  rintro u hu
  simp only [searchPkg, Option.some.injEq] at hu
  subst hu
  decide

/-! ## C197: order and limit -/

/-- C197: there are never more results than the limit. -/
theorem C197_limit (w : World) (a : Args) (rs : List Res) (h : search w a = .ok rs) : rs.length ≤ a.limit := by
  obtain ⟨_, _, all, _, _, _, ha⟩ := search_ok h
  obtain ⟨l, _, rfl⟩ := arrange_ok ha
  rw [List.length_take]
  omega

/-- The results before the limit is applied, in their order. -/
theorem ordered_results {w : World} (hw : Std w) {a : Args} (hl : a.latestOnly = false)
    (hv : a.sort = c!"version" → Ordered (Stored w)) {rs : List Res} (h : search w a = .ok rs) :
    ∃ l : List Res, rs = l.take a.limit ∧ (l.Pairwise fun x y => order a.sort x y ≠ .gt) := by
  obtain ⟨newer, older, all, hn, ho, hall, ha⟩ := search_ok h
  obtain ⟨l, hs, rfl⟩ := arrange_ok ha
  have hstored : ∀ r ∈ all, r.package ∈ Stored w := by
    intro r hm
    rw [hall] at hm
    obtain ⟨p, hp, he⟩ := List.mem_filterMap.1 hm
    rw [evaluate_package ((picked hn ho).1 he).2]
    exact hp
  have hrs : ∀ r ∈ (if a.searchType = c!"family" then w.values (all.foldl familyStep []) else all), r ∈ all := by
    intro r hm
    split at hm
    · exact ((kept_values hw (family_kept all)).2.1 r hm).1
    · exact hm
  obtain ⟨l', hs', hp, _⟩ := hw.sorted (order a.sort)
    (if a.searchType = c!"family" then w.values (all.foldl familyStep []) else all)
    (order_consistent fun e => ordered_sub (hv e) fun p hp => by
      obtain ⟨r, hm, rfl⟩ := List.mem_map.1 hp
      exact hstored r (hrs r hm))
  rw [hs] at hs'
  cases hs'
  exact ⟨l, by rw [hl]; rfl, hp⟩

/-- C197: without `--latest-only` the results are in order: by version the latest first and those without one last, by score the
highest first, else by name. -/
theorem C197_sorted (w : World) (hw : Std w) (a : Args) (hl : a.latestOnly = false)
    (hv : a.sort = c!"version" → Ordered (Stored w)) (rs : List Res) (h : search w a = .ok rs) :
    rs.Pairwise fun x y =>
      if a.sort = c!"version" then ¬ Newer y.package x.package
      else if a.sort = c!"score" then y.score ≤ x.score
      else cmpStr x.package.name y.package.name ≠ .gt := by
  obtain ⟨l, rfl, hp⟩ := ordered_results hw hl hv h
  refine (hp.sublist (List.take_sublist _ _)).imp fun {x y} hxy => ?_
  unfold order at hxy
  split
  next hs =>
    rw [if_pos hs] at hxy
    rintro ⟨v, h1, h2⟩
    apply hxy
    simp only [byVersion, h1]
    cases hx : x.package.version with
    | none => rfl
    | some u => exact h2 u hx
  next hs =>
    rw [if_neg hs] at hxy
    split
    next hs' =>
      rw [if_pos hs'] at hxy
      simp only [byScore, ne_eq, Nat.compare_eq_gt] at hxy
      omega
    next hs' =>
      rw [if_neg hs'] at hxy
      exact hxy

/-- C197: without `--latest-only` and not by family, the limit takes away the last: raising it only adds results at the end. -/
theorem C197_prefix (w : World) (a : Args) (n : Nat) (hl : a.latestOnly = false) (rs : List Res)
    (h : search w a = .ok rs) : search w { a with limit := n } =
      .ok (rs.take n) ∨ a.limit < n ∧ ∃ more, search w { a with limit := n } = .ok (rs ++ more) := by
  have hc : ∀ newer older ns, collect w { a with limit := n } newer older ns = collect w a newer older ns := by
    intro newer older ns
    induction ns with
    | nil => rfl
    | cons m ns ih =>
      simp only [collect, ih]
      rfl
  obtain ⟨newer, older, names, all, hn, ho, hns, ha, h⟩ := search_steps h
  have hs : search w { a with limit := n } = arrange w { a with limit := n } all := by
    simp only [search, hn, ho, hns, hc, ha]
  rw [hs]
  simp only [arrange, hl] at h ⊢
  split at h
  · cases h
  · cases h
  next l hs =>
    simp only [Outcome.ok.injEq, Bool.false_eq_true, if_false] at h
    simp only [hs, Outcome.ok.injEq, Bool.false_eq_true, if_false]
    subst h
    rcases Nat.lt_or_ge a.limit n with hlt | hge
    · refine .inr ⟨hlt, (l.drop a.limit).take (n - a.limit), ?_⟩
      have := List.take_add (l := l) (i := a.limit) (j := n - a.limit)
      rw [show a.limit + (n - a.limit) = n by omega] at this
      exact this
    · refine .inl ?_
      rw [List.take_take, min_eq_left hge]

example : (match search (searchWorld searchStore) { searchArgs c!"maya" with sort := c!"version", limit := 2 } with
    | .ok rs => rs.map fun r => (r.package.name, r.package.version.map Version.repr)
    | _ => []) = [(c!"maya", some c!"2024"), (c!"maya", some c!"2023")] := by decide

/-- C197: the wider reading is false: with `--latest-only` the order that is asked for is lost, and what the limit leaves depends
on the order of a map. -/
theorem C197_latest_false : ∃ (w : World) (a : Args) (rs : List Res), Std w ∧ a.latestOnly = true ∧ a.sort = c!"name" ∧
    search w a = .ok rs ∧ (names rs) = [c!"mayatools", c!"maya"] ∧
    ∃ r, search w { a with limit := 1 } = .ok [r] ∧ r.package.name = c!"mayatools" :=
  ⟨searchWorld searchStore, { searchArgs c!"maya" with latestOnly := true }, _, searchWorld_std _, rfl, rfl, rfl, by decide, _, rfl,
    by decide⟩

/-- C197: the wider reading is false: sorting by date, which the help offers, sorts by name. -/
theorem C197_date_false : ∃ (w : World) (a : Args) (rs : List Res), Std w ∧ a.sort = c!"date" ∧ search w a = .ok rs ∧
    rs.map (fun r => r.package.timestamp) = [some 2, some 3, some 1] :=
  ⟨searchWorld [(c!"pa", [{ searchPkg c!"pa" [c!"1"] none [] with timestamp := some 2 }]),
      (c!"pc", [{ searchPkg c!"pc" [c!"1"] none [] with timestamp := some 1 }]),
      (c!"pb", [{ searchPkg c!"pb" [c!"1"] none [] with timestamp := some 3 }])],
    { searchArgs c!"p" with sort := c!"date" }, _, searchWorld_std _, rfl, rfl, by decide⟩

/-! ## C198: what is printed -/

/-- The name on a printed result. -/
def printedName : Out → Option Str
  | .verbose n _ _ _ => some n
  | .row n _ _ => some n
  | .json n _ _ _ _ _ _ _ => some n
  | .detail n _ _ _ _ _ _ => some n
  | _ => none

/-- The version on a printed result. -/
def printedVersion : Out → Option Str
  | .verbose _ v _ _ => some v
  | .row _ v _ => some v
  | .json _ v _ _ _ _ _ _ => v
  | .detail _ v _ _ _ _ _ => v
  | _ => none

theorem tableRow_name {w : World} {a : Args} {r : Res} {o : Out} (h : tableRow w a r = .ok o) :
    printedName o = some r.package.name := by
  unfold tableRow at h
  split at h
  · cases h
    rfl
  · split at h
    · cases h
      rfl
    · cases h
    · cases h

/-- C198: in each format, unless it panics, every result is printed, in order, each once. -/
theorem C198_all (w : World) (a : Args) (rs : List Res) (hne : rs ≠ [])
    (hf : isJson a.format = true ∨ a.format = c!"table" ∨ a.format = c!"detailed") (h : (display w a rs).2 = false) :
    (display w a rs).1.filterMap printedName = names rs := by
  have ht : ∀ rs : List Res, (table w a rs).2 = false → (table w a rs).1.filterMap printedName = names rs := by
    intro rs
    induction rs with
    | nil => exact fun _ => rfl
    | cons r rs ih =>
      intro h
      simp only [table] at h ⊢
      split at h
      next o ho =>
        rw [List.filterMap_cons_some (tableRow_name ho), ih h]
        rfl
      · cases h
  unfold display at h ⊢
  rw [if_neg (by simpa using hne)] at h ⊢
  split
  · clear h
    induction rs with
    | nil => rfl
    | cons r rs ih =>
      by_cases hr : rs = []
      · subst hr
        rfl
      · rw [List.map_cons, List.filterMap_cons_some (by rfl), ih hr]
        rfl
  next hj =>
    rw [if_neg hj] at h
    split
    next htab =>
      rw [if_pos htab] at h
      exact ht rs h
    next htab =>
      rw [if_pos (by simpa [hj, htab] using hf)]
      show (rs.map (detailRow w)).filterMap printedName = names rs
      rw [List.filterMap_map]
      induction rs with
      | nil => rfl
      | cons r rs ih =>
        by_cases hr : rs = []
        · subst hr
          rfl
        · rw [List.filterMap_cons_some (by rfl), ih hr]
          · rfl
          · rw [if_neg htab, if_pos (by simpa [hj, htab] using hf)]

/-- C198: in JSON, however it is capitalised, every result is an object with its name, version, description, tools, requirements, score,
fields and time; in detail tools and requirements are left out if there are none; in other formats the number of results comes first. -/
theorem C198_values (w : World) (a : Args) (rs : List Res) (hne : rs ≠ []) :
    (a.format.map lowerChar = c!"json" → (display w a rs).1.length = rs.length ∧ ∀ (i : Nat) (r : Res), rs[i]? = some r →
      ∃ (p : Pkg) (v : Option Str), r.package = p ∧ v = p.version.map w.debug ∧
        (display w a rs).1[i]? = some (.json p.name v p.description p.tools p.requires r.score r.fields p.timestamp)) ∧
    (a.format = c!"detailed" → ∀ (i : Nat) (r : Res), rs[i]? = some r →
      ∃ (p : Pkg) (tools requires : Option Str), r.package = p ∧
        (p.tools = [] → tools = none) ∧ (p.tools ≠ [] → tools = some (joinWith c!", " p.tools)) ∧
        (p.requires = [] → requires = none) ∧ (p.requires ≠ [] → requires = some (joinWith c!", " p.requires)) ∧
        (display w a rs).1[i + 1]? = some (.detail p.name (p.version.map w.debug) p.description tools requires r.score
          (joinWith c!", " r.fields))) ∧
    (a.format.map lowerChar ≠ c!"json" → (display w a rs).1.head? = some (.found rs.length)) := by
  have he : rs.isEmpty = false := by simpa using hne
  refine ⟨?_, ?_, fun hj => ?_⟩
  · intro hj
    have hj : isJson a.format = true := by unfold isJson; rw [hj]; rfl
    have hd : display w a rs = (rs.map (jsonRow w), false) := by
      unfold display
      rw [he, if_neg (by simp), if_pos hj]
    rw [hd]
    refine ⟨by simp, fun i r hr => ⟨r.package, _, rfl, rfl, ?_⟩⟩
    rw [List.getElem?_map, hr]
    rfl
  · intro hf i r hr
    have hd : (display w a rs).1 = .found rs.length :: rs.map (detailRow w) := by
      unfold display
      rw [he, if_neg (by simp), hf]
      rfl
    rw [hd]
    refine ⟨r.package, someJoined r.package.tools, someJoined r.package.requires, rfl, ?_, ?_, ?_, ?_, ?_⟩
    · intro h; rw [h]; rfl
    · intro h; unfold someJoined; rw [if_neg (by simpa using h)]
    · intro h; rw [h]; rfl
    · intro h; unfold someJoined; rw [if_neg (by simpa using h)]
    · rw [List.getElem?_cons_succ, List.getElem?_map, hr]
      rfl
  · have hj : isJson a.format = false := by
      unfold isJson
      simpa using hj
    unfold display
    rw [he, if_neg (by simp), hj, if_neg (by simp)]
    split
    · rfl
    · split <;> rfl

theorem prefixBytes_some : ∀ {n : Nat} {s t : Str}, Util.prefixBytes n s = some t →
    ∃ u, s = t ++ u ∧ (t.map Char.utf8Size).sum = n := by
  intro n s
  induction s generalizing n with
  | nil =>
    intro t h
    cases n with
    | zero =>
      cases h
      exact ⟨[], rfl, rfl⟩
    | succ n => cases h
  | cons c cs ih =>
    intro t h
    cases n with
    | zero =>
      cases h
      exact ⟨c :: cs, rfl, rfl⟩
    | succ n =>
      simp only [Util.prefixBytes] at h
      split at h
      next hle =>
        obtain ⟨t', ht, rfl⟩ := Option.map_eq_some_iff.1 h
        obtain ⟨u, h1, h2⟩ := ih ht
        refine ⟨u, by rw [h1]; rfl, ?_⟩
        rw [List.map_cons, List.sum_cons, h2]
        omega
      · cases h

theorem prefixBytes_of : ∀ (t u : Str), Util.prefixBytes (t.map Char.utf8Size).sum (t ++ u) = some t := by
  intro t u
  induction t with
  | nil => cases u <;> rfl
  | cons c cs ih =>
    have hp : 0 < c.utf8Size := Char.utf8Size_pos c
    rw [List.map_cons, List.sum_cons]
    obtain ⟨m, hm⟩ : ∃ m, c.utf8Size + (cs.map Char.utf8Size).sum = m + 1 := ⟨_, (Nat.succ_pred_eq_of_pos (by omega)).symm⟩
    rw [hm, List.cons_append, Util.prefixBytes, if_pos (by omega), show m + 1 - c.utf8Size = (cs.map Char.utf8Size).sum by omega, ih]
    rfl

theorem shortened_panics (p : Pkg) : shortened p = .panic ↔ ∃ d, p.description = some d ∧ ¬ Cuttable d := by
  unfold shortened
  split
  next h => simp [h]
  next d h =>
    simp only [h, Option.some.injEq, exists_eq_left']
    split
    next hl =>
      split
      next t ht =>
        obtain ⟨u, h1, h2⟩ := prefixBytes_some ht
        simp only [reduceCtorEq, false_iff, not_not]
        exact .inr ⟨t, u, h1, h2⟩
      next ht =>
        simp only [true_iff]
        rintro (hc | ⟨t, u, rfl, hc⟩)
        · simp only [byteLen, gt_iff_lt] at hl
          omega
        · rw [← hc, prefixBytes_of] at ht
          cases ht
    next hl =>
      simp only [reduceCtorEq, false_iff, not_not]
      exact .inl (by simpa [byteLen] using hl)

/-- C198: printing panics exactly in the plain table, if a description is longer than 37 bytes and byte 37 is inside a character. -/
theorem C198_panics (w : World) (a : Args) (rs : List Res) :
    (display w a rs).2 = true ↔ a.format = c!"table" ∧ a.verbose = false ∧
      ∃ r ∈ rs, ∃ d, r.package.description = some d ∧ ¬ Cuttable d := by
  have ht : ∀ rs : List Res, (table w a rs).2 = true ↔ a.verbose = false ∧
      ∃ r ∈ rs, ∃ d, r.package.description = some d ∧ ¬ Cuttable d := by
    intro rs
    induction rs with
    | nil => simp [table]
    | cons r rs ih =>
      simp only [table, List.mem_cons, exists_eq_or_imp, ← shortened_panics]
      cases hv : a.verbose with
      | true =>
        simp only [tableRow, hv, if_true]
        rw [ih, hv]
        simp
      | false =>
        simp only [tableRow, hv, Bool.false_eq_true, if_false, true_and]
        rw [hv] at ih
        simp only [true_and, ← shortened_panics] at ih
        cases hs : shortened r.package with
        | ok d => simp [ih]
        | err =>
          exfalso
          unfold shortened at hs
          split at hs
          · cases hs
          · split at hs
            · split at hs <;> cases hs
            · cases hs
        | panic => simp
  unfold display
  split
  next he => simp [List.isEmpty_iff.1 he]
  · split
    next hj =>
      simp only [Bool.false_eq_true, false_iff]
      rintro ⟨hf, _⟩
      rw [hf] at hj
      revert hj
      decide
    · split
      next hf =>
        simp only [hf, true_and]
        exact ht rs
      next hf =>
        split <;> simp [hf]

/-- C198: a description in the table is the description, or its first 37 bytes and three dots if it is longer. -/
theorem C198_description (w : World) (a : Args) (r : Res) (n v t : Str) (h : tableRow w a r = .ok (.row n v t)) :
    (r.package.description = none ∧ t = c!"No description") ∨
    ∃ d, r.package.description = some d ∧
      ((t = d ∧ (d.map Char.utf8Size).sum ≤ 37) ∨
        ∃ x y, d = x ++ y ∧ (x.map Char.utf8Size).sum = 37 ∧ y ≠ [] ∧ t = x ++ c!"...") := by
  unfold tableRow at h
  split at h
  · cases h
  · split at h
    next d hd =>
      cases h
      unfold shortened at hd
      split at hd
      next hn =>
        cases hd
        exact .inl ⟨hn, rfl⟩
      next d hn =>
        refine .inr ⟨d, hn, ?_⟩
        split at hd
        next hl =>
          split at hd
          next x hx =>
            cases hd
            obtain ⟨y, rfl, h2⟩ := prefixBytes_some hx
            refine .inr ⟨x, y, rfl, h2, ?_, rfl⟩
            rintro rfl
            simp only [byteLen, List.append_nil] at hl
            omega
          · cases hd
        next hl =>
          cases hd
          exact .inl ⟨rfl, by simpa [byteLen] using hl⟩
    · cases h
    · cases h

example : ∃ r : Res, r.package.description = some (List.replicate 40 'x') ∧
    tableRow (searchWorld []) (searchArgs c!"a") r =
      .ok (.row c!"a" c!"Version { string_repr: 1 }" (List.replicate 37 'x' ++ c!"...")) :=
  ⟨⟨searchPkg c!"a" [c!"1"] (some (List.replicate 40 'x')) [], 10, [c!"name"]⟩, rfl, by decide⟩

/-- C198: the wider reading is false: no format shows a version as it is written, as versions are printed for debugging. -/
theorem C198_version_false (w : World) (hd : ∀ v, c!"Version {" <+: w.debug v) (a : Args) (rs : List Res) :
    ∀ o ∈ (display w a rs).1, ∀ s, printedVersion o = some s → c!"Version {" <+: s ∨ s = c!"unknown" := by
  have hs : ∀ p : Pkg, c!"Version {" <+: shownVersion w p ∨ shownVersion w p = c!"unknown" := by
    intro p
    unfold shownVersion
    cases p.version with
    | none => exact .inr rfl
    | some v => exact .inl (hd v)
  have ho : ∀ (p : Pkg) s, p.version.map w.debug = some s → c!"Version {" <+: s ∨ s = c!"unknown" := by
    intro p s h
    obtain ⟨v, _, rfl⟩ := Option.map_eq_some_iff.1 h
    exact .inl (hd v)
  have ht : ∀ rs : List Res, ∀ o ∈ (table w a rs).1, ∀ s, printedVersion o = some s → c!"Version {" <+: s ∨ s = c!"unknown" := by
    intro rs
    induction rs with
    | nil => simp [table]
    | cons r rs ih =>
      simp only [table]
      split
      next o hto =>
        intro o' hm
        rcases List.mem_cons.1 hm with rfl | hm
        · intro s hps
          unfold tableRow at hto
          split at hto
          · cases hto
            cases hps
            exact hs _
          · split at hto
            · cases hto
              cases hps
              exact hs _
            · cases hto
            · cases hto
        · exact ih o' hm
      · simp
  intro o hm s hp
  unfold display at hm
  split at hm
  · simp only [List.mem_singleton] at hm
    subst hm
    split at hp <;> cases hp
  · split at hm
    · obtain ⟨r, _, rfl⟩ := List.mem_map.1 hm
      exact ho r.package s hp
    · split at hm
      · rcases List.mem_cons.1 hm with rfl | hm
        · cases hp
        · exact ht rs o hm s hp
      · split at hm
        · rcases List.mem_cons.1 hm with rfl | hm
          · cases hp
          · obtain ⟨r, _, rfl⟩ := List.mem_map.1 hm
            exact ho r.package s hp
        · simp only [List.mem_cons, List.not_mem_nil, or_false] at hm
          rcases hm with rfl | rfl <;> cases hp

/-- C198: the wider reading is false: in a format it does not know the command prints no result and does not fail. -/
theorem C198_format_false : ∃ (w : World) (a : Args) (rs : List Res), rs ≠ [] ∧ (display w a rs).2 = false ∧
    (display w a rs).1.filterMap printedName = [] :=
  ⟨searchWorld [], { searchArgs c!"a" with format := c!"yaml" }, [⟨searchPkg c!"a" [c!"1"] none [], 10, [c!"name"]⟩], by simp,
    by decide, by decide⟩

end Rez.Props
