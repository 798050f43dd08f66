import Verif.Spec.DependsApi
import Verif.Props.PackageQuery
import Verif.Props.Requirement
import Mathlib.Data.List.Perm.Basic
/-!
# C224: reverse dependencies, from Python
-/
namespace Rez.Props
open Rez Rez.PackageOrder Rez.Repository Rez.PackageQuery Rez.DependsApi Rez.DependsApi.Spec Rez.Spec Rez.Spec.PackageQuery
  Rez.Spec.Repository
open Rez.Spec.Search (Ascending)

namespace DependsApiLemmas

theorem firstOf_ok (counts : PackageRequirement → Bool) (P : Str → Prop)
    (hP : ∀ r, P r ↔ ∃ q, PackageRequirement.parse r = .ok q ∧ counts q = true) (l : List Str)
    (hl : ∀ r ∈ l, PackageRequirement.parse r ≠ .panic) :
    ∃ o, firstOf counts l = .ok o ∧ (∀ r, o = some r → ∃ before after, l = before ++ r :: after ∧ P r ∧ ∀ x ∈ before, ¬ P x) ∧
      (o = none ↔ ∀ x ∈ l, ¬ P x) := by
  induction l with
  | nil =>
    refine ⟨none, rfl, ?_, ?_⟩
    · intro r h; cases h
    · simp
  | cons r l ih =>
    obtain ⟨o, ho, h1, h2⟩ := ih fun x hx => hl x (List.mem_cons_of_mem _ hx)
    have skip : ¬ P r → ∃ o', firstOf counts l = .ok o' ∧
        (∀ r', o' = some r' → ∃ before after, r :: l = before ++ r' :: after ∧ P r' ∧ ∀ x ∈ before, ¬ P x) ∧
        (o' = none ↔ ∀ x ∈ r :: l, ¬ P x) := by
      intro hr
      refine ⟨o, ho, fun r' hr' => ?_, ?_⟩
      · obtain ⟨b, a, rfl, hp, hb⟩ := h1 r' hr'
        exact ⟨r :: b, a, rfl, hp, fun x hx => by
          rcases List.mem_cons.1 hx with rfl | hx
          · exact hr
          · exact hb x hx⟩
      · rw [h2]
        simp [hr]
    rw [firstOf]
    cases hq : PackageRequirement.parse r with
    | panic => exact absurd hq (hl r List.mem_cons_self)
    | err =>
      exact skip fun hp => by
        obtain ⟨q, h, _⟩ := (hP r).1 hp
        rw [hq] at h; cases h
    | ok q =>
      simp only
      split
      · rename_i hc
        have hp : P r := (hP r).2 ⟨q, hq, hc⟩
        exact ⟨some r, rfl, fun r' hr' => by
          obtain rfl := Option.some.inj hr'
          exact ⟨[], l, rfl, hp, fun _ h => by cases h⟩, by simp [hp]⟩
      · rename_i hc
        exact skip fun hp => by
          obtain ⟨q', h, hc'⟩ := (hP r).1 hp
          rw [hq] at h
          cases h
          exact hc hc'

theorem versionShown_eq (p : Package) : versionShown p = versionText p := by
  unfold versionShown versionText
  cases p.version <;> rfl

theorem collected_ok (skip : Package → Bool) (counts : PackageRequirement → Bool) (direct : Bool) (P : Str → Prop)
    (hP : ∀ r, P r ↔ ∃ q, PackageRequirement.parse r = .ok q ∧ counts q = true) (all : List Package)
    (hl : ∀ p ∈ all, ∀ r ∈ p.requires, PackageRequirement.parse r ≠ .panic) :
    ∃ l chosen, DependsApi.collect skip counts direct all = .ok l ∧ chosen.Sublist all ∧
      (∀ p, p ∈ chosen ↔ p ∈ all ∧ skip p = false ∧ HasOne P p) ∧
      (∀ p, p ∈ chosen → chosen.count p = all.count p) ∧
      List.Forall₂ (EntryOf P direct) chosen l := by
  induction all with
  | nil => exact ⟨[], [], rfl, List.Sublist.slnil, by simp, by simp, .nil⟩
  | cons p all ih =>
    obtain ⟨l, ch, hc, hsub, hm, hcount, hf⟩ := ih fun q hq => hl q (List.mem_cons_of_mem _ hq)
    have out : (skip p = true ∨ ¬ HasOne P p) → ∃ chosen, chosen.Sublist (p :: all) ∧
        (∀ q, q ∈ chosen ↔ q ∈ p :: all ∧ skip q = false ∧ HasOne P q) ∧
        (∀ q, q ∈ chosen → chosen.count q = (p :: all).count q) ∧ List.Forall₂ (EntryOf P direct) chosen l := by
      intro h
      refine ⟨ch, hsub.trans (List.sublist_cons_self _ _), fun q => ?_, fun q hq => ?_, hf⟩
      · rw [hm q]
        constructor
        · rintro ⟨h1, h2, h3⟩; exact ⟨List.mem_cons_of_mem _ h1, h2, h3⟩
        · rintro ⟨h1, h2, h3⟩
          rcases List.mem_cons.1 h1 with rfl | h1
          · rcases h with h | h
            · rw [h] at h2; cases h2
            · exact absurd h3 h
          · exact ⟨h1, h2, h3⟩
      · have hq' := (hm q).1 hq
        have hne : p ≠ q := by
          rintro rfl
          rcases h with h | h
          · rw [h] at hq'; cases hq'.2.1
          · exact h hq'.2.2
        rw [hcount q hq, List.count_cons_of_ne hne]
    rw [DependsApi.collect]
    cases hs : skip p with
    | true =>
      simp only [if_true]
      obtain ⟨ch', h1, h2, h3, h4⟩ := out (.inl hs)
      exact ⟨l, ch', hc, h1, h2, h3, h4⟩
    | false =>
      simp only [Bool.false_eq_true, if_false]
      obtain ⟨o, ho, h1, h2⟩ := firstOf_ok counts P hP p.requires (hl p List.mem_cons_self)
      rw [ho, hc]
      cases o with
      | none =>
        have hno : ¬ HasOne P p := fun ⟨r, hr, hp⟩ => h2.1 rfl r hr hp
        obtain ⟨ch', h1, h2, h3, h4⟩ := out (.inr hno)
        exact ⟨l, ch', rfl, h1, h2, h3, h4⟩
      | some r =>
        obtain ⟨b, a, he, hp, hb⟩ := h1 r rfl
        have hone : HasOne P p := ⟨r, by rw [he]; simp, hp⟩
        refine ⟨_, p :: ch, rfl, hsub.cons_cons _, fun q => ?_, fun q hq => ?_, ?_⟩
        · simp only [List.mem_cons, hm q]
          constructor
          · rintro (rfl | ⟨h1, h2, h3⟩)
            · exact ⟨.inl rfl, hs, hone⟩
            · exact ⟨.inr h1, h2, h3⟩
          · rintro ⟨rfl | h1, h2, h3⟩
            · exact .inl rfl
            · exact .inr ⟨h1, h2, h3⟩
        · by_cases hq' : q ∈ ch
          · rw [List.count_cons, List.count_cons, hcount q hq']
          · have hqp : q = p := by
              rcases List.mem_cons.1 hq with h | h
              · exact h
              · exact absurd h hq'
            subst hqp
            have hna : q ∉ all := fun h => hq' ((hm q).2 ⟨h, hs, hone⟩)
            rw [List.count_cons_self, List.count_cons_self, List.count_eq_zero.2 hq', List.count_eq_zero.2 hna]
        · exact .cons ⟨rfl, versionShown_eq p, ⟨b, a, he, hp, hb⟩, rfl⟩ hf

theorem about_iff (target : Str) (range : Option Str) (r : Str) :
    DependsApi.Spec.Requires target range r ↔ ∃ q, PackageRequirement.parse r = .ok q ∧ about target (targetRange range) q = true := by
  unfold DependsApi.Spec.Requires
  refine exists_congr fun q => and_congr_right fun _ => ?_
  unfold DependsApi.about targetRange
  simp only [Bool.and_eq_true, beq_iff_eq]
  refine and_congr_right fun _ => ?_
  cases range with
  | none => simp
  | some t =>
    cases t with
    | nil => simp; intro t x s y h1 h2; exact absurd h1 h2
    | cons c cs =>
      simp only [List.isEmpty_cons, Bool.false_eq_true, if_false]
      cases hx : VersionRange.parse (c :: cs) with
      | none =>
        simp only [iff_true]
        intro t x s y h1 _ h3
        rw [← Option.some.inj h1, hx] at h3
        cases h3
      | some x =>
        cases hs : q.spec with
        | none => simp
        | some s =>
          simp only
          cases hy : VersionRange.parse s with
          | none =>
            simp only [iff_true]
            intro t x s' y h1 _ h3 h4 h5
            rw [← Option.some.inj h4, hy] at h5
            cases h5
          | some y =>
            simp only
            constructor
            · intro h; exact h _ x s y rfl (by simp) hx rfl hy
            · intro h t x' s' y' h1 _ h3 h4 h5
              rw [← Option.some.inj h1, hx] at h3
              rw [← Option.some.inj h4, hy] at h5
              rw [← Option.some.inj h3, ← Option.some.inj h5]
              exact h

theorem count_everything (w : World) (paths : Option (List Str)) (p : Package) :
    (everything w paths).count p = (available w paths p.name).count p := by
  unfold everything available
  induction searched w paths with
  | nil => rfl
  | cons d ds ih =>
    rw [List.flatMap_cons, List.flatMap_cons, List.count_append, List.count_append, ih]
    congr 1
    cases w.dir d with
    | none => rfl
    | some root =>
      show _ = ((onDisk root).filter fun q => q.name == p.name).count p
      rw [List.count_filter (by simp)]

theorem available_name {w : World} {paths : Option (List Str)} {n : Str} {p : Package} (h : p ∈ available w paths n) : p.name = n := by
  unfold available at h
  obtain ⟨d, _, h⟩ := List.mem_flatMap.1 h
  cases hd : w.dir d with
  | none => rw [hd] at h; cases h
  | some root =>
    rw [hd] at h
    have h : p ∈ (onDisk root).filter fun q => q.name == n := h
    simpa using (List.mem_filter.1 h).2

theorem count_families {w : World} {paths : Option (List Str)} (l : List (Str × List Package)) (hn : (l.map Prod.fst).Nodup)
    (h : ∀ f ∈ l, f.2.Perm (available w paths f.1)) (p : Package) :
    (l.flatMap Prod.snd).count p = if p.name ∈ l.map Prod.fst then (available w paths p.name).count p else 0 := by
  induction l with
  | nil => rfl
  | cons f l ih =>
    rw [List.map_cons, List.nodup_cons] at hn
    rw [List.flatMap_cons, List.count_append, ih hn.2 fun g hg => h g (List.mem_cons_of_mem _ hg),
      (h f List.mem_cons_self).count_eq]
    by_cases hp : p.name = f.1
    · rw [hp, if_neg hn.1, List.map_cons, if_pos List.mem_cons_self]
      rfl
    · have : (available w paths f.1).count p = 0 := List.count_eq_zero.2 fun hm => hp (available_name hm)
      rw [this, Nat.zero_add]
      by_cases hm : p.name ∈ l.map Prod.fst
      · rw [if_pos hm, List.map_cons, if_pos (List.mem_cons_of_mem _ hm)]
      · rw [if_neg hm, List.map_cons, if_neg fun h => (List.mem_cons.1 h).elim hp hm]

theorem families_perm {w : World} (hs : SortingOk w.srt) (paths : Option (List Str)) (hr : Readable w paths)
    (hc : ∀ n, Comparable (available w paths n)) :
    ∃ l, allFamilies w paths = .ok l ∧ (l.flatMap Prod.snd).Perm (everything w paths) := by
  obtain ⟨l, hl, hn, hi⟩ := C207_families hs paths hr hc
  refine ⟨l, hl, ?_⟩
  obtain ⟨ns, h1, h2, h3⟩ := C207_names w paths hr
  rw [hn] at h1
  cases h1
  have hnd : (l.map Prod.fst).Nodup := h2.imp fun {a b} hab h => by
    subst h
    rw [cmpStr_refl] at hab
    cases hab
  rw [List.perm_iff_count]
  intro p
  rw [count_families l hnd (fun f hf => (hi f hf).1) p, count_everything]
  split
  · rfl
  · rename_i hno
    rw [h3 p.name] at hno
    have : available w paths p.name = [] := by
      by_contra hx
      exact hno hx
    rw [this]; rfl

theorem mem_texts (l s : List Str) (x : Str) : x ∈ l.foldl sadd s ↔ x ∈ s ∨ x ∈ l := by
  induction l generalizing s with
  | nil => simp
  | cons a l ih => rw [List.foldl_cons, ih, mem_sadd]; simp; tauto

theorem nodup_texts (l s : List Str) (h : s.Nodup) : (l.foldl sadd s).Nodup := by
  induction l generalizing s with
  | nil => exact h
  | cons a l ih => exact ih _ (nodup_sadd h a)

theorem order_iff {a b : Entry} : DependsApi.cmpEntry a b ≠ .gt ↔ InOrder a b := by
  unfold DependsApi.cmpEntry InOrder
  cases h : cmpStr a.name b.name with
  | lt => simp
  | eq => simp [(cmpStr_eq_iff _ _).1 h]
  | gt =>
    have : a.name ≠ b.name := fun e => by rw [e, cmpStr_refl] at h; cases h
    simp [this]

theorem entries_sorted (l : List Entry) :
    (l.insertionSort fun a b => DependsApi.cmpEntry a b ≠ .gt).Pairwise InOrder := by
  have tr := fun a b c : Str => Std.TransCmp.isLE_trans (cmp := cmpStr) (a := a) (b := b) (c := c)
  simp only [Ordering.isLE_iff_ne_gt] at tr
  have : Std.Total fun a b : Entry => DependsApi.cmpEntry a b ≠ .gt := ⟨fun a b => by
    rw [order_iff, order_iff]
    unfold InOrder
    have h1 := cmpStr_swap a.name b.name
    have h2 := cmpStr_swap a.version b.version
    cases hn : cmpStr a.name b.name with
    | lt => exact .inl (.inl rfl)
    | gt => rw [hn] at h1; exact .inr (.inl h1.symm)
    | eq =>
      have he := (cmpStr_eq_iff _ _).1 hn
      cases hv : cmpStr a.version b.version with
      | lt => exact .inl (.inr ⟨he, by simp⟩)
      | eq => exact .inl (.inr ⟨he, by simp⟩)
      | gt => rw [hv] at h2; exact .inr (.inr ⟨he.symm, by rw [← h2]; simp [Ordering.swap]⟩)⟩
  have : IsTrans Entry fun a b => DependsApi.cmpEntry a b ≠ .gt := ⟨fun a b c h1 h2 => by
    rw [order_iff] at h1 h2 ⊢
    unfold InOrder at *
    have lt_of : ∀ x y z : Str, cmpStr x y = .lt → cmpStr y z = .lt → cmpStr x z = .lt := by
      intro x y z hx hy
      cases hc : cmpStr x z with
      | lt => rfl
      | eq =>
        have := (cmpStr_eq_iff _ _).1 hc
        subst this
        have := cmpStr_swap x y
        rw [hx, hy] at this
        cases this
      | gt => exact absurd hc (tr x y z (by rw [hx]; simp) (by rw [hy]; simp))
    rcases h1 with h1 | ⟨h1, h1'⟩ <;> rcases h2 with h2 | ⟨h2, h2'⟩
    · exact .inl (lt_of _ _ _ h1 h2)
    · exact .inl (h2 ▸ h1)
    · exact .inl (h1 ▸ h2)
    · exact .inr ⟨h1.trans h2, tr _ _ _ h1' h2'⟩⟩
  refine (List.pairwise_insertionSort _ l).imp ?_
  intro a b h
  exact order_iff.1 h

end DependsApiLemmas
open DependsApiLemmas

/-- C224: the direct dependents are the packages in the directories, other than the queried one, with a requirement of it of the
range; each is told as often as it is there, with the first such requirement. -/
theorem C224_direct {w : World} (hs : SortingOk w.srt) (target : Str) (range : Option Str) (paths : Option (List Str)) (tr : Bool)
    (hr : Readable w paths) (hc : ∀ n, Comparable (available w paths n)) (hl : Legible (everything w paths)) :
    ∃ r chosen, reverse w target range paths tr = .ok r ∧ r.queried = target ∧
      (∀ p, p ∈ chosen ↔ p ∈ everything w paths ∧ p.name ≠ target ∧ HasOne (DependsApi.Spec.Requires target range) p) ∧
      (∀ p ∈ chosen, chosen.count p = (everything w paths).count p) ∧
      List.Forall₂ (EntryOf (DependsApi.Spec.Requires target range) true) chosen r.direct := by
  obtain ⟨l, hl', hp⟩ := families_perm hs paths hr hc
  have hleg : Legible (l.flatMap Prod.snd) := fun p hp' => hl p (hp.mem_iff.1 hp')
  obtain ⟨d, ch, hd, -, hm, hcount, hf⟩ := collected_ok (fun p => p.name == target) (about target (targetRange range)) true
    (DependsApi.Spec.Requires target range) (about_iff target range) (l.flatMap Prod.snd) hleg
  obtain ⟨t, -, ht, -⟩ := collected_ok (fun p => p.name == target || (d.map (·.name)).contains p.name)
    (fun q => (d.map (·.name)).contains q.name) false
    (fun r => ∃ q, PackageRequirement.parse r = .ok q ∧ (d.map (·.name)).contains q.name = true) (fun _ => Iff.rfl) (l.flatMap Prod.snd) hleg
  refine ⟨⟨target, d, if tr then t else []⟩, ch, ?_, rfl, fun p => ?_, fun p hp' => ?_, hf⟩
  · unfold reverse dependsOf
    rw [hl']
    simp only [hd]
    cases tr with
    | true => simp only [if_true, ht]
    | false => rfl
  · rw [hm p, hp.mem_iff]
    simp
  · rw [hcount p hp', hp.count_eq]

/-- C224: the others that are told are those one step further: the packages, neither of the queried name nor of the name of a direct
dependent, with a requirement of a direct dependent.  Without `transitive` there are none. -/
theorem C224_transitive {w : World} (hs : SortingOk w.srt) (target : Str) (range : Option Str) (paths : Option (List Str))
    (hr : Readable w paths) (hc : ∀ n, Comparable (available w paths n)) (hl : Legible (everything w paths)) :
    ∃ r chosen, reverse w target range paths true = .ok r ∧
      (∀ p, p ∈ chosen ↔ p ∈ everything w paths ∧ p.name ≠ target ∧ p.name ∉ r.direct.map (·.name) ∧
        HasOne (OfOne (r.direct.map (·.name))) p) ∧
      (∀ p ∈ chosen, chosen.count p = (everything w paths).count p) ∧
      List.Forall₂ (EntryOf (OfOne (r.direct.map (·.name))) false) chosen r.transitive ∧
      reverse w target range paths false = .ok { r with transitive := [] } := by
  obtain ⟨l, hl', hp⟩ := families_perm hs paths hr hc
  have hleg : Legible (l.flatMap Prod.snd) := fun p hp' => hl p (hp.mem_iff.1 hp')
  obtain ⟨d, -, hd, -⟩ := collected_ok (fun p => p.name == target) (about target (targetRange range)) true
    (DependsApi.Spec.Requires target range) (about_iff target range) (l.flatMap Prod.snd) hleg
  obtain ⟨t, ch, ht, -, hm, hcount, hf⟩ := collected_ok (fun p => p.name == target || (d.map (·.name)).contains p.name)
    (fun q => (d.map (·.name)).contains q.name) false
    (OfOne (d.map (·.name))) (fun r => by simp [OfOne]) (l.flatMap Prod.snd) hleg
  refine ⟨⟨target, d, t⟩, ch, ?_, fun p => ?_, fun p hp' => ?_, hf, ?_⟩
  · unfold reverse dependsOf
    rw [hl']
    simp only [hd, if_true, ht]
  · rw [hm p, hp.mem_iff]
    simp
    tauto
  · rw [hcount p hp', hp.count_eq]
  · unfold reverse dependsOf
    rw [hl']
    simp only [hd, Bool.false_eq_true, if_false]

/-- C224: the flat list has `name-version` of every direct dependent once, in the order of texts. -/
theorem C224_names (w : World) (target : Str) (range : Option Str) (paths : Option (List Str)) (r : Result)
    (h : reverse w target range paths false = .ok r) :
    ∃ l, dependants w target range paths = .ok l ∧ Ascending l ∧
      ∀ s, s ∈ l ↔ ∃ e ∈ r.direct, s = e.name ++ c!"-" ++ e.version := by
  obtain ⟨h1, h2⟩ := SearchLemmas.dedup_spec (Search.sortStr (r.direct.map Entry.shown)) (SearchLemmas.sortStr_sorted _)
  refine ⟨_, by unfold dependants; rw [h], h1, fun s => ?_⟩
  rw [h2, (SearchLemmas.sortStr_perm _).mem_iff, List.mem_map]
  exact ⟨fun ⟨e, he, hs⟩ => ⟨e, he, hs.symm⟩, fun ⟨e, he, hs⟩ => ⟨e, he, hs.symm⟩⟩

/-- C224: the total is the number of different `name-version`. -/
theorem C224_total (r : Result) (l : List Str) (hn : l.Nodup)
    (hl : ∀ s, s ∈ l ↔ ∃ e ∈ r.direct ++ r.transitive, s = e.name ++ c!"-" ++ e.version) : r.total = l.length := by
  unfold Result.total
  refine List.Perm.length_eq ((List.perm_ext_iff_of_nodup (nodup_texts _ _ List.nodup_nil) hn).2 fun s => ?_)
  rw [mem_texts, hl s, List.mem_map]
  simp only [List.not_mem_nil, false_or]
  exact ⟨fun ⟨e, he, hs⟩ => ⟨e, he, hs.symm⟩, fun ⟨e, he, hs⟩ => ⟨e, he, hs.symm⟩⟩

/-- C224: every dependent gets a line, the direct ones first, each group by name and version. -/
theorem C224_printed (r : Result) : ∃ ds ts, ds.Perm r.direct ∧ ts.Perm r.transitive ∧ ds.Pairwise InOrder ∧ ts.Pairwise InOrder ∧
    lines r = (c!"Reverse dependencies for '" ++ r.queried ++ c!"':") ::
      ((if ds = [] ∧ ts = [] then [c!"  (no dependants found)"] else []) ++
      (if ds = [] then [] else c!"  Direct:" :: ds.map lineOf) ++ (if ts = [] then [] else c!"  Transitive:" :: ts.map lineOf)) := by
  refine ⟨_, _, List.perm_insertionSort (fun a b => DependsApi.cmpEntry a b ≠ .gt) r.direct,
    List.perm_insertionSort (fun a b => DependsApi.cmpEntry a b ≠ .gt) r.transitive, entries_sorted _, entries_sorted _, ?_⟩
  have hz : ∀ l : List Entry, (l.insertionSort fun a b => DependsApi.cmpEntry a b ≠ .gt) = [] ↔ l = [] := by
    intro l
    rw [← List.length_eq_zero_iff, List.length_insertionSort, List.length_eq_zero_iff]
  simp only [hz]
  unfold lines DependsApi.group
  cases hd : r.direct with
  | nil =>
    cases ht : r.transitive with
    | nil => rfl
    | cons t ts => simp [lineOf]
  | cons d ds =>
    cases ht : r.transitive with
    | nil => simp [lineOf]
    | cons t ts =>
      have : (fun e => lineOf e) = lineOf := rfl
      rw [← this]
      simp [lineOf]

/-- A package of the examples. -/
def needing (n : Str) (rs : List Str) : Package := ⟨n, Version.parse c!"1", rs, [], [], none⟩

/-- A machine with these packages. -/
def needWorld (ps : List Package) : World := queryWorld [(c!"/site", some (ps.map fun p => (p.name, .package (.ok p))))]

/-- The machine of the examples: `b` requires `a-2`, `c` requires `b`, `d` requires `c`, `e` conflicts with `a`. -/
def chainWorld : World := needWorld [needing c!"a" [], needing c!"b" [c!"x", c!"a-2"], needing c!"c" [c!"b"], needing c!"d" [c!"c"],
  needing c!"e" [c!"!a"]]

theorem chain_readable : Readable chainWorld none := by
  intro d hd root hroot
  have : d = c!"/home/me/packages" ∨ d = c!"/site" := by simpa [searched, chainWorld, needWorld, queryWorld, atHome] using hd
  rcases this with rfl | rfl
  · cases hroot
  · cases hroot; exact ⟨_, rfl, by simp [CleanBelow, Clean]⟩

theorem chain_comparable (n : Str) : Comparable (available chainWorld none n) := by
  have h1 : ∀ p ∈ everything chainWorld none, p.version = Version.parse c!"1" := by decide +kernel
  have h2 : ∀ p ∈ available chainWorld none n, p.version = Version.parse c!"1" := by
    intro p hp
    apply h1
    rw [← List.count_pos_iff, count_everything, List.count_pos_iff]
    rw [available_name hp]; exact hp
  intro p hp q hq r hr u v x hu hv hx
  rw [h2 p hp] at hu; rw [h2 q hq] at hv; rw [h2 r hr] at hx
  rw [hu] at hv hx
  cases hv; cases hx
  intro h _; exact h

example : SortingOk chainWorld.srt ∧ Readable chainWorld none ∧ (∀ n, Comparable (available chainWorld none n)) ∧
    Legible (everything chainWorld none) :=
  ⟨demoSorting_ok, chain_readable, chain_comparable, by unfold Legible; decide +kernel⟩

example : reverse chainWorld c!"a" (some c!">=2") none true =
    .ok ⟨c!"a", [⟨c!"b", c!"1", c!"a-2", true⟩, ⟨c!"e", c!"1", c!"!a", true⟩], [⟨c!"c", c!"1", c!"b", false⟩]⟩ := by decide +kernel

/-- The wider readings are false: `transitive` goes one step and no further, so `d`, which needs `a` through `c` and `b`, is not
among all transitive dependents. -/
theorem C224_far_false : ∃ r, reverse chainWorld c!"a" none none true = .ok r ∧ c!"d" ∉ (r.direct ++ r.transitive).map (·.name) ∧
    c!"b" ∈ r.direct.map (·.name) ∧ c!"c" ∈ r.transitive.map (·.name) ∧ needing c!"d" [c!"c"] ∈ everything chainWorld none := by
  refine ⟨⟨c!"a", [⟨c!"b", c!"1", c!"a-2", true⟩, ⟨c!"e", c!"1", c!"!a", true⟩], [⟨c!"c", c!"1", c!"b", false⟩]⟩, ?_, ?_, ?_, ?_, ?_⟩ <;>
    decide +kernel

/-- A package that must not be used with another counts as depending on it. -/
theorem C224_conflict_false : (∃ r, reverse chainWorld c!"a" none none false = .ok r ∧ c!"e" ∈ r.direct.map (·.name)) ∧
    ∃ q, PackageRequirement.parse c!"!a" = .ok q ∧ q.conflict = true :=
  ⟨⟨⟨c!"a", [⟨c!"b", c!"1", c!"a-2", true⟩, ⟨c!"e", c!"1", c!"!a", true⟩], []⟩, by decide +kernel, by decide +kernel⟩,
   ⟨⟨c!"a", none, false, true⟩, by decide +kernel, rfl⟩⟩

/-- What only the variants of a package require is not seen. -/
theorem C224_variants_false : let p : Package := ⟨c!"b", Version.parse c!"1", [], [[c!"a"]], [], none⟩
    reverse (needWorld [p]) c!"a" none none true = .ok ⟨c!"a", [], []⟩ := by
  intro p
  decide +kernel

/-- One requirement somewhere, of whatever, can make every such question panic. -/
theorem C224_panic_false : reverse (needWorld [needing c!"z" [c!" é"]]) c!"a" none none false = .panic := by decide +kernel

/-- A range that cannot be read is no range. -/
theorem C224_range (w : World) (target t : Str) (paths : Option (List Str)) (tr : Bool) (h : t = [] ∨ VersionRange.parse t = none) :
    reverse w target (some t) paths tr = reverse w target none paths tr := by
  have : targetRange (some t) = targetRange none := by
    unfold targetRange
    rcases h with rfl | h
    · rfl
    · simp [h]
  unfold reverse dependsOf
  rw [this]

/-- When a directory that is searched cannot be read, the question fails. -/
theorem C224_unreadable (w : World) (target : Str) (range : Option Str) (paths : Option (List Str)) (tr : Bool) (d : Str)
    (hd : d ∈ searched w paths) (h : w.dir d = some none) :
    reverse w target range paths tr = .err ∧ dependants w target range paths = .err := by
  have := (C207_unreadable w paths d [] hd h).2.1
  constructor
  · unfold reverse; rw [this]
  · unfold dependants reverse; rw [this]

end Rez.Props
