import Verif.Spec.Search
import Verif.Props.Repository
import Verif.Props.Shell
/-!
# C69, C112, C113: searching
-/
namespace Rez.Props
open Rez Rez.Repository Rez.PackageOrder Rez.Search Rez.Spec Rez.Spec.Repository Rez.Spec.Search

namespace SearchLemmas

theorem sortStr_perm (l : List Str) : (sortStr l).Perm l := List.perm_insertionSort _ l

theorem sortStr_sorted (l : List Str) : (sortStr l).Pairwise fun a b => cmpStr a b ≠ .gt := by
  have : Std.Total fun a b : Str => cmpStr a b ≠ .gt := ⟨fun a b => by
    have := cmpStr_swap a b
    cases h : cmpStr a b <;> rw [h] at this <;> simp_all [Ordering.swap] <;> rw [← this] <;> simp⟩
  have : IsTrans Str fun a b => cmpStr a b ≠ .gt := ⟨fun a b c h1 h2 => by
    have := Std.TransCmp.isLE_trans (cmp := cmpStr) (a := a) (b := b) (c := c)
    exact Ordering.isLE_iff_ne_gt.mp (this (Ordering.isLE_iff_ne_gt.mpr h1) (Ordering.isLE_iff_ne_gt.mpr h2))⟩
  exact List.pairwise_insertionSort _ l

theorem ascending_of {l : List Str} (h : l.Pairwise fun a b => cmpStr a b ≠ .gt) (hn : l.Nodup) : Ascending l := by
  have := h.and hn
  refine this.imp ?_
  rintro a b ⟨h1, h2⟩
  cases hc : cmpStr a b with
  | lt => rfl
  | eq => exact absurd ((cmpStr_eq_iff a b).mp hc) h2
  | gt => exact absurd hc h1

theorem gather_spec (pass : Family → Bool) (fs : List Family) (acc : List Str) (hn : acc.Nodup) :
    (gather pass fs acc).Nodup ∧ ∀ x, x ∈ gather pass fs acc ↔ x ∈ acc ∨ ∃ f ∈ fs, f.name = x ∧ pass f = true := by
  induction fs generalizing acc with
  | nil => exact ⟨hn, fun x => by simp [gather]⟩
  | cons f fs ih =>
    rw [gather]
    split
    · rename_i hc
      have hc : f.name ∈ acc := by simpa using hc
      obtain ⟨h1, h2⟩ := ih acc hn
      refine ⟨h1, fun x => ?_⟩
      rw [h2 x]
      constructor
      · rintro (h | ⟨g, hg, h⟩)
        · exact Or.inl h
        · exact Or.inr ⟨g, List.mem_cons_of_mem _ hg, h⟩
      · rintro (h | ⟨g, hg, h, hp⟩)
        · exact Or.inl h
        · rcases List.mem_cons.mp hg with rfl | hg
          · exact Or.inl (h ▸ hc)
          · exact Or.inr ⟨g, hg, h, hp⟩
    · rename_i hc
      have hc : f.name ∉ acc := by simpa using hc
      split
      · rename_i hp
        obtain ⟨h1, h2⟩ := ih (acc ++ [f.name]) (by
          rw [List.nodup_append]
          exact ⟨hn, by simp, fun a ha b hb => by rw [List.mem_singleton.mp hb]; rintro rfl; exact hc ha⟩)
        refine ⟨h1, fun x => ?_⟩
        rw [h2 x, List.mem_append, List.mem_singleton]
        constructor
        · rintro ((h | h) | ⟨g, hg, h⟩)
          · exact Or.inl h
          · exact Or.inr ⟨f, List.mem_cons_self, h.symm, hp⟩
          · exact Or.inr ⟨g, List.mem_cons_of_mem _ hg, h⟩
        · rintro (h | ⟨g, hg, h, hq⟩)
          · exact Or.inl (Or.inl h)
          · rcases List.mem_cons.mp hg with rfl | hg
            · exact Or.inl (Or.inr h.symm)
            · exact Or.inr ⟨g, hg, h, hq⟩
      · rename_i hp
        obtain ⟨h1, h2⟩ := ih acc hn
        refine ⟨h1, fun x => ?_⟩
        rw [h2 x]
        constructor
        · rintro (h | ⟨g, hg, h⟩)
          · exact Or.inl h
          · exact Or.inr ⟨g, List.mem_cons_of_mem _ hg, h⟩
        · rintro (h | ⟨g, hg, h, hq⟩)
          · exact Or.inl h
          · rcases List.mem_cons.mp hg with rfl | hg
            · exact absurd hq hp
            · exact Or.inr ⟨g, hg, h, hq⟩

theorem gathered (pass : Family → Bool) (paths : List (Option (List Family))) :
    Ascending (sortStr (gather pass (paths.flatMap fun p => p.getD []) [])) ∧
    ∀ x, x ∈ sortStr (gather pass (paths.flatMap fun p => p.getD []) []) ↔
      ∃ fs, some fs ∈ paths ∧ ∃ f ∈ fs, f.name = x ∧ pass f = true := by
  obtain ⟨h1, h2⟩ := gather_spec pass (paths.flatMap fun p => p.getD []) [] List.nodup_nil
  refine ⟨ascending_of (sortStr_sorted _) ((sortStr_perm _).nodup_iff.mpr h1), fun x => ?_⟩
  rw [(sortStr_perm _).mem_iff, h2 x]
  simp only [List.not_mem_nil, false_or, List.mem_flatMap]
  constructor
  · rintro ⟨f, ⟨p, hp, hf⟩, h⟩
    cases p with
    | none => cases hf
    | some fs => exact ⟨fs, hp, f, hf, h⟩
  · rintro ⟨fs, hp, f, hf, h⟩
    exact ⟨f, ⟨some fs, hp, hf⟩, h⟩

/-! ### breadth first -/

theorem expand_eq (deps : Str → List Str) (b : Bfs) (layer : List Str) :
    expand deps b layer = (layer.flatMap fun p => (deps p).map (Prod.mk p)).foldl (fun b x => visit x.1 b x.2) b := by
  unfold expand
  induction layer generalizing b with
  | nil => rfl
  | cons p layer ih =>
    rw [List.foldl_cons, List.flatMap_cons, List.foldl_append, ih, List.foldl_map]

theorem mdel_absent {m : List (Str × List Str)} {k : Str} (h : k ∉ mkeys m) : mdel m k = m := by
  unfold mdel
  rw [List.filter_eq_self]
  intro e he
  have : e.1 ≠ k := by
    rintro rfl
    exact h (List.mem_map_of_mem he)
  simpa using this

theorem flat_mset (m : List (Str × List Str)) (k d : Str) (hn : (mkeys m).Nodup) :
    ((mset m k ((mget m k).getD [] ++ [d])).flatMap Prod.snd).Perm (d :: m.flatMap Prod.snd) := by
  have key : ((mget m k).getD [] ++ (mdel m k).flatMap Prod.snd).Perm (m.flatMap Prod.snd) := by
    induction m with
    | nil => simp [mdel]
    | cons e m ih =>
      obtain ⟨j, ds⟩ := e
      rw [mkeys, List.map_cons, List.nodup_cons] at hn
      by_cases h : j = k
      · subst h
        have hd : mdel ((j, ds) :: m) j = m := by
          have := mdel_absent hn.1
          unfold mdel at this ⊢
          rw [List.filter_cons_of_neg (by simp), this]
        rw [hd]
        simp [mget]
      · have hd : mdel ((j, ds) :: m) k = (j, ds) :: mdel m k := by
          unfold mdel
          rw [List.filter_cons_of_pos (by simp [h])]
        rw [hd]
        simp only [mget, if_neg h, List.flatMap_cons]
        rw [← List.append_assoc]
        refine (List.Perm.append_right _ List.perm_append_comm).trans ?_
        rw [List.append_assoc]
        exact List.Perm.append_left ds (ih hn.2)
  unfold mset
  rw [List.flatMap_cons]
  simp only [List.append_assoc, List.singleton_append]
  exact List.perm_middle.trans (List.Perm.cons d key)

theorem visits (xs : List (Str × Str)) (b : Bfs) (v0 : List Str) (hv : b.visited = v0 ++ b.next) (hn : b.visited.Nodup)
    (hk : (mkeys b.graph).Nodup) :
    let r := xs.foldl (fun b x => visit x.1 b x.2) b
    r.visited = v0 ++ r.next ∧ r.visited.Nodup ∧ (mkeys r.graph).Nodup ∧
    (∀ d, d ∈ r.visited ↔ d ∈ b.visited ∨ ∃ p, (p, d) ∈ xs) ∧
    (∀ p d, d ∈ (mget r.graph p).getD [] → d ∈ (mget b.graph p).getD [] ∨ (p, d) ∈ xs ∧ d ∉ b.visited) ∧
    ∃ new, r.visited = b.visited ++ new ∧ (r.graph.flatMap Prod.snd).Perm (b.graph.flatMap Prod.snd ++ new) := by
  induction xs generalizing b with
  | nil => exact ⟨hv, hn, hk, fun d => by simp, fun p d h => Or.inl h, [], by simp, by simp⟩
  | cons x xs ih =>
    obtain ⟨p, d⟩ := x
    simp only [List.foldl_cons]
    by_cases hd : d ∈ b.visited
    · have hvis : visit p b d = b := by simp [visit, hd]
      rw [hvis]
      obtain ⟨h1, h2, h2', h3, h4, h5⟩ := ih b hv hn hk
      refine ⟨h1, h2, h2', fun e => ?_, fun q e h => ?_, h5⟩
      · rw [h3 e]
        constructor
        · rintro (h | ⟨q, h⟩)
          · exact Or.inl h
          · exact Or.inr ⟨q, List.mem_cons_of_mem _ h⟩
        · rintro (h | ⟨q, h⟩)
          · exact Or.inl h
          · rcases List.mem_cons.mp h with h | h
            · cases h; exact Or.inl hd
            · exact Or.inr ⟨q, h⟩
      · rcases h4 q e h with h | ⟨h, hb⟩
        · exact Or.inl h
        · exact Or.inr ⟨List.mem_cons_of_mem _ h, hb⟩
    · have hvis : visit p b d = ⟨b.visited ++ [d], b.next ++ [d], mset b.graph p ((mget b.graph p).getD [] ++ [d])⟩ := by
        simp [visit, hd]
      rw [hvis]
      obtain ⟨h1, h2, h2', h3, h4, new, h5, h6⟩ := ih ⟨b.visited ++ [d], b.next ++ [d], mset b.graph p ((mget b.graph p).getD [] ++ [d])⟩
        (by simp [hv]) (by
          simp only
          rw [List.nodup_append]
          exact ⟨hn, by simp, fun a ha c hc => by rw [List.mem_singleton.mp hc]; rintro rfl; exact hd ha⟩) (nodup_mset hk _ _)
      refine ⟨h1, h2, h2', fun e => ?_, fun q e h => ?_, d :: new, by rw [h5]; simp, ?_⟩
      · rw [h3 e]
        simp only [List.mem_append, List.mem_cons, List.not_mem_nil, or_false, Prod.mk.injEq]
        constructor
        · rintro ((h | h) | ⟨q, h⟩)
          · exact Or.inl h
          · exact Or.inr ⟨p, Or.inl ⟨rfl, h⟩⟩
          · exact Or.inr ⟨q, Or.inr h⟩
        · rintro (h | ⟨q, ⟨_, h⟩ | h⟩)
          · exact Or.inl (Or.inl h)
          · exact Or.inl (Or.inr h)
          · exact Or.inr ⟨q, h⟩
      · rcases h4 q e h with h | ⟨h, hb⟩
        · simp only [mget_mset] at h
          split at h
          · rename_i hq
            subst hq
            simp only [Option.getD_some, List.mem_append, List.mem_singleton] at h
            rcases h with h | rfl
            · exact Or.inl h
            · exact Or.inr ⟨List.mem_cons_self, hd⟩
          · exact Or.inl h
        · exact Or.inr ⟨List.mem_cons_of_mem _ h, fun hh => hb (List.mem_append_left _ hh)⟩
      · refine h6.trans ?_
        simp only
        refine ((flat_mset b.graph p d hk).append_right new).trans ?_
        exact List.perm_middle.symm

theorem level_pred {deps : Str → List Str} {a x : Str} {k : Nat} (h : Level deps a (k + 1) x) :
    ∃ p, Level deps a k p ∧ x ∈ deps p := by
  obtain ⟨⟨p, hp, hx⟩, hmin⟩ := h
  refine ⟨p, ⟨hp, fun j hj hr => ?_⟩, hx⟩
  exact hmin (j + 1) (by omega) ⟨p, hr, hx⟩

theorem level_unique {deps : Str → List Str} {a x : Str} {j k : Nat} (hj : Level deps a j x) (hk : Level deps a k x) : j = k := by
  rcases Nat.lt_trichotomy j k with h | h | h
  · exact absurd hj.1 (hk.2 j h)
  · exact h
  · exact absurd hk.1 (hj.2 k h)

theorem level_of_reach {deps : Str → List Str} {a x : Str} {k : Nat} (h : Reach deps a k x) : ∃ j ≤ k, Level deps a j x := by
  induction k using Nat.strongRecOn generalizing x with
  | _ k ih =>
    by_cases hm : ∃ j < k, Reach deps a j x
    · obtain ⟨j, hj, hr⟩ := hm
      obtain ⟨i, hi, hl⟩ := ih j hj hr
      exact ⟨i, by omega, hl⟩
    · exact ⟨k, Nat.le_refl k, h, fun j hj hr => hm ⟨j, hj, hr⟩⟩

theorem level_below {deps : Str → List Str} {a x : Str} {j k : Nat} (h : Level deps a k x) (hj : j ≤ k) : ∃ y, Level deps a j y := by
  induction k generalizing x with
  | zero => exact ⟨x, by have : j = 0 := by omega
                         subst this; exact h⟩
  | succ k ih =>
    by_cases he : j = k + 1
    · subst he; exact ⟨x, h⟩
    · obtain ⟨p, hp, _⟩ := level_pred h
      exact ih hp (by omega)

/-- The state of the search after `k` layers. -/
structure BInv (deps : Str → List Str) (a : Str) (k : Nat) (layer visited : List Str) (layers : List (List Str))
    (graph : List (Str × List Str)) : Prop where
  len : layers.length = if layer = [] then k else k + 1
  mem : ∀ j l, layers[j]? = some l → ∀ x, x ∈ l ↔ Level deps a j x
  inLayer : ∀ x, x ∈ layer ↔ Level deps a k x
  seen : ∀ x, x ∈ visited ↔ ∃ j ≤ k, Level deps a j x
  flat : layers.flatten = visited
  nodup : visited.Nodup
  keys : (mkeys graph).Nodup
  nonempty : ∀ l ∈ layers, l ≠ []
  edges : ∀ p d, d ∈ (mget graph p).getD [] → d ∈ deps p ∧ ∃ j, Level deps a j p ∧ Level deps a (j + 1) d
  once : ∃ rest, visited = a :: rest ∧ (graph.flatMap Prod.snd).Perm rest

theorem inv_zero (deps : Str → List Str) (a : Str) : BInv deps a 0 [a] [a] [[a]] [] := by
  have h0 : ∀ x, x ∈ [a] ↔ Level deps a 0 x := by
    intro x
    rw [List.mem_singleton]
    exact ⟨fun h => ⟨h, fun j hj => absurd hj (by omega)⟩, fun h => h.1⟩
  refine ⟨rfl, ?_, h0, ?_, rfl, by simp, by simp [mkeys], by simp, ?_, [], rfl, by simp⟩
  · intro j l hl
    cases j with
    | zero => cases hl; exact h0
    | succ j => simp at hl
  · intro x
    rw [h0]
    constructor
    · exact fun h => ⟨0, Nat.le_refl 0, h⟩
    · rintro ⟨j, hj, h⟩
      have : j = 0 := by omega
      subst this
      exact h
  · intro p d h
    simp [mget] at h

theorem inv_step {deps : Str → List Str} {a : Str} {k : Nat} {layer visited : List Str} {layers : List (List Str)}
    {graph : List (Str × List Str)} (h : BInv deps a k layer visited layers graph) (hne : layer ≠ []) :
    let b := expand deps ⟨visited, [], graph⟩ layer
    BInv deps a (k + 1) b.next b.visited (if b.next.isEmpty then layers else layers ++ [b.next]) b.graph := by
  intro b
  obtain ⟨h1, h2, h2', h3, h4, new, h5, h6⟩ := visits (layer.flatMap fun p => (deps p).map (Prod.mk p)) ⟨visited, [], graph⟩ visited
    (by simp) h.nodup h.keys
  rw [← expand_eq] at h1 h2 h2' h3 h4 h5 h6
  have hpair : ∀ p d, (p, d) ∈ (layer.flatMap fun p => (deps p).map (Prod.mk p)) ↔ p ∈ layer ∧ d ∈ deps p := by
    intro p d
    simp only [List.mem_flatMap, List.mem_map, Prod.mk.injEq]
    constructor
    · rintro ⟨q, hq, e, he, rfl, rfl⟩; exact ⟨hq, he⟩
    · rintro ⟨hp, hd⟩; exact ⟨p, hp, d, hd, rfl, rfl⟩
  have hnew : new = b.next := by
    have : visited ++ new = visited ++ b.next := by rw [← h5, h1]
    exact List.append_cancel_left this
  have hnotin : ∀ x ∈ b.next, x ∉ visited := by
    intro x hx hv
    rw [h1, List.nodup_append] at h2
    exact h2.2.2 x hv x hx rfl
  have hlen := h.len
  rw [if_neg hne] at hlen
  have hlevel : ∀ x, x ∈ b.next ↔ Level deps a (k + 1) x := by
    intro x
    constructor
    · intro hx
      have hm : x ∈ b.visited := by rw [h1]; exact List.mem_append_right _ hx
      rcases (h3 x).mp hm with hv | ⟨p, hp⟩
      · exact absurd hv (hnotin x hx)
      · obtain ⟨hp, hd⟩ := (hpair p x).mp hp
        have hl := (h.inLayer p).mp hp
        refine ⟨⟨p, hl.1, hd⟩, fun j hj hr => ?_⟩
        obtain ⟨i, hi, hli⟩ := level_of_reach hr
        exact hnotin x hx ((h.seen x).mpr ⟨i, by omega, hli⟩)
    · intro hx
      obtain ⟨p, hp, hd⟩ := level_pred hx
      have hm : x ∈ b.visited := (h3 x).mpr (Or.inr ⟨p, (hpair p x).mpr ⟨(h.inLayer p).mpr hp, hd⟩⟩)
      rw [h1, List.mem_append] at hm
      rcases hm with hm | hm
      · obtain ⟨j, hj, hl⟩ := (h.seen x).mp hm
        have := level_unique hl hx
        omega
      · exact hm
  refine ⟨?_, ?_, hlevel, ?_, ?_, h2, h2', ?_, ?_, ?_⟩
  · cases hb : b.next with
    | nil => simpa using hlen
    | cons x xs => simp [hlen]
  · intro j l hl
    split at hl
    · exact h.mem j l hl
    · by_cases hj : j < layers.length
      · rw [List.getElem?_append_left hj] at hl
        exact h.mem j l hl
      · rw [List.getElem?_append_right (by omega)] at hl
        have hj0 : j - layers.length = 0 := by
          by_contra hne0
          rw [List.getElem?_eq_none (by simp; omega)] at hl
          cases hl
        rw [hj0] at hl
        cases hl
        have : j = k + 1 := by omega
        subst this
        exact hlevel
  · intro x
    rw [h1, List.mem_append, h.seen, hlevel]
    constructor
    · rintro (⟨j, hj, hl⟩ | hl)
      · exact ⟨j, by omega, hl⟩
      · exact ⟨k + 1, Nat.le_refl _, hl⟩
    · rintro ⟨j, hj, hl⟩
      by_cases he : j = k + 1
      · subst he; exact Or.inr hl
      · exact Or.inl ⟨j, by omega, hl⟩
  · split
    · rename_i he
      rw [List.isEmpty_iff] at he
      rw [h.flat, h1, he, List.append_nil]
    · rw [List.flatten_append, h.flat]
      refine Eq.trans ?_ h1.symm
      simp [b]
  · intro l hl
    split at hl
    · exact h.nonempty l hl
    · rename_i he
      rcases List.mem_append.mp hl with hl | hl
      · exact h.nonempty l hl
      · rw [List.mem_singleton.mp hl]
        intro h0
        rw [h0] at he
        simp at he
  · intro p d hd
    rcases h4 p d hd with hd | ⟨hd, hv⟩
    · exact h.edges p d hd
    · obtain ⟨hp, hd'⟩ := (hpair p d).mp hd
      refine ⟨hd', k, (h.inLayer p).mp hp, (hlevel d).mp ?_⟩
      have hm : d ∈ b.visited := (h3 d).mpr (Or.inr ⟨p, hd⟩)
      rw [h1, List.mem_append] at hm
      exact hm.resolve_left hv
  · obtain ⟨rest, hr, hp⟩ := h.once
    refine ⟨rest ++ new, ?_, h6.trans (hp.append_right new)⟩
    rw [h5]
    simp [hr]

/-- What the search returns. -/
theorem bfs_spec {deps : Str → List Str} {a : Str} (fuel : Nat) {k : Nat} {depth : Option Nat} {layer visited : List Str}
    {layers : List (List Str)} {graph : List (Str × List Str)} (h : BInv deps a k layer visited layers graph)
    {r : List (List Str) × List (Str × List Str)} (hr : bfs deps fuel depth layer visited layers graph = some r) :
    ∃ k' layer' visited', BInv deps a k' layer' visited' r.1 r.2 ∧ (layer' = [] ∨ ∃ d, depth = some d ∧ k' = k + d) ∧
      ∀ d, depth = some d → k' ≤ k + d := by
  induction fuel generalizing k depth layer visited layers graph with
  | zero =>
    rw [bfs] at hr
    split at hr
    · rename_i hc
      cases hr
      simp only [Bool.or_eq_true, List.isEmpty_iff, beq_iff_eq] at hc
      refine ⟨k, layer, visited, h, ?_, fun d _ => by omega⟩
      rcases hc with hc | hc
      · exact Or.inl hc
      · exact Or.inr ⟨0, hc, rfl⟩
    · cases hr
  | succ fuel ih =>
    rw [bfs] at hr
    split at hr
    · rename_i hc
      cases hr
      simp only [Bool.or_eq_true, List.isEmpty_iff, beq_iff_eq] at hc
      refine ⟨k, layer, visited, h, ?_, fun d _ => by omega⟩
      rcases hc with hc | hc
      · exact Or.inl hc
      · exact Or.inr ⟨0, hc, rfl⟩
    · rename_i hc
      simp only [Bool.or_eq_true, List.isEmpty_iff, beq_iff_eq, not_or] at hc
      obtain ⟨k', l', v', hi, hd, hle⟩ := ih (inv_step h hc.1) hr
      have hpos : ∀ d, depth = some d → d ≠ 0 := by
        rintro d rfl rfl; exact hc.2 rfl
      refine ⟨k', l', v', hi, ?_, fun d he => ?_⟩
      · rcases hd with hd | ⟨d, hd, hk⟩
        · exact Or.inl hd
        · cases depth with
          | none => cases hd
          | some e =>
            simp only [Option.map_some, Option.some.injEq] at hd
            have := hpos e rfl
            exact Or.inr ⟨e, rfl, by omega⟩
      · have := hle (d - 1) (by rw [he]; rfl)
        have := hpos d he
        omega

theorem bfs_ends {deps : Str → List Str} {all : List Str} (hall : ∀ p, ∀ d ∈ deps p, d ∈ all) (fuel : Nat) {a : Str} {k : Nat}
    {depth : Option Nat} {layer visited : List Str} {layers : List (List Str)} {graph : List (Str × List Str)}
    (h : BInv deps a k layer visited layers graph) (hsub : ∀ x ∈ visited, x = a ∨ x ∈ all)
    (hf : all.length + 2 ≤ fuel + visited.length + (if layer = [] then 1 else 0)) :
    ∃ r, bfs deps fuel depth layer visited layers graph = some r := by
  have hbound : visited.length ≤ all.length + 1 := by
    have : visited ⊆ a :: all := fun x hx => List.mem_cons.mpr (hsub x hx)
    have := (h.nodup.subperm this).length_le
    simpa using this
  induction fuel generalizing k depth layer visited layers graph with
  | zero =>
    rw [bfs]
    split
    · exact ⟨_, rfl⟩
    · rename_i hc
      simp only [Bool.or_eq_true, List.isEmpty_iff, not_or] at hc
      rw [if_neg hc.1] at hf
      omega
  | succ fuel ih =>
    rw [bfs]
    split
    · exact ⟨_, rfl⟩
    · rename_i hc
      simp only [Bool.or_eq_true, List.isEmpty_iff, not_or] at hc
      rw [if_neg hc.1] at hf
      have hi := inv_step h hc.1
      obtain ⟨h1, h2, _, h3, _⟩ := visits (layer.flatMap fun p => (deps p).map (Prod.mk p)) ⟨visited, [], graph⟩ visited
        (by simp) h.nodup h.keys
      rw [← expand_eq] at h1 h2 h3
      have hs : ∀ x ∈ (expand deps ⟨visited, [], graph⟩ layer).visited, x = a ∨ x ∈ all := by
        intro x hx
        rcases (h3 x).mp hx with hx | ⟨p, hp⟩
        · exact hsub x hx
        · simp only [List.mem_flatMap, List.mem_map, Prod.mk.injEq] at hp
          obtain ⟨q, _, e, he, _, rfl⟩ := hp
          exact Or.inr (hall q e he)
      have hbd : (expand deps ⟨visited, [], graph⟩ layer).visited.length ≤ all.length + 1 := by
        have : (expand deps ⟨visited, [], graph⟩ layer).visited ⊆ a :: all := fun x hx => List.mem_cons.mpr (hs x hx)
        have := (h2.subperm this).length_le
        simpa using this
      refine ih hi hs ?_ hbd
      rw [h1, List.length_append]
      split
      · omega
      · rename_i hne
        have := List.length_pos_iff.mpr hne
        omega

end SearchLemmas

open SearchLemmas

/-! ## C112: reverse dependencies -/

/-- C112: layer `k` of the reverse tree holds exactly the families that are reached in `k` steps and in no fewer, up to
the given depth; no family stands in it twice and no layer is empty. -/
theorem C112_layers (deps : Str → List Str) (fuel : Nat) (depth : Option Nat) (name : Str)
    (layers : List (List Str)) (graph : List (Str × List Str)) (h : reverseTree deps fuel depth name = some (layers, graph)) :
    (∀ k x, (∃ l, layers[k]? = some l ∧ x ∈ l) ↔ Level deps name k x ∧ ∀ d, depth = some d → k ≤ d) ∧
    layers.flatten.Nodup ∧ ∀ l ∈ layers, l ≠ [] := by
  obtain ⟨k', layer, visited, hi, hend, hle⟩ := bfs_spec fuel (inv_zero deps name) h
  refine ⟨fun k x => ?_, by rw [hi.flat]; exact hi.nodup, hi.nonempty⟩
  simp only [Nat.zero_add] at hend hle
  constructor
  · rintro ⟨l, hl, hx⟩
    refine ⟨(hi.mem k l hl x).mp hx, fun d hd => ?_⟩
    have h1 := (List.getElem?_eq_some_iff.mp hl).1
    have h2 : layers.length = _ := hi.len
    have := hle d hd
    split at h2 <;> omega
  · rintro ⟨hl, hd⟩
    have hlt : k < layers.length := by
      have h2 : layers.length = _ := hi.len
      rcases hend with rfl | ⟨d, hd', hk'⟩
      · rw [if_pos rfl] at h2
        by_contra hge
        obtain ⟨y, hy⟩ := level_below hl (show k' ≤ k by omega)
        have := (hi.inLayer y).mpr hy
        cases this
      · rw [hk'] at hi h2
        have hkd := hd d hd'
        by_cases hle0 : layer = []
        · rw [if_pos hle0] at h2
          by_contra hge
          obtain ⟨y, hy⟩ := level_below hl (show d ≤ k by omega)
          have := (hi.inLayer y).mpr hy
          rw [hle0] at this
          cases this
        · rw [if_neg hle0] at h2
          omega
    exact ⟨layers[k], List.getElem?_eq_getElem hlt, (hi.mem k _ (List.getElem?_eq_getElem hlt) x).mpr hl⟩

/-- C112: the search ends, when the families are finitely many. -/
theorem C112_ends (deps : Str → List Str) (all : List Str) (h : ∀ p, ∀ d ∈ deps p, d ∈ all) (depth : Option Nat) (name : Str)
    (fuel : Nat) (hf : all.length + 1 ≤ fuel) : ∃ r, reverseTree deps fuel depth name = some r :=
  bfs_ends h fuel (inv_zero deps name) (fun x hx => Or.inl (List.mem_singleton.mp hx)) (by simp; omega)

/-- C112: every edge of the reported graph leads from a family to one that depends on it, one layer further on, and
every family but the first is reported under exactly one other. -/
theorem C112_graph (deps : Str → List Str) (fuel : Nat) (depth : Option Nat) (name : Str)
    (layers : List (List Str)) (graph : List (Str × List Str)) (h : reverseTree deps fuel depth name = some (layers, graph)) :
    (∀ p d, d ∈ (mget graph p).getD [] → d ∈ deps p ∧ ∃ k, Level deps name k p ∧ Level deps name (k + 1) d) ∧
    ∃ rest, layers.flatten = name :: rest ∧ (graph.flatMap Prod.snd).Perm rest := by
  obtain ⟨k', layer, visited, hi, _⟩ := bfs_spec fuel (inv_zero deps name) h
  refine ⟨hi.edges, ?_⟩
  rw [hi.flat]
  exact hi.once

/-- C112 is false of the graph as an account of all dependencies: `c` depends on `a` and `b`, `b` on `a`; the edge from
`b` to `c` is missing. -/
theorem C112_graph_false : ∃ (deps : Str → List Str) (graph : List (Str × List Str)),
    c!"c" ∈ deps c!"b" ∧ reverseTree deps 5 none c!"a" = some ([[c!"a"], [c!"b", c!"c"]], graph) ∧
    mget graph c!"b" = none := by
  refine ⟨fun p => if p = c!"a" then [c!"b", c!"c"] else if p = c!"b" then [c!"c"] else [], [(c!"a", [c!"b", c!"c"])],
    by decide, by rfl, by rfl⟩

/-- C112: the dependents of a package are listed in ascending order, each once: the families whose first version
directory holds a package with a requirement text that has the name anywhere in it. -/
theorem C112_dependents (paths : List (Option (List Family))) (build : Bool) (target : Str) :
    Ascending (dependents paths build target) ∧
    ∀ x, x ∈ dependents paths build target ↔ ∃ fs, some fs ∈ paths ∧ ∃ f ∈ fs, f.name = x ∧
      ∃ i more, f.versions = some i :: more ∧
        ∃ r ∈ i.requires ++ (if build then i.buildRequires else []), containsStr r target = true := by
  obtain ⟨h1, h2⟩ := gathered (dependsOn target build) paths
  refine ⟨h1, fun x => ?_⟩
  refine (h2 x).trans ?_
  have key : ∀ f : Family, dependsOn target build f = true ↔ ∃ i more, f.versions = some i :: more ∧
      ∃ r ∈ i.requires ++ (if build then i.buildRequires else []), containsStr r target = true := by
    intro f
    unfold dependsOn firstInfo
    cases hv : f.versions with
    | nil => simp
    | cons o more =>
      cases o with
      | none => simp
      | some i =>
        simp only [List.head?_cons, Option.bind_some, id, Bool.or_eq_true, List.any_eq_true, Bool.and_eq_true,
          List.cons.injEq, Option.some.injEq]
        constructor
        · rintro (⟨r, hr, hc⟩ | ⟨hb, r, hr, hc⟩)
          · exact ⟨i, more, ⟨rfl, rfl⟩, r, List.mem_append_left _ hr, hc⟩
          · exact ⟨i, more, ⟨rfl, rfl⟩, r, by rw [if_pos hb]; exact List.mem_append_right _ hr, hc⟩
        · rintro ⟨_, _, ⟨rfl, rfl⟩, r, hr, hc⟩
          rcases List.mem_append.mp hr with hr | hr
          · exact Or.inl ⟨r, hr, hc⟩
          · split at hr
            · rename_i hb; exact Or.inr ⟨hb, r, hr, hc⟩
            · cases hr
  simp only [key]

theorem containsStr_append (t rest : Str) : containsStr (t ++ rest) t = true := by
  cases h : t ++ rest with
  | nil =>
    rw [List.append_eq_nil_iff] at h
    rw [h.1]
    rfl
  | cons c cs =>
    rw [containsStr]
    simp only [Bool.or_eq_true]
    left
    rw [← h]
    exact List.isPrefixOf_iff_prefix.mpr (List.prefix_append t rest)

/-- C112, partial: a family whose packages all require the target is among its dependents.  Missing: families of which
only some versions require it, and texts that only have the name inside another (both refuted below). -/
theorem C112_complete_partial (paths : List (Option (List Family))) (build : Bool) (target : Str) (fs : List Family)
    (f : Family) (hfs : some fs ∈ paths) (hf : f ∈ fs) (hload : f.versions ≠ [] ∧ ∀ v ∈ f.versions, v ≠ none)
    (hall : ∀ i ∈ Family.packages f, Requires ⟨f.name, [some i]⟩ build target) : f.name ∈ dependents paths build target := by
  rw [(C112_dependents paths build target).2]
  refine ⟨fs, hfs, f, hf, rfl, ?_⟩
  obtain ⟨v, more, hv⟩ := List.exists_cons_of_ne_nil hload.1
  cases v with
  | none => exact absurd rfl (hload.2 none (by rw [hv]; exact List.mem_cons_self))
  | some i =>
    obtain ⟨j, hj, r, hr, rest, he, _⟩ := hall i (by rw [Family.packages, hv]; simp)
    have : j = i := by simpa [Family.packages] using hj
    subst this
    refine ⟨j, more, hv, r, hr, ?_⟩
    rw [he]
    exact containsStr_append target rest

/-- C112 is false: a package that requires `pythonista` counts as a dependent of `python`, and one whose first listed
version does not require it is left out. -/
theorem C112_dependents_false :
    (∃ f : Family, ¬ Requires f false c!"python" ∧ f.name ∈ dependents [some [f]] false c!"python") ∧
    (∃ f : Family, Requires f false c!"python" ∧ f.name ∉ dependents [some [f]] false c!"python") := by
  constructor
  · refine ⟨⟨c!"a", [some ⟨[c!"pythonista-1"], [], []⟩]⟩, ?_, by decide⟩
    rintro ⟨i, hi, r, hr, rest, he, hrest⟩
    simp [Family.packages] at hi
    subst hi
    simp at hr
    subst hr
    have : rest = c!"ista-1" := by
      have : c!"python" ++ c!"ista-1" = c!"python" ++ rest := he
      exact (List.append_cancel_left this).symm
    subst this
    exact absurd hrest (by decide)
  · refine ⟨⟨c!"a", [some ⟨[], [], []⟩, some ⟨[c!"python-3"], [], []⟩]⟩, ?_, by decide⟩
    exact ⟨⟨[c!"python-3"], [], []⟩, by simp [Family.packages], c!"python-3", by simp, c!"-3", by rfl, by decide⟩

/-- C112 is false of the default paths on Unix: `REZ_PACKAGES_PATH` is split at semicolons, so a list separated by
colons is taken for one path. -/
theorem C112_paths_false (a b : Str) (ha : ';' ∉ a) (hb : ';' ∉ b) (ht : trim (a ++ c!":" ++ b) = a ++ c!":" ++ b) :
    defaultPaths (some (a ++ c!":" ++ b)) = [a ++ c!":" ++ b] := by
  unfold defaultPaths
  simp only
  rw [splitChar_noSep (by simp [ha, hb])]
  rw [List.map_singleton, ht]
  simp

-- three families in a chain
example : Level (fun p => if p = c!"a" then [c!"b"] else if p = c!"b" then [c!"c", c!"a"] else []) c!"a" 2 c!"c" ∧
    reverseTree (fun p => if p = c!"a" then [c!"b"] else if p = c!"b" then [c!"c", c!"a"] else []) 4 none c!"a" =
      some ([[c!"a"], [c!"b"], [c!"c"]], [(c!"b", [c!"c"]), (c!"a", [c!"b"])]) ∧
    Requires ⟨c!"x", [some ⟨[c!"python-3"], [], []⟩]⟩ false c!"python" := by
  refine ⟨⟨⟨c!"b", ⟨c!"a", rfl, by decide⟩, by decide⟩, ?_⟩, by rfl,
    ⟨⟨[c!"python-3"], [], []⟩, by simp [Family.packages], c!"python-3", by simp, c!"-3", by rfl, by decide⟩⟩
  intro j hj
  match j, hj with
  | 0, _ => intro h; exact absurd (show c!"c" = c!"a" from h) (by decide)
  | 1, _ =>
    rintro ⟨p, rfl, hd⟩
    exact absurd hd (by decide)

/-! ## C113: plugins -/

/-- C113: the plugins of a package are listed in ascending order, each once: the families whose first version directory
holds a package that names it. -/
theorem C113_plugins (paths : List (Option (List Family))) (target : Str) :
    Ascending (plugins paths target) ∧
    ∀ x, x ∈ plugins paths target ↔ ∃ fs, some fs ∈ paths ∧ ∃ f ∈ fs, f.name = x ∧
      ∃ i more, f.versions = some i :: more ∧ target ∈ i.pluginFor := by
  obtain ⟨h1, h2⟩ := gathered (isPluginFor target) paths
  refine ⟨h1, fun x => ?_⟩
  refine (h2 x).trans ?_
  have key : ∀ f : Family, isPluginFor target f = true ↔ ∃ i more, f.versions = some i :: more ∧ target ∈ i.pluginFor := by
    intro f
    unfold isPluginFor firstInfo
    cases hv : f.versions with
    | nil => simp
    | cons o more =>
      cases o with
      | none => simp
      | some i => simp
  simp only [key]

/-- C113, partial: a family is among the plugins exactly when one of its packages says so, if all its packages can be
loaded and say the same.  Missing: families whose versions differ (refuted below). -/
theorem C113_exact_partial (paths : List (Option (List Family))) (target : Str)
    (h : ∀ fs, some fs ∈ paths → ∀ f ∈ fs, (∀ v ∈ f.versions, v ≠ none) ∧
      ∀ i ∈ Family.packages f, ∀ j ∈ Family.packages f, (target ∈ i.pluginFor ↔ target ∈ j.pluginFor)) (x : Str) :
    x ∈ plugins paths target ↔ ∃ fs, some fs ∈ paths ∧ ∃ f ∈ fs, f.name = x ∧ ∃ i ∈ Family.packages f, target ∈ i.pluginFor := by
  rw [(C113_plugins paths target).2]
  constructor
  · rintro ⟨fs, hfs, f, hf, hx, i, more, hv, ht⟩
    exact ⟨fs, hfs, f, hf, hx, i, by simp [Family.packages, hv], ht⟩
  · rintro ⟨fs, hfs, f, hf, hx, i, hi, ht⟩
    refine ⟨fs, hfs, f, hf, hx, ?_⟩
    obtain ⟨h1, h2⟩ := h fs hfs f hf
    cases hv : f.versions with
    | nil => simp [Family.packages, hv] at hi
    | cons v more =>
      cases v with
      | none => exact absurd rfl (h1 none (by rw [hv]; exact List.mem_cons_self))
      | some j => exact ⟨j, more, rfl, (h2 i hi j (by simp [Family.packages, hv])).mp ht⟩

/-- C113 is false: a family whose second listed version is a plugin is left out. -/
theorem C113_plugins_false : ∃ f : Family, (∃ i ∈ Family.packages f, c!"maya" ∈ i.pluginFor) ∧
    f.name ∉ plugins [some [f]] c!"maya" :=
  ⟨⟨c!"p", [some ⟨[], [], []⟩, some ⟨[], [], [c!"maya"]⟩]⟩,
    ⟨⟨[], [], [c!"maya"]⟩, by simp [Family.packages], by decide⟩, by decide⟩

example : plugins [some [⟨c!"q", [some ⟨[], [], [c!"maya"]⟩]⟩, ⟨c!"p", [some ⟨[], [], [c!"maya"]⟩]⟩], none] c!"maya" =
    [c!"p", c!"q"] := by decide

/-! ## C69: the package search -/

namespace SearchLemmas

mutual
theorem scanTree_absent (n : Str) (family : Str) (t : Tree) (h : ∀ p ∈ found t, p.name ≠ n) (s : State) :
    mget (scanTree family t s).1.cache n = mget s.cache n := by
  match t, h with
  | .package (.ok p), h =>
    rw [scanTree]
    simp only [push, mget_mset]
    rw [if_neg]
    exact fun he => h p (by rw [found]; exact List.mem_cons_self) he.symm
  | .package (.error e), _ => rw [scanTree]; rfl
  | .folder true children, h => rw [scanTree]; exact scanBelow_absent n family children (by rwa [found] at h) s
  | .folder false children, _ => rw [scanTree]
theorem scanBelow_absent (n : Str) (family : Str) (l : List (Str × Tree)) (h : ∀ p ∈ foundBelow l, p.name ≠ n) (s : State) :
    mget (scanBelow family l s).1.cache n = mget s.cache n := by
  match l, h with
  | [], _ => rw [scanBelow]
  | (m, t) :: rest, h =>
    rw [foundBelow] at h
    have h1 := scanTree_absent n family t (fun p hp => h p (List.mem_append_left _ hp)) s
    rw [scanBelow]
    cases hs : scanTree family t s with
    | mk s' b =>
      rw [hs] at h1
      cases b with
      | true => exact (scanBelow_absent n family rest (fun p hp => h p (List.mem_append_right _ hp)) s').trans h1
      | false => exact h1
end

theorem scan_absent (n : Str) (root : Root) (h : ∀ p ∈ onDisk root, p.name ≠ n) : mget (scan root).1.cache n = none := by
  cases root with
  | none => rfl
  | some entries =>
    have key : ∀ (l : List (Str × Tree)) (s : State), (∀ p ∈ foundBelow l, p.name ≠ n) →
        mget (scanRoot l s).1.cache n = mget s.cache n := by
      intro l
      induction l with
      | nil => intro s _; rfl
      | cons e rest ih =>
        obtain ⟨m, t⟩ := e
        intro s h
        rw [foundBelow] at h
        have h1 := scanTree_absent n m t (fun p hp => h p (List.mem_append_left _ hp)) s
        rw [scanRoot]
        cases hs : scanTree m t s with
        | mk s' b =>
          rw [hs] at h1
          cases b with
          | true => exact (ih s' fun p hp => h p (List.mem_append_right _ hp)).trans h1
          | false => exact h1
    exact key entries State.new h

theorem find_absent (n : Str) (root : Root) (h : ∀ p ∈ onDisk root, p.name ≠ n) :
    (find root State.new n).2 = .err ∨ (find root State.new n).2 = .ok [] := by
  have hs := scan_absent n root h
  unfold find
  simp only [State.new, mget]
  cases hr : scan root with
  | mk s' b =>
    rw [hr] at hs
    cases b with
    | false => exact Or.inl rfl
    | true =>
      simp only at hs ⊢
      cases mget s'.errors n with
      | some _ => exact Or.inl rfl
      | none => simp [hs]

theorem sort_nil {srt : Sorting} (hs : SortingOk srt) (c : Package → Package → Ordering) : srt.sort c [] = .ok [] := by
  obtain ⟨r, hr, _⟩ := hs.sorted c [] ⟨by simp, by simp⟩
  rw [hr, List.perm_nil.mp (hs.perm _ _ _ hr)]

theorem loop_nothing {u : Setup} (hs : SortingOk u.srt) (hi : ∀ l, (u.iter l).Perm l) (repos : List (Str × Option Root))
    (h : ∀ path root, (path, some root) ∈ repos → ∀ p ∈ onDisk root, p.name ≠ []) (acc : List Result) :
    u.loop repos acc = .ok (acc, false) := by
  induction repos generalizing acc with
  | nil => rfl
  | cons e rest ih =>
    have ih := ih fun path root hr => h path root (List.mem_cons_of_mem _ hr)
    obtain ⟨path, o⟩ := e
    cases o with
    | none => rw [Setup.loop]; exact ih acc
    | some root =>
      have hf := find_absent [] root (h path root List.mem_cons_self)
      have hm : (managerFind u.srt [(root, State.new)] []).2 = .err ∨
          (managerFind u.srt [(root, State.new)] []).2 = .ok [] := by
        unfold managerFind findEach
        cases hr : find root State.new [] with
        | mk s' x =>
          rw [hr] at hf
          simp only at hf
          rcases hf with rfl | rfl
          · exact Or.inl rfl
          · exact Or.inr (sort_nil hs _)
      rw [Setup.loop]
      rcases hm with hm | hm
      · rw [hm]; exact ih acc
      · rw [hm]
        simp only
        have : u.report path [] acc = (acc, false) := by
          unfold Setup.report
          rw [Search.families, List.perm_nil.mp (hi [])]
          rfl
        rw [this]
        exact ih acc

theorem containsStr_spec (s t : Str) : containsStr s t = true ↔ ∃ a b, s = a ++ t ++ b := by
  induction s with
  | nil =>
    constructor
    · intro h
      rw [containsStr, List.isEmpty_iff] at h
      exact ⟨[], [], by rw [h]; rfl⟩
    · rintro ⟨a, b, h⟩
      have := congrArg List.length h
      simp at this
      have : t = [] := by
        rw [← List.length_eq_zero_iff]; omega
      rw [this]; rfl
  | cons c s ih =>
    rw [containsStr, Bool.or_eq_true, ih, List.isPrefixOf_iff_prefix]
    constructor
    · rintro (⟨b, hb⟩ | ⟨a, b, hab⟩)
      · exact ⟨[], b, hb.symm⟩
      · exact ⟨c :: a, b, by rw [hab]; rfl⟩
    · rintro ⟨a, b, hab⟩
      cases a with
      | nil => exact Or.inl ⟨b, hab.symm⟩
      | cons x a =>
        simp only [List.cons_append, List.cons.injEq] at hab
        exact Or.inr ⟨a, b, hab.2⟩

theorem families_spec (keep : Package → Bool) (ps : List Package) (m : List (Str × List Str)) (hn : (mkeys m).Nodup) :
    (mkeys (families keep ps m)).Nodup ∧ ∀ name, mget (families keep ps m) name =
      if (ps.filter fun p => keep p && p.name == name) = [] then mget m name
      else some ((mget m name).getD [] ++ (ps.filter fun p => keep p && p.name == name).map versionText) := by
  induction ps generalizing m with
  | nil => exact ⟨hn, fun name => by simp [Search.families]⟩
  | cons p ps ih =>
    rw [Search.families]
    by_cases hk : keep p = true
    · rw [if_pos hk]
      obtain ⟨h1, h2⟩ := ih (mset m p.name ((mget m p.name).getD [] ++ [versionText p])) (nodup_mset hn _ _)
      refine ⟨h1, fun name => ?_⟩
      rw [h2 name, mget_mset]
      by_cases hname : name = p.name
      · subst hname
        simp only [if_pos, List.filter_cons, hk, Bool.true_and, beq_self_eq_true]
        split <;> simp_all
      · have : ¬ p.name = name := fun h => hname h.symm
        simp only [if_neg hname, List.filter_cons, this, beq_iff_eq, hk, Bool.true_and, if_false]
    · rw [if_neg hk]
      obtain ⟨h1, h2⟩ := ih m hn
      refine ⟨h1, fun name => ?_⟩
      rw [h2 name]
      simp only [List.filter_cons, hk, Bool.false_and]
      rfl

theorem dedup_spec (l : List Str) (h : l.Pairwise fun a b => cmpStr a b ≠ .gt) :
    Ascending (dedup l) ∧ ∀ x, x ∈ dedup l ↔ x ∈ l := by
  induction l using dedup.induct with
  | case1 => exact ⟨List.Pairwise.nil, fun x => Iff.rfl⟩
  | case2 a => exact ⟨List.pairwise_singleton _ a, fun x => Iff.rfl⟩
  | case3 a rest ih =>
    rw [dedup, if_pos rfl]
    obtain ⟨h1, h2⟩ := ih (List.pairwise_cons.mp h).2
    refine ⟨h1, fun x => ?_⟩
    rw [h2 x]
    simp
  | case4 a b rest hne ih =>
    rw [dedup, if_neg hne]
    obtain ⟨ha, hr⟩ := List.pairwise_cons.mp h
    obtain ⟨h1, h2⟩ := ih hr
    refine ⟨List.pairwise_cons.mpr ⟨fun x hx => ?_, h1⟩, fun x => ?_⟩
    · have hx := (h2 x).mp hx
      have hgt := ha x hx
      have hxa : x ≠ a := by
        rintro rfl
        rcases List.mem_cons.mp hx with rfl | hx
        · exact hne rfl
        · have hb := (List.pairwise_cons.mp hr).1 x hx
          have hxb := ha b List.mem_cons_self
          have hs := cmpStr_swap x b
          cases hc : cmpStr x b with
          | eq => exact hne ((cmpStr_eq_iff x b).mp hc)
          | gt => exact hxb hc
          | lt => rw [hc] at hs; exact hb hs.symm
      cases hc : cmpStr a x with
      | lt => rfl
      | eq => exact absurd ((cmpStr_eq_iff a x).mp hc).symm hxa
      | gt => exact absurd hc hgt
    · rw [List.mem_cons, h2 x, List.mem_cons (b := a)]

theorem addAll_unlimited (make : Str × List Str → Result) (es : List (Str × List Str)) (acc : List Result) :
    addAll 0 make es acc = (acc ++ es.map make, false) := by
  induction es generalizing acc with
  | nil => simp [addAll]
  | cons e es ih => simp [addAll, ih]

theorem addAll_limited (limit : Nat) (make : Str × List Str → Result) (es : List (Str × List Str)) (acc : List Result)
    (hl : 0 < limit) (ha : acc.length < limit) :
    (addAll limit make es acc).1.length ≤ limit ∧ ((addAll limit make es acc).2 = false → (addAll limit make es acc).1.length < limit) := by
  induction es generalizing acc with
  | nil => exact ⟨Nat.le_of_lt ha, fun _ => ha⟩
  | cons e es ih =>
    rw [addAll]
    split
    · refine ⟨?_, fun h => by simp at h⟩
      simp; omega
    · rename_i hc
      refine ih _ ?_
      simp [hl] at hc
      simpa using hc

end SearchLemmas

/-- C69 is false: whatever the filter and the repositories, a search finds nothing, because it asks each repository for
the family with the empty name.  (A package with an empty name would be the only one found.) -/
theorem C69_nothing_false (u : Setup) (hs : SortingOk u.srt) (hi : ∀ l, (u.iter l).Perm l) (repos : List (Str × Option Root))
    (h : ∀ path root, (path, some root) ∈ repos → ∀ p ∈ onDisk root, p.name ≠ []) : u.search repos = .ok [] := by
  unfold Setup.search
  rw [loop_nothing hs hi repos h]
  rfl

/-- C69: which names a filter accepts. -/
theorem C69_name (lower : Str → Str) (regex : Str → Option (Str → Bool)) (f : Filter) (name : Str) :
    (f.pattern = [] → f.matches lower regex name = true) ∧
    (f.pattern ≠ [] →
      (f.mode = .exact → (f.matches lower regex name = true ↔ lower name = lower f.pattern)) ∧
      (f.mode = .prefixed → (f.matches lower regex name = true ↔ ∃ b, lower name = lower f.pattern ++ b)) ∧
      (f.mode = .contains → (f.matches lower regex name = true ↔ ∃ a b, lower name = a ++ lower f.pattern ++ b)) ∧
      (f.mode = .regex → (f.matches lower regex name = true ↔ ∃ run, regex f.pattern = some run ∧ run name = true))) := by
  constructor
  · intro h
    simp [Filter.matches, h]
  · intro h
    have he : f.pattern.isEmpty = false := by simpa [List.isEmpty_iff] using h
    refine ⟨fun hm => ?_, fun hm => ?_, fun hm => ?_, fun hm => ?_⟩
    · simp [Filter.matches, he, hm]
    · simp only [Filter.matches, he, hm, Bool.false_eq_true, if_false, List.isPrefixOf_iff_prefix]
      exact ⟨fun ⟨b, hb⟩ => ⟨b, hb.symm⟩, fun ⟨b, hb⟩ => ⟨b, hb.symm⟩⟩
    · simp only [Filter.matches, he, hm, Bool.false_eq_true, if_false]
      exact containsStr_spec _ _
    · simp only [Filter.matches, he, hm, Bool.false_eq_true, if_false]
      cases regex f.pattern <;> simp

/-- C69, partial: what a search would report of the packages it is given, without a limit: exactly the families that
have a package passing the filter, each once, with the version texts of those packages in ascending order; a package
passes if its name does and its version is in the range (no version, or a range that cannot be read, passes).
Missing: that it is given the packages (refuted above). -/
theorem C69_report_partial (u : Setup) (hi : ∀ l, (u.iter l).Perm l) (hl : u.filter.limit = 0) (repo : Str) (ps : List Package) :
    let passes := fun p : Package => u.filter.matches u.lower u.regex p.name = true ∧
      ∀ text v r, u.filter.range = some text → p.version = some v → VersionRange.parse text = some r → r.contains v = true
    ∃ rs, u.report repo ps [] = (rs, false) ∧ (rs.map Result.name).Nodup ∧
      (∀ name, (∃ r ∈ rs, r.name = name) ↔ ∃ p ∈ ps, passes p ∧ p.name = name) ∧
      ∀ r ∈ rs, r.repo = repo ∧ ∃ texts, Ascending texts ∧
        (∀ t, t ∈ texts ↔ ∃ p ∈ ps, passes p ∧ p.name = r.name ∧
          ((∃ v, p.version = some v ∧ t = v.asStr) ∨ (p.version = none ∧ t = c!"unknown"))) ∧
        r.latest = texts.getLast? ∧ r.versions = if u.latestOnly then texts.getLast?.toList else texts := by
  intro passes
  have hkeep : ∀ p, u.keep p = true ↔ passes p := by
    intro p
    simp only [Setup.keep, passes, Bool.and_eq_true, Bool.not_eq_true']
    refine and_congr_right fun _ => ?_
    unfold Filter.outside
    cases u.filter.range with
    | none => simp
    | some text =>
      cases p.version with
      | none => simp
      | some v =>
        cases hr : VersionRange.parse text with
        | none =>
          refine ⟨fun _ text' v' r ht _ hp => ?_, fun _ => by simp [hr]⟩
          cases ht
          rw [hr] at hp
          cases hp
        | some r =>
          simp only [hr, Bool.not_eq_false']
          refine ⟨fun h text' v' r' ht hv hp => ?_, fun h => h text v r rfl rfl hr⟩
          cases ht
          cases hv
          rw [hr] at hp
          cases hp
          exact h
  obtain ⟨hn, hget⟩ := families_spec u.keep ps [] (by simp [mkeys])
  have hfil : ∀ name t, t ∈ ((ps.filter fun p => u.keep p && p.name == name).map versionText) ↔
      ∃ p ∈ ps, passes p ∧ p.name = name ∧
        ((∃ v, p.version = some v ∧ t = v.asStr) ∨ (p.version = none ∧ t = c!"unknown")) := by
    intro name t
    have htext : ∀ p, t = versionText p ↔ ((∃ v, p.version = some v ∧ t = v.asStr) ∨ (p.version = none ∧ t = c!"unknown")) := by
      intro p
      unfold versionText
      cases p.version <;> simp
    simp only [← htext]
    simp only [List.mem_map, List.mem_filter, Bool.and_eq_true, beq_iff_eq, hkeep]
    constructor
    · rintro ⟨p, ⟨h1, h2, h3⟩, rfl⟩; exact ⟨p, h1, h2, h3, rfl⟩
    · rintro ⟨p, h1, h2, h3, rfl⟩; exact ⟨p, ⟨h1, h2, h3⟩, rfl⟩
  have hname : ∀ e, (toResult u.latestOnly repo e).name = e.1 := by
    intro e; unfold toResult; simp only; split <;> rfl
  refine ⟨(u.iter (families u.keep ps [])).map (toResult u.latestOnly repo), ?_, ?_, ?_, ?_⟩
  · unfold Setup.report
    rw [hl, addAll_unlimited]
    rfl
  · rw [List.map_map]
    have : (u.iter (families u.keep ps [])).map (Result.name ∘ toResult u.latestOnly repo) =
        mkeys (u.iter (families u.keep ps [])) := by
      unfold mkeys
      exact List.map_congr_left fun e _ => hname e
    rw [this]
    exact ((hi _).map Prod.fst).nodup_iff.mpr hn
  · intro name
    have : (∃ r ∈ (u.iter (families u.keep ps [])).map (toResult u.latestOnly repo), r.name = name) ↔
        name ∈ mkeys (families u.keep ps []) := by
      constructor
      · rintro ⟨r, hr, rfl⟩
        obtain ⟨e, he, rfl⟩ := List.mem_map.mp hr
        rw [hname]
        exact List.mem_map_of_mem ((hi _).mem_iff.mp he)
      · intro h
        obtain ⟨e, he, rfl⟩ := List.mem_map.mp h
        exact ⟨_, List.mem_map_of_mem ((hi _).mem_iff.mpr he), hname e⟩
    rw [this, ← mget_isSome_iff, hget name]
    constructor
    · intro h
      split at h
      · simp at h
      · rename_i hne
        obtain ⟨p, hp⟩ := List.exists_mem_of_ne_nil _ hne
        simp only [List.mem_filter, Bool.and_eq_true, beq_iff_eq, hkeep] at hp
        exact ⟨p, hp.1, hp.2.1, hp.2.2⟩
    · rintro ⟨p, hp, hpass, rfl⟩
      rw [if_neg]
      · exact ⟨_, rfl⟩
      · intro h
        have : p ∈ ps.filter fun q => u.keep q && q.name == p.name := by
          simp [hp, (hkeep p).mpr hpass]
        rw [h] at this
        cases this
  · intro r hr
    obtain ⟨e, he, rfl⟩ := List.mem_map.mp hr
    have hmem := mget_of_mem hn ((hi _).mem_iff.mp he)
    rw [hget e.1] at hmem
    split at hmem
    · simp at hmem
    · have he2 : e.2 = (ps.filter fun p => u.keep p && p.name == e.1).map versionText := by
        simpa using hmem.symm
      have hd := dedup_spec (sortStr e.2) (sortStr_sorted e.2)
      refine ⟨?_, dedup (sortStr e.2), hd.1, fun t => ?_, ?_, ?_⟩
      · unfold toResult; simp only; split <;> rfl
      · rw [hd.2 t, (sortStr_perm e.2).mem_iff, he2, hname]
        exact hfil e.1 t
      · unfold toResult
        simp only
        split
        · cases (dedup (sortStr e.2)).getLast? <;> rfl
        · rfl
      · unfold toResult
        simp only
        split <;> simp_all [Result.new]

/-- A search for everything. -/
def demoSetup (limit : Nat) (latestOnly : Bool) (iter : List (Str × List Str) → List (Str × List Str)) : Setup :=
  ⟨id, fun _ => none, ⟨fun _ l => .ok l, id⟩, iter, ⟨[], .prefixed, none, limit⟩, latestOnly⟩

/-- C69 is false of the latest version: texts are compared, so 9.0 is later than 10.0. -/
theorem C69_latest_false : ∃ ps : List Package, ∃ r, (demoSetup 0 true id).report c!"/r" ps [] = ([r], false) ∧
    r.latest = some c!"9.0" ∧ ∃ p ∈ ps, ∃ v w, p.version = some v ∧ Version.parse c!"9.0" = some w ∧ w.cmp v = .lt :=
  ⟨[pk c!"a" (some c!"9.0") none, pk c!"a" (some c!"10.0") none], ⟨c!"a", [c!"9.0"], c!"/r", some c!"9.0"⟩, by rfl, rfl,
    pk c!"a" (some c!"10.0") none, by simp, _, _, rfl, rfl, by decide⟩

/-- C69: a limit is never exceeded. -/
theorem C69_limit (u : Setup) (hl : 0 < u.filter.limit) (repo : Str) (ps : List Package) (acc : List Result)
    (ha : acc.length < u.filter.limit) : (u.report repo ps acc).1.length ≤ u.filter.limit :=
  (addAll_limited _ _ _ acc hl ha).1

/-- C69 is false with a limit: which families are reported depends on the order of the hash map. -/
theorem C69_limit_false : ∃ ps : List Package,
    ((demoSetup 1 false id).report c!"/r" ps []).1.map Result.name = [c!"b"] ∧
    ((demoSetup 1 false List.reverse).report c!"/r" ps []).1.map Result.name = [c!"a"] :=
  ⟨[pk c!"a" (some c!"1") none, pk c!"b" (some c!"1") none], by rfl, by rfl⟩

-- a search over a repository with two versions of a package, with and without packages in its way
example : (demoSetup 0 false id).search [(c!"/r", some (demoRoot c!"a" [c!"1", c!"2"])), (c!"/s", none)] = .ok [] ∧
    ((demoSetup 0 false id).report c!"/r" (ofFamily (demoRoot c!"a" [c!"1", c!"2"]) c!"a") []).1 =
      [⟨c!"a", [c!"1", c!"2"], c!"/r", some c!"2"⟩] := ⟨by rfl, by rfl⟩

end Rez.Props
