import Verif.Lemmas.Resolver
import Verif.Lemmas.GraphSearch
/-!
# Cycle detection in the resolver
-/
namespace Rez
open Rez.Spec Relation RState

/-- an edge of the recorded dependency graph -/
def Edge (g : List (Str × List Str)) (a b : Str) : Prop := b ∈ (mget g a).getD []

/-- the number of names not yet in `V` -/
def freshIn (U V : List Str) : Nat := (U.filter (· ∉ V)).length

theorem freshIn_mono (U : List Str) {V W : List Str} (h : V ⊆ W) : freshIn U W ≤ freshIn U V := by
  unfold freshIn
  induction U with
  | nil => simp
  | cons x l ih =>
    by_cases h1 : x ∈ V
    · rw [List.filter_cons_of_neg (by simp [h h1]), List.filter_cons_of_neg (by simp [h1])]; exact ih
    · by_cases h2 : x ∈ W
      · rw [List.filter_cons_of_neg (by simp [h2]), List.filter_cons_of_pos (by simp [h1])]
        simp only [List.length_cons]; omega
      · rw [List.filter_cons_of_pos (by simp [h2]), List.filter_cons_of_pos (by simp [h1])]
        simp only [List.length_cons]; omega

theorem freshIn_lt {U V : List Str} {x : Str} (hx : x ∈ U) (hV : x ∉ V) : freshIn U (x :: V) < freshIn U V := by
  induction U with
  | nil => cases hx
  | cons y l ih =>
    have hle := freshIn_mono l (List.subset_cons_self x V)
    unfold freshIn at *
    by_cases h2 : y = x
    · subst h2
      rw [List.filter_cons_of_neg (by simp), List.filter_cons_of_pos (by simp [hV])]
      simp only [List.length_cons]; omega
    · have hx : x ∈ l := by
        rcases List.mem_cons.mp hx with h | h
        · exact absurd h.symm h2
        · exact h
      have := ih hx
      by_cases h1 : y ∈ V
      · rw [List.filter_cons_of_neg (by simp [h1]), List.filter_cons_of_neg (by simp [h1])]; exact this
      · rw [List.filter_cons_of_pos (by simp [h1, h2]), List.filter_cons_of_pos (by simp [h1])]
        simp only [List.length_cons]; omega

theorem edge_names {g : List (Str × List Str)} {a b : Str} (h : Edge g a b) : b ∈ graphNames g := by
  unfold Edge at h
  cases hg : mget g a with
  | none => rw [hg] at h; cases h
  | some l =>
    rw [hg] at h
    exact List.mem_append_right _ (List.mem_flatMap.mpr ⟨_, mget_some_mem hg, h⟩)

theorem edge_key {g : List (Str × List Str)} {a b : Str} (h : Edge g a b) : a ∈ mkeys g := by
  unfold Edge at h
  cases hg : mget g a with
  | none => rw [hg] at h; cases h
  | some l => exact (mget_isSome_iff g a).mp ⟨l, hg⟩

/-- a closed path: it ends where it begins -/
def ClosedPath (g : List (Str × List Str)) (c : List Str) : Prop :=
  ∃ x l, c = x :: (l ++ [x]) ∧ Linked (Edge g) c

theorem linked_tail {α : Type} {R : α → α → Prop} {a : α} {l : List α} (h : Linked R (a :: l)) : Linked R l := by
  cases l with
  | nil => trivial
  | cons b l => exact h.2

theorem linked_drop {α : Type} {R : α → α → Prop} {l : List α} (k : Nat) (h : Linked R l) : Linked R (l.drop k) := by
  induction k generalizing l with
  | zero => simpa using h
  | succ k ih =>
    cases l with
    | nil => simpa using h
    | cons a l => simpa using ih (linked_tail h)

/-- the invariant of the search -/
structure DInv (g : List (Str × List Str)) (d : Dfs) : Prop where
  stack : ∀ x, x ∈ d.onStack ↔ x ∈ d.path
  sub : ∀ x ∈ d.onStack, x ∈ d.visited
  linked : Linked (Edge g) d.path
  closed : ∀ x ∈ d.visited, x ∉ d.onStack → ∀ y, Edge g x y → y ∈ d.visited ∧ y ∉ d.onStack
  acyclic : ∀ x ∈ d.visited, x ∉ d.onStack → ¬ TransGen (Edge g) x x

theorem DInv.reach {g : List (Str × List Str)} {d : Dfs} (h : DInv g d) {x y : Str} (hx : x ∈ d.visited)
    (hs : x ∉ d.onStack) (hr : TransGen (Edge g) x y) : y ∈ d.visited ∧ y ∉ d.onStack := by
  induction hr with
  | single e => exact h.closed x hx hs _ e
  | tail _ e ih => exact h.closed _ ih.1 ih.2 _ e

/-- what a search that found nothing leaves behind -/
structure DOk (g : List (Str × List Str)) (d d' : Dfs) : Prop where
  inv : DInv g d'
  path : d'.path = d.path
  stack : d'.onStack = d.onStack
  grow : d.visited ⊆ d'.visited

theorem dfsStep_found (f : Str → Dfs → DfsResult) (ns : List Str) (c : List Str) :
    ns.foldl (dfsStep f) (.found c) = .found c := by
  induction ns with
  | nil => rfl
  | cons n ns ih => exact ih

theorem dfsCycle_spec (g : List (Str × List Str)) (fuel : Nat) (n : Str) (d : Dfs) (h : DInv g d)
    (hn : n ∉ d.visited) (hU : n ∈ graphNames g) (hf : freshIn (graphNames g) d.visited ≤ fuel)
    (hlast : ∀ m, d.path.getLast? = some m → Edge g m n) :
    match dfsCycle g fuel n d with
    | .found c => ClosedPath g c
    | .clear d' => DOk g d d' ∧ n ∈ d'.visited := by
  induction fuel generalizing n d with
  | zero =>
    have := freshIn_lt hU hn
    omega
  | succ fuel ih =>
    have hns : n ∉ d.onStack := fun hs => hn (h.sub n hs)
    have hnp : n ∉ d.path := fun hs => hns ((h.stack n).mpr hs)
    have hlt := freshIn_lt hU hn
    -- the state on entry
    have hd0 : DInv g ⟨n :: d.visited, n :: d.onStack, d.path ++ [n]⟩ := by
      refine ⟨?_, ?_, ?_, ?_, ?_⟩
      · intro x
        simp only [List.mem_cons, List.mem_append, List.not_mem_nil, or_false, h.stack x]
        exact or_comm
      · intro x hx
        rcases List.mem_cons.mp hx with rfl | hx
        · exact List.mem_cons_self
        · exact List.mem_cons_of_mem _ (h.sub x hx)
      · rcases List.eq_nil_or_concat d.path with e | ⟨pre, m, e⟩
        · simp only [e, List.nil_append]; trivial
        · have := hlast m (by rw [e]; simp)
          simp only
          rw [e]
          rw [List.concat_eq_append] at e ⊢
          have hl := h.linked
          rw [e] at hl
          exact linked_append hl this
      · intro x hx hxs y hxy
        simp only [List.mem_cons, not_or] at hx hxs ⊢
        rcases hx with rfl | hx
        · exact absurd rfl hxs.1
        · obtain ⟨h1, h2⟩ := h.closed x hx hxs.2 y hxy
          exact ⟨.inr h1, fun e => hn (e ▸ h1), h2⟩
      · intro x hx hxs
        simp only [List.mem_cons, not_or] at hx hxs
        rcases hx with rfl | hx
        · exact absurd rfl hxs.1
        · exact h.acyclic x hx hxs.2
    -- the loop over the neighbours
    have loop : ∀ (ns : List Str) (e0 : Dfs), (∀ y ∈ ns, Edge g n y) →
        DOk g ⟨n :: d.visited, n :: d.onStack, d.path ++ [n]⟩ e0 →
        match ns.foldl (dfsStep (dfsCycle g fuel)) (.clear e0) with
          | .found c => ClosedPath g c
          | .clear e => DOk g ⟨n :: d.visited, n :: d.onStack, d.path ++ [n]⟩ e ∧
            (∀ y ∈ ns, y ∈ e.visited ∧ y ∉ e.onStack) ∧ e0.visited ⊆ e.visited := by
      intro ns
      induction ns with
      | nil =>
        intro e0 _ hr
        exact ⟨hr, fun y hy => (by cases hy), List.Subset.refl _⟩
      | cons y ns ihn =>
        intro e0 hes hr
        rw [List.foldl_cons]
        have hny := hes y List.mem_cons_self
        have hrest : ∀ z ∈ ns, Edge g n z := fun z hz => hes z (List.mem_cons_of_mem _ hz)
        have hpath : e0.path = d.path ++ [n] := hr.path
        have hstep : dfsStep (dfsCycle g fuel) (.clear e0) y = if y ∉ e0.visited then dfsCycle g fuel y e0
            else if y ∈ e0.onStack then .found (e0.path.drop (if y ∈ e0.path then e0.path.idxOf y else 0) ++ [y])
            else .clear e0 := rfl
        rw [hstep]
        by_cases hv : y ∉ e0.visited
        · rw [if_pos hv]
          have hfr := freshIn_mono (graphNames g) hr.grow
          have := ih y e0 hr.inv hv (edge_names hny) (by simp only at hfr; omega)
            (fun m hm => by rw [hpath] at hm; simp at hm; rw [← hm]; exact hny)
          cases hres : dfsCycle g fuel y e0 with
          | found c =>
            rw [hres] at this
            rw [dfsStep_found]
            exact this
          | clear e1 =>
            rw [hres] at this
            obtain ⟨hok, hy⟩ := this
            have hr1 : DOk g ⟨n :: d.visited, n :: d.onStack, d.path ++ [n]⟩ e1 :=
              ⟨hok.inv, hok.path.trans hr.path, hok.stack.trans hr.stack, fun x hx => hok.grow (hr.grow hx)⟩
            have := ihn e1 hrest hr1
            cases hfin : List.foldl (dfsStep (dfsCycle g fuel)) (DfsResult.clear e1) ns with
            | found c => rw [hfin] at this; exact this
            | clear e =>
              rw [hfin] at this
              obtain ⟨h1, h2, h3⟩ := this
              refine ⟨h1, ?_, fun x hx => h3 (hok.grow hx)⟩
              intro z hz
              rcases List.mem_cons.mp hz with rfl | hz
              · refine ⟨h3 hy, ?_⟩
                rw [h1.stack, ← hr.stack]
                exact fun hs => hv (hr.inv.sub _ hs)
              · exact h2 z hz
        · rw [if_neg hv]
          simp only [Classical.not_not] at hv
          by_cases hs : y ∈ e0.onStack
          · rw [if_pos hs, dfsStep_found]
            have hyp : y ∈ e0.path := (hr.inv.stack y).mp hs
            rw [if_pos hyp]
            have hlt := List.idxOf_lt_length_iff.mpr hyp
            have hl := linked_drop (e0.path.idxOf y) hr.inv.linked
            have hcons : e0.path.drop (e0.path.idxOf y) = y :: e0.path.drop (e0.path.idxOf y + 1) := by
              rw [List.drop_eq_getElem_cons hlt, List.getElem_idxOf]
            refine ⟨y, e0.path.drop (e0.path.idxOf y + 1), by rw [hcons]; rfl, ?_⟩
            rw [hpath] at hl hlt ⊢
            have hk : (d.path ++ [n]).idxOf y ≤ d.path.length := by simp at hlt; omega
            rw [List.drop_append_of_le_length hk] at hl ⊢
            exact linked_append hl hny
          · rw [if_neg hs]
            have := ihn e0 hrest hr
            cases hfin : List.foldl (dfsStep (dfsCycle g fuel)) (DfsResult.clear e0) ns with
            | found c => rw [hfin] at this; exact this
            | clear e =>
              rw [hfin] at this
              obtain ⟨h1, h2, h3⟩ := this
              refine ⟨h1, ?_, h3⟩
              intro z hz
              rcases List.mem_cons.mp hz with rfl | hz
              · refine ⟨h3 hv, ?_⟩
                rw [h1.stack, ← hr.stack]
                exact hs
              · exact h2 z hz
    have := loop ((mget g n).getD []) ⟨n :: d.visited, n :: d.onStack, d.path ++ [n]⟩ (fun y hy => hy)
      ⟨hd0, rfl, rfl, List.Subset.refl _⟩
    unfold dfsCycle
    cases hfin : List.foldl (dfsStep (dfsCycle g fuel))
        (DfsResult.clear ⟨n :: d.visited, n :: d.onStack, d.path ++ [n]⟩) ((mget g n).getD []) with
    | found c => rw [hfin] at this; exact this
    | clear e =>
      rw [hfin] at this
      obtain ⟨h1, h2, _⟩ := this
      have hstack : sdel e.onStack n = d.onStack := by
        rw [h1.stack]
        unfold sdel
        rw [List.filter_cons_of_neg (by simp)]
        refine List.filter_eq_self.mpr fun x hx => ?_
        simp only [decide_eq_true_eq]
        rintro rfl
        exact hns hx
      have hpath : e.path.dropLast = d.path := by rw [h1.path]; simp
      have hnv : n ∈ e.visited := h1.grow List.mem_cons_self
      have hmem : ∀ x, x ∈ e.onStack ↔ x = n ∨ x ∈ d.onStack := by intro x; rw [h1.stack]; simp
      show DOk g d { e with onStack := sdel e.onStack n, path := e.path.dropLast } ∧ n ∈ e.visited
      refine ⟨⟨?_, hpath, hstack, fun x hx => h1.grow (List.mem_cons_of_mem _ hx)⟩, hnv⟩
      refine ⟨?_, ?_, ?_, ?_, ?_⟩
      · intro x
        simp only [hstack, hpath]
        exact h.stack x
      · intro x hx
        simp only [hstack] at hx
        exact h1.inv.sub x ((hmem x).mpr (.inr hx))
      · simp only [hpath]; exact h.linked
      · intro x hx hxs y hxy
        simp only [hstack] at hxs ⊢
        by_cases hxn : x = n
        · subst hxn
          obtain ⟨h3, h4⟩ := h2 y hxy
          exact ⟨h3, fun hy => h4 ((hmem y).mpr (.inr hy))⟩
        · obtain ⟨h3, h4⟩ := h1.inv.closed x hx (fun hs => ((hmem x).mp hs).elim hxn hxs) y hxy
          exact ⟨h3, fun hy => h4 ((hmem y).mpr (.inr hy))⟩
      · intro x hx hxs hcyc
        simp only [hstack] at hxs
        by_cases hxn : x = n
        · subst hxn
          obtain ⟨y, hxy, hyx⟩ := TransGen.head'_iff.mp hcyc
          obtain ⟨h3, h4⟩ := h2 y hxy
          rcases Relation.reflTransGen_iff_eq_or_transGen.mp hyx with he | ht
          · subst he; exact h4 ((hmem _).mpr (.inl rfl))
          · exact (h1.inv.reach h3 h4 ht).2 ((hmem _).mpr (.inl rfl))
        · exact h1.inv.acyclic x hx (fun hs => ((hmem x).mp hs).elim hxn hxs) hcyc

theorem detectLoop_spec (g : List (Str × List Str)) (fuel : Nat) (ks : List Str) (d : Dfs) (h : DInv g d)
    (hp : d.path = []) (hks : ∀ k ∈ ks, k ∈ mkeys g) (hf : (graphNames g).length ≤ fuel) :
    match detectLoop g fuel ks d with
    | some c => ClosedPath g c
    | none => ∀ k, (k ∈ ks ∨ k ∈ d.visited) → ¬ TransGen (Edge g) k k := by
  have hst : ∀ x, x ∉ d.onStack := fun x hx => by have := (h.stack x).mp hx; rw [hp] at this; cases this
  induction ks generalizing d with
  | nil =>
    intro k hk
    rcases hk with hk | hk
    · cases hk
    · exact h.acyclic k hk (hst k)
  | cons k ks ih =>
    unfold detectLoop
    have hrest : ∀ k ∈ ks, k ∈ mkeys g := fun x hx => hks x (List.mem_cons_of_mem _ hx)
    by_cases hv : k ∈ d.visited
    · rw [if_pos hv]
      have := ih d h hp hrest hst
      cases hres : detectLoop g fuel ks d with
      | some c => rw [hres] at this; exact this
      | none =>
        rw [hres] at this
        intro x hx
        rcases hx with hx | hx
        · rcases List.mem_cons.mp hx with rfl | hx
          · exact this _ (.inr hv)
          · exact this x (.inl hx)
        · exact this x (.inr hx)
    · rw [if_neg hv]
      have hspec := dfsCycle_spec g fuel k d h hv (List.mem_append_left _ (hks k List.mem_cons_self))
        (Nat.le_trans (List.length_filter_le _ _) hf) (fun m hm => by rw [hp] at hm; cases hm)
      cases hres : dfsCycle g fuel k d with
      | found c => rw [hres] at hspec; exact hspec
      | clear e =>
        rw [hres] at hspec
        obtain ⟨hok, hk⟩ := hspec
        have := ih e hok.inv (hok.path.trans hp) hrest (by rw [hok.stack]; exact hst)
        simp only
        cases hres2 : detectLoop g fuel ks e with
        | some c => rw [hres2] at this; exact this
        | none =>
          rw [hres2] at this
          intro x hx
          rcases hx with hx | hx
          · rcases List.mem_cons.mp hx with rfl | hx
            · exact this _ (.inr hk)
            · exact this x (.inl hx)
          · exact this x (.inr (hok.grow hx))

/-- cycle detection: what is reported is a closed path of edges; if nothing is reported there is no cycle -/
theorem detectCycle_spec {env : Env} (hperm : ∀ l, (env.keyOrder l).Perm l) (g : List (Str × List Str)) :
    match detectCycle env g with
    | some c => ClosedPath g c
    | none => ∀ k, ¬ TransGen (Edge g) k k := by
  have h0 : DInv g ⟨[], [], []⟩ :=
    ⟨fun _ => Iff.rfl, fun _ h => (by cases h), trivial, fun _ h => (by cases h), fun _ h => (by cases h)⟩
  have := detectLoop_spec g ((graphNames g).length + 1) (env.keyOrder (mkeys g)) ⟨[], [], []⟩ h0 rfl
    (fun k hk => (hperm _).mem_iff.mp hk) (Nat.le_succ _)
  unfold detectCycle
  cases hres : detectLoop g ((graphNames g).length + 1) (env.keyOrder (mkeys g)) ⟨[], [], []⟩ with
  | some c => rw [hres] at this; exact this
  | none =>
    rw [hres] at this
    intro k hk
    obtain ⟨y, hky, _⟩ := TransGen.head'_iff.mp hk
    exact this k (.inl ((hperm _).mem_iff.mpr (edge_key hky))) hk

theorem closedPath_cyclic {g : List (Str × List Str)} {c : List Str} (h : ClosedPath g c) :
    ∃ x, c.head? = some x ∧ TransGen (Edge g) x x := by
  obtain ⟨x, l, rfl, hl⟩ := h
  refine ⟨x, rfl, ?_⟩
  cases l with
  | nil => exact TransGen.single hl.1
  | cons y l =>
    have := linked_transGen y (l ++ [x]) hl.2
    have e : (y :: (l ++ [x])).getLast?.getD y = x := by
      rw [← List.cons_append, List.getLast?_append]; simp
    rw [e] at this
    exact TransGen.head' hl.1 this

end Rez
